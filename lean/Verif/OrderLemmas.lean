import Verif.Spec.Order
/-! Lemmas about the order of accesses. -/
namespace Hoard.Order
open Spec

theorem getElem?_snoc {tr : List Ev} {e : Ev} {i : Nat} {a : Ev} (h : tr[i]? = some a) : (tr ++ [e])[i]? = some a := by
  rw [List.getElem?_append_left (List.getElem?_eq_some_iff.1 h).1]; exact h

theorem lt_of_get {tr : List Ev} {i : Nat} {a : Ev} (h : tr[i]? = some a) : i < tr.length := (List.getElem?_eq_some_iff.1 h).1

theorem Edge_snoc {acq : Bool} {tr : List Ev} {i j : Nat} (h : Edge acq tr i j) (e : Ev) : Edge acq (tr ++ [e]) i j := by
  obtain ⟨h1, a, b, h2, h3, h4⟩ := h
  exact ⟨h1, a, b, getElem?_snoc h2, getElem?_snoc h3, h4⟩

theorem HB_snoc {acq : Bool} {tr : List Ev} {i j : Nat} (h : HB acq tr i j) (e : Ev) : HB acq (tr ++ [e]) i j := by
  induction h with
  | one h => exact .one (Edge_snoc h e)
  | more _ h ih => exact .more ih (Edge_snoc h e)

/-- `next`, by cases. -/
inductive Step (s : S) (t : Nat) : Act → S → Prop where
  | use : can s t = true → Step s t .use s
  | inc : can s t = true → Step s t .inc { s with count := s.count + 1, held := t :: s.held }
  | dec : s.held.contains t = true → Step s t .dec { s with count := s.count - 1, held := s.held.erase t, dead := s.dead || s.count == 1 }
  | lock : s.owner = none → Step s t .lock { s with owner := some t }
  | unlock : s.owner = some t → Step s t .unlock { s with owner := none }
  | put : s.owner = some t → s.held.contains t = true → Step s t .put { s with held := s.held.erase t, shared := s.shared + 1 }
  | take : s.owner = some t → 0 < s.shared → Step s t .take { s with held := t :: s.held, shared := s.shared - 1 }

theorem step_of {s s' : S} {t : Nat} {a : Act} (h : next s ⟨t, a⟩ = some s') : Step s t a s' := by
  cases a <;> simp only [next, Option.ite_none_right_eq_some, Option.some.injEq] at h <;> obtain ⟨h1, rfl⟩ := h
  · exact .use h1
  · exact .inc h1
  · exact .dec h1
  · exact .lock h1
  · exact .unlock h1
  · exact .put h1.1 h1.2
  · exact .take h1.1 h1.2

/-- Position `i` is, or happens before, an action with property `P`. -/
def Seen (acq : Bool) (tr : List Ev) (P : Ev → Prop) (i : Nat) : Prop := ∃ k a, tr[k]? = some a ∧ P a ∧ (k = i ∨ HB acq tr i k)

theorem Seen.snoc {acq : Bool} {tr : List Ev} {P : Ev → Prop} {i : Nat} (h : Seen acq tr P i) (e : Ev) : Seen acq (tr ++ [e]) P i := by
  obtain ⟨k, a, h1, h2, h3⟩ := h
  exact ⟨k, a, getElem?_snoc h1, h2, h3.imp id (HB_snoc · e)⟩

/-- The new action comes after what is seen by those with an edge to it. -/
theorem Seen.last {acq : Bool} {tr : List Ev} {P : Ev → Prop} {i : Nat} (h : Seen acq tr P i) (e : Ev)
    (he : ∀ a, P a → a.thr = e.thr ∨ (a.act = .unlock ∧ e.act = .lock) ∨ (acq = true ∧ a.act = .dec ∧ e.act = .dec)) : HB acq (tr ++ [e]) i tr.length := by
  obtain ⟨k, a, h1, h2, h3⟩ := h
  have hE : Edge acq (tr ++ [e]) k tr.length := ⟨lt_of_get h1, a, e, getElem?_snoc h1, by simp, he a h2⟩
  rcases h3 with rfl | h3
  · exact .one hE
  · exact .more (HB_snoc h3 e) hE

theorem Seen.to_last {acq : Bool} {tr : List Ev} {P Q : Ev → Prop} {i : Nat} (h : Seen acq tr P i) (e : Ev) (hQ : Q e)
    (he : ∀ a, P a → a.thr = e.thr ∨ (a.act = .unlock ∧ e.act = .lock) ∨ (acq = true ∧ a.act = .dec ∧ e.act = .dec)) : Seen acq (tr ++ [e]) Q i :=
  ⟨tr.length, e, by simp, hQ, .inr (h.last e he)⟩

/-- Thread `t` knows of `i`; the lock does; the counter does. -/
abbrev Knows (acq : Bool) (tr : List Ev) (t : Nat) (i : Nat) : Prop := Seen acq tr (fun a => a.thr = t) i
abbrev InLock (acq : Bool) (tr : List Ev) (i : Nat) : Prop := Seen acq tr (fun a => a.act = .unlock) i
abbrev InCount (acq : Bool) (tr : List Ev) (i : Nat) : Prop := Seen acq tr (fun a => a.act = .dec) i

/-- Whoever may use what the lock guards knows of `i`. -/
def Guarded (acq : Bool) (tr : List Ev) (s : S) (i : Nat) : Prop := match s.owner with
  | none => InLock acq tr i
  | some u => Knows acq tr u i

theorem exec_append (s : S) (a b : List Ev) : exec s (a ++ b) = (exec s a).bind (fun s' => exec s' b) := by
  induction a generalizing s with
  | nil => rfl
  | cons e a ih =>
    simp only [List.cons_append, exec]
    cases next s e with
    | none => rfl
    | some s' => exact ih s'

theorem exec_snoc {s s' : S} {tr : List Ev} {e : Ev} (h : exec s (tr ++ [e]) = some s') : ∃ s1, exec s tr = some s1 ∧ next s1 e = some s' := by
  rw [exec_append] at h
  cases h1 : exec s tr with
  | none => simp [h1] at h
  | some s1 =>
    refine ⟨s1, rfl, ?_⟩
    simp only [h1, Option.bind_some, exec] at h
    cases h2 : next s1 e with
    | none => simp [h2] at h
    | some s2 => simpa [h2] using h

/-- The guarded knowledge survives every action. -/
theorem Guarded.step {acq : Bool} {tr : List Ev} {s s' : S} {e : Ev} (hn : next s e = some s') {i : Nat} (h : Guarded acq tr s i) : Guarded acq (tr ++ [e]) s' i := by
  unfold Guarded at h ⊢
  obtain ⟨t, a⟩ := e
  cases step_of hn
  case use => cases hs : s.owner <;> simp only [hs] at h ⊢ <;> exact h.snoc _
  case inc => cases hs : s.owner <;> simp only [hs] at h ⊢ <;> exact h.snoc _
  case dec => cases hs : s.owner <;> simp only [hs] at h ⊢ <;> exact h.snoc _
  case lock ho =>
    simp only [ho] at h
    exact h.to_last _ rfl (fun a ha => .inr (.inl ⟨ha, rfl⟩))
  case unlock ho =>
    simp only [ho] at h
    exact h.to_last _ rfl (fun a ha => .inl ha)
  case put => cases hs : s.owner <;> simp only [hs] at h ⊢ <;> exact h.snoc _
  case take => cases hs : s.owner <;> simp only [hs] at h ⊢ <;> exact h.snoc _

/-- The counter is the number of pointers. -/
theorem count_eq {tr : List Ev} {s : S} (h : exec start tr = some s) : s.count = s.held.length + s.shared ∧ s.dead = (s.count == 0) := by
  have key : ∀ (tr : List Ev) (r : S), r.count = r.held.length + r.shared ∧ r.dead = (r.count == 0) → exec r tr = some s → s.count = s.held.length + s.shared ∧ s.dead = (s.count == 0) := by
    intro tr
    induction tr with
    | nil => intro r hr h; cases h; exact hr
    | cons e tr ih =>
      intro r hr h
      simp only [exec] at h
      cases hn : next r e with
      | none => simp [hn] at h
      | some r' =>
        simp only [hn] at h
        refine ih r' ?_ h
        obtain ⟨t, a⟩ := e
        have hpos : r.held.contains t = true → 0 < r.held.length := by
          intro q; cases hh : r.held with
          | nil => simp [hh] at q
          | cons => simp
        have hlen : r.held.contains t = true → (r.held.erase t).length = r.held.length - 1 := fun q => List.length_erase_of_mem (List.contains_iff_mem.1 q)
        obtain ⟨hr1, hr2⟩ := hr
        cases step_of hn
        case use => exact ⟨hr1, hr2⟩
        case inc hc =>
          refine ⟨by simp; omega, ?_⟩
          have : r.count ≠ 0 := by
            simp only [can, Bool.or_eq_true, Bool.and_eq_true, decide_eq_true_eq] at hc
            rcases hc with q | q
            · have := hpos q; omega
            · omega
          rw [hr2]; simp [this]
        case dec hc =>
          have h1 := hpos hc; have h2 := hlen hc
          refine ⟨by simp only [h2]; omega, ?_⟩
          have : r.count ≠ 0 := by omega
          simp only [hr2, beq_eq_false_iff_ne.2 this, Bool.false_or]
          rw [Bool.eq_iff_iff]; simp; omega
        case lock => exact ⟨hr1, hr2⟩
        case unlock => exact ⟨hr1, hr2⟩
        case put _ hc =>
          have h1 := hpos hc; have h2 := hlen hc
          exact ⟨by simp only [h2]; omega, hr2⟩
        case take _ hc => exact ⟨by simp; omega, hr2⟩
  exact key tr start (by decide) h

theorem last_one {tr : List Ev} {s : S} (h : exec start tr = some s) (h1 : s.count = 1) {t : Nat} (ht : t ∈ s.held) : s.held = [t] ∧ s.shared = 0 := by
  have := (count_eq h).1
  cases hh : s.held with
  | nil => simp [hh] at ht
  | cons a l =>
    rw [hh, h1, List.length_cons] at this
    have hl : l = [] := List.length_eq_zero_iff.1 (by omega)
    rw [hh, hl] at ht
    simp at ht
    subst ht
    exact ⟨by rw [hl], by omega⟩

/-- Where the knowledge of an access is: in the counter, with a thread that has a pointer, or guarded by the lock with a pointer in the table. -/
theorem somewhere {acq : Bool} {tr : List Ev} {s : S} (h : exec start tr = some s) (i : Nat) (hu : ∃ t, tr[i]? = some ⟨t, .use⟩) :
    InCount acq tr i ∨ (∃ t ∈ s.held, Knows acq tr t i) ∨ (0 < s.shared ∧ Guarded acq tr s i) := by
  have key : ∀ (l : List Ev) (tr : List Ev) (s : S), tr = l.reverse → exec start tr = some s → (∃ t, tr[i]? = some ⟨t, .use⟩) →
      InCount acq tr i ∨ (∃ t ∈ s.held, Knows acq tr t i) ∨ (0 < s.shared ∧ Guarded acq tr s i) := by
    intro l
    induction l with
    | nil => rintro tr s rfl _ ⟨t, hu⟩; simp at hu
    | cons e l ih =>
      rintro tr s rfl h ⟨t0, hu⟩
      rw [List.reverse_cons] at h hu ⊢
      obtain ⟨s1, h1, hn⟩ := exec_snoc h
      have ih := ih l.reverse s1 rfl h1
      generalize l.reverse = tr at *
      by_cases hi : i < tr.length
      · rw [List.getElem?_append_left hi] at hu
        rcases ih ⟨t0, hu⟩ with q | ⟨t, ht, q⟩ | ⟨hs, q⟩
        · exact .inl (q.snoc e)
        · obtain ⟨u, a⟩ := e
          cases step_of hn
          case use => exact .inr (.inl ⟨t, ht, q.snoc _⟩)
          case inc => exact .inr (.inl ⟨t, List.mem_cons_of_mem _ ht, q.snoc _⟩)
          case dec =>
            by_cases htu : t = u
            · subst htu; exact .inl (q.to_last _ rfl (fun a ha => .inl ha))
            · exact .inr (.inl ⟨t, (List.mem_erase_of_ne htu).2 ht, q.snoc _⟩)
          case lock => exact .inr (.inl ⟨t, ht, q.snoc _⟩)
          case unlock => exact .inr (.inl ⟨t, ht, q.snoc _⟩)
          case put hc _ =>
            by_cases htu : t = u
            · subst htu
              refine .inr (.inr ⟨Nat.succ_pos _, ?_⟩)
              unfold Guarded
              simp only [hc]
              exact q.snoc _
            · exact .inr (.inl ⟨t, (List.mem_erase_of_ne htu).2 ht, q.snoc _⟩)
          case take => exact .inr (.inl ⟨t, List.mem_cons_of_mem _ ht, q.snoc _⟩)
        · have q' := q.step hn
          obtain ⟨u, a⟩ := e
          cases step_of hn
          case use => exact .inr (.inr ⟨hs, q'⟩)
          case inc => exact .inr (.inr ⟨hs, q'⟩)
          case dec => exact .inr (.inr ⟨hs, q'⟩)
          case lock => exact .inr (.inr ⟨hs, q'⟩)
          case unlock => exact .inr (.inr ⟨hs, q'⟩)
          case put => exact .inr (.inr ⟨Nat.succ_pos _, q'⟩)
          case take hc _ =>
            refine .inr (.inl ⟨u, List.mem_cons_self, ?_⟩)
            unfold Guarded at q'
            simp only [hc] at q'
            exact q'
      · have hi : i = tr.length := by have := lt_of_get hu; simp at this; omega
        subst hi
        simp at hu
        subst hu
        simp only [next] at hn
        split at hn <;> cases hn
        rename_i hc
        have hk : Knows acq (tr ++ [⟨t0, .use⟩]) t0 tr.length := ⟨tr.length, ⟨t0, .use⟩, by simp, rfl, .inl rfl⟩
        simp only [can, Bool.or_eq_true, Bool.and_eq_true, decide_eq_true_eq, beq_iff_eq, List.contains_iff_mem] at hc
        rcases hc with q | ⟨q, hs⟩
        · exact .inr (.inl ⟨t0, q, hk⟩)
        · refine .inr (.inr ⟨hs, ?_⟩)
          unfold Guarded
          simp only [q]
          exact hk
  exact key tr.reverse tr s (by simp) h hu

/-- What is done under the lock is known to whoever has it later. -/
theorem locked_guarded {acq : Bool} {tr : List Ev} {s : S} (h : exec start tr = some s) {i : Nat} (hl : LockedAt tr i) : Guarded acq tr s i := by
  obtain ⟨s0, e, h0, hi, ho⟩ := hl
  have hsplit : tr = tr.take i ++ e :: tr.drop (i + 1) := by
    obtain ⟨hlt, hg⟩ := List.getElem?_eq_some_iff.1 hi
    rw [← hg, ← List.drop_eq_getElem_cons hlt, List.take_append_drop]
  have hlen : (tr.take i).length = i := by rw [List.length_take]; have := lt_of_get hi; omega
  generalize tr.take i = a at *
  generalize tr.drop (i + 1) = b at *
  subst hsplit
  have key : ∀ (b : List Ev) (p : List Ev) (r : S), Guarded acq p r i → exec r b = some s → Guarded acq (p ++ b) s i := by
    intro b
    induction b with
    | nil => intro p r hg h; cases h; simpa using hg
    | cons x b ih =>
      intro p r hg h
      simp only [exec] at h
      cases hn : next r x with
      | none => simp [hn] at h
      | some r' =>
        simp only [hn] at h
        have := ih (p ++ [x]) r' (hg.step hn) h
        simpa using this
  rw [exec_append, h0] at h
  simp only [Option.bind_some, exec] at h
  cases hn : next s0 e with
  | none => simp [hn] at h
  | some s1 =>
    simp only [hn] at h
    have hg : Guarded acq (a ++ [e]) s1 i := by
      have hk : ∀ P : Ev → Prop, P e → Seen acq (a ++ [e]) P i := fun P hP => ⟨i, e, by simp [← hlen], hP, .inl rfl⟩
      unfold Guarded
      obtain ⟨t, x⟩ := e
      cases step_of hn <;> simp only [ho] at * <;> first | exact hk _ rfl | simp_all
    have := key b (a ++ [e]) s1 hg h
    simpa using this

/-- Where the knowledge of an access is when it or all destructions of pointers are under the lock. -/
theorem somewhere_locked {acq : Bool} {tr : List Ev} {s : S} (h : exec start tr = some s) (i : Nat) (hu : ∃ t, tr[i]? = some ⟨t, .use⟩)
    (hl : LockedAt tr i ∨ ∀ j t, i < j → tr[j]? = some ⟨t, .dec⟩ → LockedAt tr j) : Guarded acq tr s i ∨ (∃ t ∈ s.held, Knows acq tr t i) := by
  have key : ∀ (l : List Ev) (tr : List Ev) (s : S), tr = l.reverse → exec start tr = some s → (∃ t, tr[i]? = some ⟨t, .use⟩) →
      (LockedAt tr i ∨ ∀ j t, i < j → tr[j]? = some ⟨t, .dec⟩ → LockedAt tr j) →
      Guarded acq tr s i ∨ (∃ t ∈ s.held, Knows acq tr t i) := by
    intro l
    induction l with
    | nil => rintro tr s rfl _ ⟨t, hu⟩; simp at hu
    | cons e l ih =>
      rintro tr s rfl h ⟨t0, hu⟩ hl
      rw [List.reverse_cons] at h hu hl ⊢
      obtain ⟨s1, h1, hn⟩ := exec_snoc h
      have ih := ih l.reverse s1 rfl h1
      generalize l.reverse = tr at *
      have hback : ∀ j, j < tr.length → LockedAt (tr ++ [e]) j → LockedAt tr j := by
        rintro j hj ⟨s2, a, q1, q2, q3⟩
        rw [List.take_append_of_le_length (Nat.le_of_lt hj)] at q1
        rw [List.getElem?_append_left hj] at q2
        exact ⟨s2, a, q1, q2, q3⟩
      have hlast : LockedAt (tr ++ [e]) tr.length → s1.owner = some e.thr := by
        rintro ⟨s2, a, q1, q2, q3⟩
        rw [List.take_left, h1] at q1
        simp at q2
        cases q1; subst q2; exact q3
      by_cases hi : i < tr.length
      · rw [List.getElem?_append_left hi] at hu
        have hl' : LockedAt tr i ∨ ∀ j t, i < j → tr[j]? = some ⟨t, .dec⟩ → LockedAt tr j := by
          rcases hl with q | q
          · exact .inl (hback i hi q)
          · exact .inr fun j t hij hj => hback j (lt_of_get hj) (q j t hij (getElem?_snoc hj))
        by_cases hG : Guarded acq tr s1 i
        · exact .inl (hG.step hn)
        rcases ih ⟨t0, hu⟩ hl' with q | ⟨t, ht, q⟩
        · exact absurd q hG
        · obtain ⟨u, a⟩ := e
          cases step_of hn
          case use => exact .inr ⟨t, ht, q.snoc _⟩
          case inc => exact .inr ⟨t, List.mem_cons_of_mem _ ht, q.snoc _⟩
          case dec =>
            by_cases htu : t = u
            · subst htu
              rcases hl with hl | hl
              · exfalso
                refine hG ?_
                exact locked_guarded h1 (hback i hi hl)
              · have ho := hlast (hl tr.length t hi (by simp))
                refine .inl ?_
                unfold Guarded
                simp only [ho]
                exact q.snoc _
            · exact .inr ⟨t, (List.mem_erase_of_ne htu).2 ht, q.snoc _⟩
          case lock => exact .inr ⟨t, ht, q.snoc _⟩
          case unlock => exact .inr ⟨t, ht, q.snoc _⟩
          case put hc _ =>
            by_cases htu : t = u
            · subst htu
              refine .inl ?_
              unfold Guarded
              simp only [hc]
              exact q.snoc _
            · exact .inr ⟨t, (List.mem_erase_of_ne htu).2 ht, q.snoc _⟩
          case take => exact .inr ⟨t, List.mem_cons_of_mem _ ht, q.snoc _⟩
      · have hi : i = tr.length := by have := lt_of_get hu; simp at this; omega
        subst hi
        simp at hu
        subst hu
        cases step_of hn
        rename_i hc
        have hk : Knows acq (tr ++ [⟨t0, .use⟩]) t0 tr.length := ⟨tr.length, ⟨t0, .use⟩, by simp, rfl, .inl rfl⟩
        simp only [can, Bool.or_eq_true, Bool.and_eq_true, decide_eq_true_eq, beq_iff_eq, List.contains_iff_mem] at hc
        rcases hc with q | ⟨q, hs⟩
        · exact .inr ⟨t0, q, hk⟩
        · refine .inl ?_
          unfold Guarded
          simp only [q]
          exact hk
  exact key tr.reverse tr s (by simp) h hu hl

theorem HB_append {acq : Bool} {tr : List Ev} {i j : Nat} (h : HB acq tr i j) (l : List Ev) : HB acq (tr ++ l) i j := by
  induction l generalizing tr with
  | nil => simpa using h
  | cons e l ih => have := ih (HB_snoc h e); simpa using this

theorem split_at {tr : List Ev} {d : Nat} {e : Ev} (h : tr[d]? = some e) : tr = (tr.take d ++ [e]) ++ tr.drop (d + 1) ∧ (tr.take d).length = d := by
  obtain ⟨hlt, hg⟩ := List.getElem?_eq_some_iff.1 h
  refine ⟨?_, by rw [List.length_take]; omega⟩
  rw [← hg, List.append_assoc, List.singleton_append, ← List.drop_eq_getElem_cons hlt, List.take_append_drop]

/-- When an action destroys the object, its pointer is the only one. -/
theorem destroys_last {tr : List Ev} {s s' : S} {t : Nat} (h : exec start tr = some s) (hd : s.dead = false) (hn : next s ⟨t, .dec⟩ = some s') (hd' : s'.dead = true) :
    s.held = [t] ∧ s.shared = 0 := by
  cases step_of hn with
  | dec hc =>
    simp only [hd, Bool.false_or, beq_iff_eq] at hd'
    exact last_one h hd' (List.contains_iff_mem.1 hc)

/-- Nothing uses a dead object, and it stays dead. -/
theorem dead_no_use {tr : List Ev} {s s' : S} {e : Ev} (h : exec start tr = some s) (hd : s.dead = true) (hn : next s e = some s') :
    (e.act = .lock ∨ e.act = .unlock) ∧ s'.dead = true := by
  obtain ⟨h1, h2⟩ := count_eq h
  rw [hd] at h2
  have h0 : s.count = 0 := by simpa using h2.symm
  have hh : s.held = [] := List.length_eq_zero_iff.1 (by omega)
  have hs : s.shared = 0 := by omega
  obtain ⟨t, a⟩ := e
  have hcan : can s t = false := by simp [can, hh, hs]
  cases step_of hn
  case use q => simp [hcan] at q
  case inc q => simp [hcan] at q
  case dec q => simp [hh] at q
  case lock => exact ⟨.inl rfl, hd⟩
  case unlock => exact ⟨.inr rfl, hd⟩
  case put _ q => simp [hh] at q
  case take _ q => omega

theorem dead_rest {tr l : List Ev} {s s' : S} (h : exec start tr = some s) (hd : s.dead = true) (hl : exec s l = some s') :
    (∀ e ∈ l, e.act = .lock ∨ e.act = .unlock) ∧ s'.dead = true := by
  induction l generalizing tr s with
  | nil => cases hl; exact ⟨by simp, hd⟩
  | cons e l ih =>
    simp only [exec] at hl
    cases hn : next s e with
    | none => simp [hn] at hl
    | some s1 =>
      simp only [hn] at hl
      obtain ⟨q1, q2⟩ := dead_no_use h hd hn
      have h1 : exec start (tr ++ [e]) = some s1 := by rw [exec_append, h]; simp [exec, hn]
      obtain ⟨q3, q4⟩ := ih h1 q2 hl
      exact ⟨by intro x hx; rcases List.mem_cons.1 hx with rfl | hx; exact q1; exact q3 x hx, q4⟩

end Hoard.Order
