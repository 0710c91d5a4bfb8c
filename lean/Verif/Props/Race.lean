import Verif.Race
/-!
# C38: several threads deliver on the same completion handle

The property is false of the code: `called` is read before the lock is taken.  What remains true is that the
waiters hear of one delivery at most, that at most one of several `assign`/`assign_error` returns true,
and that all is well if the deliveries do not overlap.
-/
namespace Hoard.Props
open Hoard.Race
open Threads (set)

private theorem set_same {α : Type} (f : Nat → α) (t : Nat) (v : α) : set f t v t = v := by simp [Threads.set]

private theorem set_other {α : Type} (f : Nat → α) {t u : Nat} (v : α) (h : u ≠ t) : set f t v u = f u := by simp [Threads.set, h]

/-- Thread holds the lock. -/
private def inside : Pc → Prop
  | .locked | .applied | .flagged => True
  | _ => False

/-- Thread has delivered. -/
private def delivered : Pc → Prop
  | .applied | .flagged | .done (.returned true) => True
  | _ => False

private structure RInv (s : Race.St) : Prop where
  fresh : s.cell = .pending → s.answered = []
  once : s.answered.length ≤ 1
  owner : ∀ t, inside (s.pc t) ↔ s.owner = some t

private theorem rinv_step {kind : Nat → Kind} {s s' : Race.St} {t : Nat} (i : RInv s) (h : Race.step kind s t = some s') : RInv s' := by
  obtain ⟨i1, i2, i3⟩ := i
  have it := i3 t
  unfold Race.step at h
  split at h
  · rename_i hp
    cases h
    refine ⟨i1, i2, fun u => ?_⟩
    by_cases hu : u = t
    · subst hu; simp only [set_same]; rw [hp] at it; rw [← it]; split <;> simp [inside]
    · simp only [set_other _ _ hu]; exact i3 u
  · rename_i hp
    split at h
    · rename_i ho
      cases h
      refine ⟨i1, i2, fun u => ?_⟩
      by_cases hu : u = t
      · subst hu; simp only [set_same]; simp [inside]
      · simp only [set_other _ _ hu, i3 u, ho]; simp; exact fun x => hu x.symm
    · cases h
  · rename_i hp
    have ho : s.owner = some t := it.1 (by rw [hp]; trivial)
    split at h
    · split at h
      · rename_i hc
        cases h
        refine ⟨fun x => (by cases x), by simp [i1 hc], fun u => ?_⟩
        by_cases hu : u = t
        · subst hu; simp [set_same, inside, ho]
        · simp only [set_other _ _ hu]; exact i3 u
      · cases h
        refine ⟨fun x => (by cases x), i2, fun u => ?_⟩
        by_cases hu : u = t
        · subst hu; simp [set_same, inside, ho]
        · simp only [set_other _ _ hu]; exact i3 u
      · cases h
        refine ⟨i1, i2, fun u => ?_⟩
        by_cases hu : u = t
        · subst hu; simp [set_same, inside]
        · simp only [set_other _ _ hu, i3 u, ho]; simp; exact fun x => hu x.symm
    · split at h
      · rename_i hc
        cases h
        refine ⟨fun x => (by cases x), by simp [i1 hc], fun u => ?_⟩
        by_cases hu : u = t
        · subst hu; simp [set_same, inside, ho]
        · simp only [set_other _ _ hu]; exact i3 u
      · cases h
        refine ⟨fun x => (by cases x), i2, fun u => ?_⟩
        by_cases hu : u = t
        · subst hu; simp [set_same, inside, ho]
        · simp only [set_other _ _ hu]; exact i3 u
      · cases h
        refine ⟨i1, i2, fun u => ?_⟩
        by_cases hu : u = t
        · subst hu; simp [set_same, inside]
        · simp only [set_other _ _ hu, i3 u, ho]; simp; exact fun x => hu x.symm
    · cases h
      refine ⟨fun x => ?_, i2, fun u => ?_⟩
      · apply i1
        revert x
        cases s.cell <;> simp
      by_cases hu : u = t
      · subst hu; simp [set_same, inside]
      · simp only [set_other _ _ hu, i3 u, ho]; simp; exact fun x => hu x.symm
  · rename_i hp
    have ho : s.owner = some t := it.1 (by rw [hp]; trivial)
    cases h
    refine ⟨i1, i2, fun u => ?_⟩
    by_cases hu : u = t
    · subst hu; simp [set_same, inside, ho]
    · simp only [set_other _ _ hu]; exact i3 u
  · rename_i hp
    have ho : s.owner = some t := it.1 (by rw [hp]; trivial)
    cases h
    refine ⟨i1, i2, fun u => ?_⟩
    by_cases hu : u = t
    · subst hu; simp [set_same, inside]
    · simp only [set_other _ _ hu, i3 u, ho]; simp; exact fun x => hu x.symm
  · rename_i hp
    cases h
    refine ⟨i1, i2, fun u => ?_⟩
    by_cases hu : u = t
    · subst hu; simp only [set_same]; rw [hp] at it; rw [← it]; simp [inside]
    · simp only [set_other _ _ hu]; exact i3 u
  · cases h

private theorem reached_ind {kind : Nat → Kind} {P : Race.St → Prop} (h0 : P {})
    (hs : ∀ s s' t, P s → Race.step kind s t = some s' → P s') : ∀ s, Race.Reached kind s → P s := by
  intro s ⟨ts, h⟩
  have : ∀ ts s0, P s0 → Race.exec kind s0 ts = some s → P s := by
    intro ts
    induction ts with
    | nil => intro s0 p h; cases h; exact p
    | cons t ts ih =>
      intro s0 p h
      simp only [Race.exec] at h
      split at h
      · cases h
      · rename_i s1 h1
        exact ih s1 (hs s0 s1 t p h1) h
  exact this ts {} h0 h

private theorem rinv {kind : Nat → Kind} {s : Race.St} (h : Race.Reached kind s) : RInv s :=
  reached_ind ⟨fun _ => rfl, by simp, fun t => by simp [inside]⟩ (fun _ _ _ i hs => rinv_step i hs) s h

/-- However many threads deliver whatever they like, in any interleaving: the waiters hear of at most one delivery. -/
theorem C38_waiters_answered_at_most_once (kind : Nat → Kind) (s : Race.St) (h : Race.Reached kind s) : s.answered.length ≤ 1 :=
  (rinv h).once

/-- At most one thread at a time is inside the locked part. -/
theorem C38_one_thread_inside (kind : Nat → Kind) (s : Race.St) (h : Race.Reached kind s) (t u : Nat)
    (ht : s.pc t = .locked ∨ s.pc t = .applied ∨ s.pc t = .flagged) (hu : s.pc u = .locked ∨ s.pc u = .applied ∨ s.pc u = .flagged) : t = u := by
  have f : ∀ x, (s.pc x = .locked ∨ s.pc x = .applied ∨ s.pc x = .flagged) → s.owner = some x := by
    intro x hx
    apply ((rinv h).owner x).1
    rcases hx with hx | hx | hx <;> rw [hx] <;> trivial
  have := (f t ht).symm.trans (f u hu)
  exact Option.some.inj this

/-- As long as a delivery has not ended, some thread can go on. -/
theorem C38_no_deadlock (kind : Nat → Kind) (s : Race.St) (h : Race.Reached kind s) (t : Nat) (ht : ∀ r, s.pc t ≠ .done r) :
    ∃ u, (Race.step kind s u).isSome := by
  cases ho : s.owner with
  | some u =>
    refine ⟨u, ?_⟩
    have := ((rinv h).owner u).2 ho
    unfold Race.step
    cases hp : s.pc u <;> rw [hp] at this <;> simp only [inside] at this
    · cases kind u <;> cases s.cell <;> rfl
    · rfl
    · rfl
  | none =>
    refine ⟨t, ?_⟩
    unfold Race.step
    cases hp : s.pc t with
    | done r => exact absurd hp (ht r)
    | locked => cases kind t <;> cases s.cell <;> rfl
    | checked => simp [ho]
    | start => rfl
    | applied => rfl
    | flagged => rfl
    | released => rfl

private structure VInv (s : Race.St) : Prop where
  base : RInv s
  notc : s.cell ≠ .cancelled
  filled : s.cell = .filled ↔ s.answered ≠ []
  flag : s.called = true → s.cell = .filled
  mem : ∀ t, t ∈ s.answered ↔ delivered (s.pc t)
  rel : ∀ t, s.pc t ≠ .released
  fin : ∀ t r, s.pc t = .done r → s.cell = .filled

private theorem vinv_step {kind : Nat → Kind} (hk : ∀ t, kind t ≠ .cancel) {s s' : Race.St} {t : Nat} (v : VInv s) (h : Race.step kind s t = some s') : VInv s' := by
  have b := rinv_step v.base h
  obtain ⟨i, v1, v2, v3, v4, v5, v6⟩ := v
  have v4t := v4 t
  unfold Race.step at h
  split at h
  · rename_i hp
    cases h
    rw [hp] at v4t
    refine ⟨b, v1, v2, v3, fun u => ?_, fun u => ?_, fun u r => ?_⟩ <;> by_cases hu : u = t
    · subst hu; simp only [set_same]; rw [v4t]; split <;> simp [delivered]
    · simp only [set_other _ _ hu]; exact v4 u
    · subst hu; simp only [set_same]; split <;> simp
    · simp only [set_other _ _ hu]; exact v5 u
    · subst hu; simp only [set_same]
      split
      · exact fun _ => v3 (by assumption)
      · intro x; cases x
    · simp only [set_other _ _ hu]; exact v6 u r
  · rename_i hp
    rw [hp] at v4t
    split at h
    · cases h
      refine ⟨b, v1, v2, v3, fun u => ?_, fun u => ?_, fun u r => ?_⟩ <;> by_cases hu : u = t
      · subst hu; simp only [set_same]; rw [v4t]; simp [delivered]
      · simp only [set_other _ _ hu]; exact v4 u
      · subst hu; simp [set_same]
      · simp only [set_other _ _ hu]; exact v5 u
      · subst hu; simp [set_same]
      · simp only [set_other _ _ hu]; exact v6 u r
    · cases h
  · rename_i hp
    rw [hp] at v4t
    have key : ∀ {s' : Race.St}, (match s.cell with
      | .pending => some { s with cell := .filled, answered := s.answered ++ [t], pc := set s.pc t .applied }
      | .cancelled => some { s with cell := .filled, pc := set s.pc t .applied }
      | .filled => some { s with owner := none, pc := set s.pc t (.done .threw) }) = some s' → RInv s' → VInv s' := by
      intro s' h b
      split at h
      · rename_i hc
        cases h
        have hn := i.fresh hc
        refine ⟨b, by simp, by simp, fun _ => rfl, fun u => ?_, fun u => ?_, fun u r => fun _ => rfl⟩ <;> by_cases hu : u = t
        · subst hu; simp [set_same, delivered]
        · simp only [set_other _ _ hu]; rw [← v4 u]; simp [hu]
        · subst hu; simp [set_same]
        · simp only [set_other _ _ hu]; exact v5 u
      · exact absurd (by assumption) v1
      · rename_i hc
        cases h
        refine ⟨b, v1, v2, v3, fun u => ?_, fun u => ?_, fun u r => fun _ => hc⟩ <;> by_cases hu : u = t
        · subst hu; simp only [set_same]; rw [v4t]; simp [delivered]
        · simp only [set_other _ _ hu]; exact v4 u
        · subst hu; simp [set_same]
        · simp only [set_other _ _ hu]; exact v5 u
    split at h
    · exact key h b
    · exact key h b
    · exact absurd (by assumption) (hk t)
  · rename_i hp
    rw [hp] at v4t
    cases h
    have hf : s.cell = .filled := by
      apply v2.2
      intro e
      have := v4t.2 trivial
      rw [e] at this; cases this
    refine ⟨b, v1, v2, fun _ => hf, fun u => ?_, fun u => ?_, fun u r => fun _ => hf⟩ <;> by_cases hu : u = t
    · subst hu; simp only [set_same]; rw [v4t]; simp [delivered]
    · simp only [set_other _ _ hu]; exact v4 u
    · subst hu; simp [set_same]
    · simp only [set_other _ _ hu]; exact v5 u
  · rename_i hp
    rw [hp] at v4t
    cases h
    have hf : s.cell = .filled := by
      apply v2.2
      intro e
      have := v4t.2 trivial
      rw [e] at this; cases this
    refine ⟨b, v1, v2, v3, fun u => ?_, fun u => ?_, fun u r => fun _ => hf⟩ <;> by_cases hu : u = t
    · subst hu; simp only [set_same]; rw [v4t]; simp [delivered]
    · simp only [set_other _ _ hu]; exact v4 u
    · subst hu; simp [set_same]
    · simp only [set_other _ _ hu]; exact v5 u
  · rename_i hp
    exact absurd hp (v5 t)
  · cases h

private theorem vinv {kind : Nat → Kind} (hk : ∀ t, kind t ≠ .cancel) {s : Race.St} (h : Race.Reached kind s) : VInv s :=
  reached_ind (P := VInv) ⟨rinv (kind := kind) ⟨[], rfl⟩, by simp, by simp, by simp, fun t => by simp [delivered], by simp, by simp⟩
    (fun _ _ _ i hs => vinv_step hk i hs) s h

private theorem only_of_short {l : List Nat} (h : l.length ≤ 1) {a b : Nat} (ha : a ∈ l) (hb : b ∈ l) : a = b := by
  match l, h with
  | [], _ => cases ha
  | [c], _ => simp at ha hb; omega
  | _ :: _ :: _, h => simp at h

/-- Values and errors only, any interleaving: of all deliveries at most one returns true,
and it is the one the waiters hear of.  Missing from C38: the others may throw instead of returning false
(`C38_second_delivery_may_throw`). -/
theorem C38_one_takes_effect_partial (kind : Nat → Kind) (hk : ∀ t, kind t ≠ .cancel) (s : Race.St) (h : Race.Reached kind s) :
    (∀ t, s.pc t = .done (.returned true) → s.answered = [t]) ∧
    (∀ t u, s.pc t = .done (.returned true) → s.pc u = .done (.returned true) → t = u) ∧
    (∀ t r, s.pc t = .done r → (∀ u, s.pc u = .start ∨ ∃ q, s.pc u = .done q) → ∃ u, s.pc u = .done (.returned true) ∧ s.answered = [u]) := by
  have v := vinv hk h
  have m : ∀ t, s.pc t = .done (.returned true) → t ∈ s.answered := fun t ht => (v.mem t).2 (by rw [ht]; trivial)
  have eqs : ∀ t, t ∈ s.answered → s.answered = [t] := by
    intro t ht
    have := v.base.once
    match e : s.answered, this with
    | [], _ => rw [e] at ht; cases ht
    | [c], _ => rw [e] at ht; simp at ht; rw [ht]
    | _ :: _ :: _, h => simp at h
  refine ⟨fun t ht => eqs t (m t ht), fun t u ht hu => only_of_short v.base.once (m t ht) (m u hu), ?_⟩
  intro t r ht hall
  have hf := v.filled.1 (v.fin t r ht)
  obtain ⟨u, hu⟩ := List.exists_mem_of_ne_nil _ hf
  refine ⟨u, ?_, eqs u hu⟩
  have hd := (v.mem u).1 hu
  rcases hall u with e | ⟨q, e⟩
  · rw [e] at hd; cases hd
  · rw [e] at hd ⊢
    match q, hd with
    | .returned true, _ => rfl

/-- The property as stated is false: two threads that both call `assign` on the same handle; both find it unused, the first
delivers, and the second throws (it does not return false). -/
theorem C38_second_delivery_may_throw :
    ∃ s, Race.Reached (fun _ => .assign) s ∧ s.pc 0 = .done (.returned true) ∧ s.pc 1 = .done .threw :=
  ⟨_, ⟨[0, 1, 0, 0, 0, 0, 1, 1], rfl⟩, rfl, rfl⟩

/-- Likewise with an error: `assign_error` that comes second ends in the same way, inside a function that must not throw. -/
theorem C38_second_error_may_throw :
    ∃ s, Race.Reached (fun t => if t = 0 then .assign else .error) s ∧ s.pc 0 = .done (.returned true) ∧ s.pc 1 = .done .threw :=
  ⟨_, ⟨[0, 1, 0, 0, 0, 0, 1, 1], rfl⟩, rfl, rfl⟩

/-- And a value delivered against a cancellation: both return true. -/
theorem C38_value_and_cancel_both_succeed :
    ∃ s, Race.Reached (fun t => if t = 0 then .assign else .cancel) s ∧ s.pc 0 = .done (.returned true) ∧ s.pc 1 = .done (.returned true) ∧
      s.answered = [] :=
  ⟨_, ⟨[0, 1, 1, 1, 1, 0, 0, 0, 0], rfl⟩, rfl, rfl, rfl⟩

private theorem alone_called {kind : Nat → Kind} {s : Race.St} {t : Nat} (hc : s.called = true) (hp : s.pc t = .start) :
    Race.alone kind 5 s t = { s with pc := set s.pc t (.done (.returned false)) } := by
  simp [Race.alone, Race.step, hp, hc, set_same]

private theorem rest_false {kind : Nat → Kind} (ts : List Nat) (s : Race.St) (hc : s.called = true) (hs : ∀ t ∈ ts, s.pc t = .start) (hn : ts.Nodup) :
    (Race.oneByOne kind s ts).answered = s.answered ∧ (Race.oneByOne kind s ts).cell = s.cell ∧
    (∀ t ∈ ts, (Race.oneByOne kind s ts).pc t = .done (.returned false)) ∧ (∀ t, t ∉ ts → (Race.oneByOne kind s ts).pc t = s.pc t) := by
  induction ts generalizing s with
  | nil => exact ⟨rfl, rfl, fun t h => by simp at h, fun t _ => rfl⟩
  | cons a ts ih =>
    simp only [Race.oneByOne]
    rw [alone_called hc (hs a (by simp))]
    simp only [List.nodup_cons] at hn
    obtain ⟨h1, h2, h3, h4⟩ := ih { s with pc := set s.pc a (.done (.returned false)) } hc
      (fun t ht => by
        have : t ≠ a := fun e => hn.1 (e ▸ ht)
        simp only [set_other _ _ this]; exact hs t (by simp [ht])) hn.2
    refine ⟨h1, h2, fun t ht => ?_, fun t ht => ?_⟩
    · by_cases e : t = a
      · subst e; rw [h4 t hn.1]; simp only [set_same]
      · exact h3 t (by simpa [e] using ht)
    · simp only [List.mem_cons, not_or] at ht
      rw [h4 t ht.2]; simp only [set_other _ _ ht.1]

private theorem alone_first (kind : Nat → Kind) (t : Nat) :
    (Race.alone kind 5 {} t).called = true ∧ (Race.alone kind 5 {} t).pc t = .done (.returned true) ∧
    (Race.alone kind 5 {} t).answered = (if kind t = .cancel then [] else [t]) ∧ (∀ u, u ≠ t → (Race.alone kind 5 {} t).pc u = .start) := by
  cases hk : kind t <;> simp [Race.alone, Race.step, hk, set_same] <;> intro u hu <;> simp [set_other _ _ hu]

/-- Deliveries that do not overlap: the first one takes effect and returns true, every later one
returns false and changes nothing.  Missing from C38: deliveries at the same time. -/
theorem C38_one_after_the_other_partial (kind : Nat → Kind) (t : Nat) (ts : List Nat) (hn : (t :: ts).Nodup) :
    (Race.oneByOne kind {} (t :: ts)).pc t = .done (.returned true) ∧
    (∀ u ∈ ts, (Race.oneByOne kind {} (t :: ts)).pc u = .done (.returned false)) ∧
    (Race.oneByOne kind {} (t :: ts)).answered = (if kind t = .cancel then [] else [t]) := by
  simp only [List.nodup_cons] at hn
  obtain ⟨h1, h2, h3, h4⟩ := alone_first kind t
  obtain ⟨r1, _, r3, r4⟩ := rest_false (kind := kind) ts (Race.alone kind 5 {} t) h1 (fun u hu => h4 u (fun e => hn.1 (e ▸ hu))) hn.2
  simp only [Race.oneByOne]
  exact ⟨by rw [r4 t hn.1, h2], r3, by rw [r1, h3]⟩

/-- Three threads, values and an error, overlapping: one of them gets through; the statements above apply. -/
example : ∃ s, Race.Reached (fun t => if t = 1 then .error else .assign) s ∧ s.pc 1 = .done (.returned true) ∧ s.pc 0 = .done .threw ∧
    s.pc 2 = .done (.returned false) ∧ s.answered = [1] :=
  ⟨_, ⟨[0, 1, 1, 1, 1, 1, 2, 0, 0], rfl⟩, rfl, rfl, rfl, rfl⟩

/-- Four threads, one after the other. -/
example : [3, 0, 2, 1].Nodup ∧ (Race.oneByOne (fun t => if t = 1 then .cancel else .assign) {} [3, 0, 2, 1]).answered = [3] := by
  decide

end Hoard.Props
