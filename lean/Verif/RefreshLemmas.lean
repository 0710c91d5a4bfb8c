import Verif.AsyncAcc
import Verif.PeekLemmas
/-! Lemmas about refreshing: use times, due order of the worker. -/
namespace Hoard
open Spec
variable {K V E : Type} {cfg : Cfg K} {M : Md V} {L : Ledger K V} {s : St K V E} {env : Env V}

/-- A written value is returned until it is overwritten, removed or expires by time (no eviction). -/
theorem kept_value (hc : cfg.Ok) (h1 h2 : Hist K V E) (e1 : Env V) (o1 : Op K V E) (hok : HistOk cfg St.init (h1 ++ (e1, o1) :: h2))
    (hx : NoEvictH cfg St.init (h1 ++ (e1, o1) :: h2)) (k : K) (v : V) (hwr : WritesAt cfg k v h1 e1 o1) (hk : Kept cfg k (h1 ++ [(e1, o1)]) h2)
    (env : Env V) (hm : Mono ((h1 ++ (e1, o1) :: h2).map (·.1) ++ [env]))
    (hal : cfg.maxSize = none ∨ cfg.weaken = false ∨ cfg.ptr = false ∨ env.alive v = true)
    (hage : ∀ A, cfg.maxAge = some A → Younger cfg.wall A e1.now env.now)
    (hidle : reached env.now ((ledgerAfter cfg (h1 ++ (e1, o1) :: h2)).idleLimit cfg.refresh k) = false)
    (o : Op K V E) (ho : o.ok cfg (stateAfter cfg (h1 ++ (e1, o1) :: h2))) (ha : Asks k o) :
    StoredAnswer cfg k v (h1 ++ (e1, o1) :: h2) env o := by
  have hkf := kept_facts hk
  rw [ledgerAfter_snoc, (after_writes hwr).2.1, (after_writes hwr).1, show h1 ++ [(e1, o1)] ++ h2 = h1 ++ (e1, o1) :: h2 by simp] at hkf
  have g := good_exact hc _ hok env hm hx
  refine stored_of_peek hc g.wf1 g.wf2 ?_ ho ha
  rcases (getIfExists_ok hc g k).2 with ⟨u, hu, hv, _⟩ | ⟨_, hd⟩
  · rw [hkf.1] at hv; cases hv; exact hu
  · exfalso
    rcases hd trivial v hkf.1 with hd | hd | ⟨d1, d2, d3, d4⟩
    · simp only [Ledger.ageLimit] at hd
      cases hA : cfg.maxAge with
      | none => rw [hA] at hd; cases hd
      | some A =>
        rw [hA, hkf.2.1] at hd
        have := hage A hA
        exact (not_past _ _ _ _).2 this hd
    · rw [show reached env.now _ = false from hidle] at hd; cases hd
    · have d4 : env.alive v = false := d4
      rcases hal with h | h | h | h
      · rw [h] at d1; cases d1
      · rw [h] at d2; cases d2
      · rw [h] at d3; cases d3
      · rw [h] at d4; cases d4

/-! ### Use times -/

/-- If the key has a value, or a refresh of it is in flight, it was last used at `T` or before. -/
def UsedBy (L : Ledger K V) (k : K) (T : Int) : Prop :=
  (L.cur k ≠ none ∨ ∃ tok, L.valid k = some tok ∧ L.refr tok = true) → L.used k ≤ T

theorem UsedBy.put {k k' : K} {T : Int} {now : Time} {keep : Bool} {v : Option V} {eqv : K → K → Bool} (h : UsedBy L k T)
    (hn : eqv k k' = true → now ≤ T ∨ keep = true ∧ (L.cur k ≠ none ∨ ∃ tok, L.valid k = some tok ∧ L.refr tok = true) ∨ v = none) :
    UsedBy (L.put eqv now keep k' v) k T := by
  intro hh
  by_cases hk : eqv k k' = true
  · rcases hn hk with h1 | ⟨h1, h2⟩ | h1
    · simp only [Ledger.put, hk, if_true]; split <;> omega
    · have := h h2
      simp only [Ledger.put, hk, if_true, h1]; omega
    · subst h1; simp [Ledger.put, hk] at hh
  · simp only [Ledger.put, hk] at hh ⊢
    exact h hh

theorem UsedBy.begin {k k' : K} {T : Int} {eqv : K → K → Bool} {tok : Nat} {rf : Bool} (h : UsedBy L k T) (hf : L.valid k ≠ some tok)
    (hn : eqv k k' = true → rf = true → L.cur k ≠ none) : UsedBy (L.begin eqv k' tok rf) k T := by
  intro hh
  refine h ?_
  rcases hh with hh | ⟨t, h1, h2⟩
  · exact .inl hh
  · simp only [Ledger.begin] at h1 h2
    by_cases hk : eqv k k' = true
    · simp only [hk, if_true, Option.some.injEq] at h1
      subst h1
      simp only [if_true] at h2
      exact .inl (hn hk h2)
    · simp only [hk] at h1
      have : t ≠ tok := fun hh => hf (hh ▸ h1)
      simp only [this, if_false] at h2
      exact .inr ⟨t, h1, h2⟩

theorem UsedBy.forget {k k' : K} {T : Int} {eqv : K → K → Bool} {rf : Bool} (h : UsedBy L k T) : UsedBy (L.forget eqv k' rf) k T := by
  intro hh
  refine h ?_
  rcases hh with hh | ⟨t, h1, h2⟩
  · exact .inl hh
  · simp only [Ledger.forget] at h1
    split at h1
    · cases h1
    · exact .inr ⟨t, h1, h2⟩

theorem UsedBy.touch {k k' : K} {T : Int} {now : Time} {eqv : K → K → Bool} (h : UsedBy L k T) (hn : eqv k k' = true → now ≤ T) :
    UsedBy (L.touch eqv now k') k T := by
  intro hh
  by_cases hk : eqv k k' = true
  · simp only [Ledger.touch, hk, if_true]; exact hn hk
  · simp only [Ledger.touch, hk]; exact h hh

theorem used_step (hc : cfg.Ok) (g : Good cfg ⟨False, False, env, True⟩ (fun _ => False) s L) (o : Op K V E) (ho : o.ok cfg s) {k : K} {T : Int}
    (h : UsedBy L k T) (hu : env.now ≤ T ∨ ¬ L.Uses cfg.eqv k o (step cfg env s o).2) :
    UsedBy (L.after cfg.eqv cfg.resolver env.now o (step cfg env s o).2) k T := by
  have hT : L.Uses cfg.eqv k o (step cfg env s o).2 → env.now ≤ T := fun hh => hu.resolve_right (fun hn => hn hh)
  cases o with
  | getIfExists k' =>
    simp only [Ledger.after]; split
    · exact h
    · exact h
  | count => exact h
  | get k' r =>
    simp only [Ledger.Uses] at hT
    simp only [Ledger.after]
    split
    · rename_i hcal
      unfold Ledger.read
      split
      · rename_i v hr; exact h.touch (fun hk => hT ⟨hk, .inr ⟨_, hr⟩⟩)
      · exact h
      · exact h
    · rename_i hcal
      exact h.put (fun hk => .inl (hT ⟨hk, .inl (by rw [hcal]; simp)⟩))
  | emplace k' v f => exact h.put (fun hk => .inl (hT hk))
  | erase k' => exact h.put (fun hk => .inr (.inr rfl))
  | getOrEmplace k' v f =>
    simp only [Ledger.Uses] at hT
    simp only [Ledger.after]
    split
    · rename_i hm; exact h.put (fun hk => .inl (hT ⟨hk, .inl hm⟩))
    · split
      · rename_i v hr; exact h.touch (fun hk => hT ⟨hk, .inr ⟨_, hr⟩⟩)
      · exact h
  | clear => intro hh; simp [Ledger.after, Ledger.wipe] at hh
  | destroy => intro hh; simp [Ledger.after, Ledger.wipe] at hh
  | drop tok =>
    simp only [Ledger.after]
    split
    · intro hh
      refine h ?_
      rcases hh with hh | ⟨t, h1, h2⟩
      · exact .inl hh
      · simp only [Ledger.abandon] at h1
        split at h1
        · cases h1
        · exact .inr ⟨t, h1, h2⟩
    · exact h
  | complete tok r =>
    simp only [Ledger.Uses] at hT
    simp only [Ledger.after]
    split
    · rename_i hr
      intro hh
      by_cases hv : L.valid k = some tok
      · simp only [Ledger.finish, hv, if_true]
        split
        · rename_i hrf
          have := h (.inr ⟨tok, hv, hrf⟩)
          omega
        · rename_i hrf
          exact hT ⟨hv, hr, by simpa using hrf⟩
      · simp only [Ledger.finish, hv, if_false] at hh ⊢
        exact h hh
    · exact h
  | asyncGet k' w b =>
    obtain ⟨q1, q2, q3⟩ := (asyncGet_ok hc g ho.2 ho.1 k' w b).2
    simp only [Ledger.Uses] at hT
    simp only [Ledger.after]
    split
    · split
      · split
        · exact h
        · exact h
      · rename_i hf; exact h.touch (fun hk => hT ⟨hk, by rw [hf]; simp⟩)
    · rename_i p tok rest hcal
      rcases q3 with ⟨u, _, q, _⟩ | ⟨⟨_, q, _⟩, _⟩ | ⟨q, _, _, q4⟩
      · have := hcal.symm.trans q; cases this
      · have := hcal.symm.trans q; cases this
      · have := hcal.symm.trans q
        cases this
        have hf := g.fresh k
        have hl : UsedBy (L.lookup cfg.eqv env.now false k' s.nextId b) k T := by
          cases b with
          | later => exact h.begin hf (fun _ h => by cases h)
          | drop => exact h.forget
          | now r => exact h.put (fun hk => .inl (hT ⟨hk, by rw [show (step cfg env s (.asyncGet k' w (.now r))).2.fired = _ from q4]; simp⟩))
        split
        · exact hl
        · exact hl
  | tick r b =>
    simp only [Ledger.after]
    split
    · exact h
    · rename_i p tok rest hcal
      rcases (tick_ok hc g ho.2.2 r b).2 with q | ⟨a, q, ⟨v, hv, _⟩, _⟩
      · have := hcal.symm.trans (congrArg Out.calls q); cases this
      · have := hcal.symm.trans (congrArg Out.calls q)
        cases this
        have hcur : cfg.eqv k p = true → L.cur k ≠ none := by
          intro hk; rw [(g.g.rsp k p hk).1, hv]; simp
        split
        · cases b with
          | later => exact h.begin (g.fresh k) (fun hk _ => hcur hk)
          | drop => exact h.forget
          | now r => exact h.put (fun hk => .inr (.inl ⟨rfl, .inl (hcur hk)⟩))
        · exact h.put (fun hk => .inr (.inl ⟨rfl, .inl (hcur hk)⟩))

/-- A bound on the time of last use. -/
theorem used_bound (hc : cfg.Ok) (k : K) (T : Int) (h1 : Hist K V E) (h2 : Hist K V E) (hok : HistOk cfg St.init (h1 ++ h2))
    (ht : ∀ p ∈ h1, p.1.now ≤ T) (hu : ∀ a e o b, h2 = a ++ (e, o) :: b → ¬ UsesAt cfg k (h1 ++ a) e o) :
    UsedBy (ledgerAfter cfg (h1 ++ h2)) k T := by
  have base : UsedBy (ledgerAfter cfg h1) k T := by
    have hok1 := (HistOk_append.1 hok).1
    clear hok hu
    induction h1 using snoc_ind with
    | h0 => intro hh; simp [ledgerAfter, Ledger.history] at hh
    | h1 l a ih =>
      obtain ⟨e, o⟩ := a
      obtain ⟨o1, o2⟩ := HistOk_append.1 hok1
      rw [ledgerAfter_snoc]
      exact used_step hc (good_any hc l o1 e) o o2.1 (ih (fun p hp => ht p (List.mem_append_left _ hp)) o1)
        (.inl (ht _ (List.mem_append_right _ (List.mem_singleton.2 rfl))))
  induction h2 using snoc_ind with
  | h0 => simpa using base
  | h1 l a ih =>
    obtain ⟨e, o⟩ := a
    rw [← List.append_assoc] at hok
    obtain ⟨o1, o2⟩ := HistOk_append.1 hok
    rw [← List.append_assoc, ledgerAfter_snoc]
    exact used_step hc (good_any hc _ o1 e) o o2.1 (ih o1 (fun a e' o' b hh => hu a e' o' (b ++ [(e, o)]) (by rw [hh]; simp)))
      (.inr (hu l e o [] (by simp)))

/-- Time of last use does not go back. -/
theorem used_mono {eqv : K → K → Bool} {kind : Kind} {k : K} {T : Int} {now : Time} (h : T ≤ L.used k) (ht : T ≤ now) (o : Op K V E) (out : Out K V E) :
    T ≤ (L.after eqv kind now o out).used k := by
  have hput : ∀ {L : Ledger K V} {k' keep v}, T ≤ L.used k → T ≤ (L.put eqv now keep k' v).used k := by
    intro L k' keep v h; simp only [Ledger.put]; split
    · split <;> omega
    · exact h
  have htou : ∀ {L : Ledger K V} {k'}, T ≤ L.used k → T ≤ (L.touch eqv now k').used k := by
    intro L k' h; simp only [Ledger.touch]; split
    · exact ht
    · exact h
  have hlook : ∀ {L : Ledger K V} {k' rf t} {b : Beh V E}, T ≤ L.used k → T ≤ (L.lookup eqv now rf k' t b).used k := by
    intro L k' rf t b h; cases b with
    | now r => exact hput h
    | later => exact h
    | drop => exact h
  cases o with
  | getIfExists k' => simp only [Ledger.after]; split <;> exact h
  | count => exact h
  | clear => exact h
  | destroy => exact h
  | get k' r =>
    simp only [Ledger.after]; split
    · unfold Ledger.read; split
      · exact htou h
      · exact h
      · exact h
    · exact hput h
  | emplace k' v f => exact hput h
  | erase k' => exact hput h
  | getOrEmplace k' v f =>
    simp only [Ledger.after]; split
    · exact hput h
    · split
      · exact htou h
      · exact h
  | drop tok => simp only [Ledger.after]; split <;> exact h
  | complete tok r =>
    simp only [Ledger.after]; split
    · simp only [Ledger.finish]; split
      · split <;> omega
      · exact h
    · exact h
  | asyncGet k' w b =>
    simp only [Ledger.after]; split
    · split
      · split <;> exact h
      · exact htou h
    · split
      · exact hlook h
      · exact hlook h
  | tick r b =>
    simp only [Ledger.after]; split
    · exact h
    · split
      · exact hlook h
      · exact hput h

theorem uses_used (hc : cfg.Ok) {X} (g : Good cfg ⟨False, False, env, True⟩ X s L) (o : Op K V E) (ho : o.ok cfg s) {k : K}
    (hu : L.Uses cfg.eqv k o (step cfg env s o).2) : (L.after cfg.eqv cfg.resolver env.now o (step cfg env s o).2).used k = env.now := by
  cases o with
  | getIfExists k' => exact hu.elim
  | count => exact hu.elim
  | clear => exact hu.elim
  | destroy => exact hu.elim
  | erase k' => exact hu.elim
  | drop tok => exact hu.elim
  | tick r b => exact hu.elim
  | get k' r =>
    obtain ⟨hk, hu⟩ := hu
    simp only [Ledger.after]
    split
    · rename_i hcal
      rcases hu with hu | ⟨v, hr⟩
      · exact absurd hcal hu
      · rw [hr]; simp [Ledger.read, Ledger.touch, hk]
    · simp [Ledger.write, Ledger.put, hk]
  | emplace k' v f => simp only [Ledger.Uses] at hu; simp [Ledger.after, Ledger.write, Ledger.put, hu]
  | getOrEmplace k' v f =>
    obtain ⟨hk, hu⟩ := hu
    simp only [Ledger.after]
    split
    · simp [Ledger.write, Ledger.put, hk]
    · rename_i hm
      rcases hu with hu | ⟨v, hr⟩
      · exact absurd hu hm
      · rw [hr]; simp [Ledger.touch, hk]
  | complete tok r =>
    obtain ⟨h1, h2, h3⟩ := hu
    simp [Ledger.after, h2, Ledger.finish, h1, h3]
  | asyncGet k' w b =>
    obtain ⟨hk, hu⟩ := hu
    obtain ⟨q1, q2, q3⟩ := (asyncGet_ok hc g ho.2 ho.1 k' w b).2
    rcases q3 with ⟨u, q0, q, _⟩ | ⟨⟨q, _⟩, _⟩ | ⟨q, _, _, q4⟩
    · simp only [Ledger.after]
      rw [show (step cfg env s (.asyncGet k' w b)).2.calls = _ from q, show (step cfg env s (.asyncGet k' w b)).2.fired = _ from q0]
      simp [Ledger.touch, hk]
    · exact absurd q hu
    · cases b with
      | later => exact absurd q4 hu
      | drop => exact absurd q4 hu
      | now r =>
        simp only [Ledger.after]
        rw [show (step cfg env s (.asyncGet k' w (.now r))).2.calls = _ from q, show (step cfg env s (.asyncGet k' w (.now r))).2.fired = _ from q4]
        simp [Ledger.lookup, Ledger.put, hk]

/-- After a use, the time of last use is at least that (with a monotone clock). -/
theorem used_since (hc : cfg.Ok) (k : K) (h1 h2 : Hist K V E) (e1 : Env V) (o1 : Op K V E) (hok : HistOk cfg St.init (h1 ++ (e1, o1) :: h2))
    (hm : Mono ((h1 ++ (e1, o1) :: h2).map (·.1))) (hu : UsesAt cfg k h1 e1 o1) :
    e1.now ≤ (ledgerAfter cfg (h1 ++ (e1, o1) :: h2)).used k := by
  induction h2 using snoc_ind with
  | h0 =>
    obtain ⟨a, b⟩ := HistOk_append.1 hok
    rw [ledgerAfter_snoc]
    have := uses_used hc (good_any hc h1 a e1) o1 b.1 hu
    exact Int.le_of_eq this.symm
  | h1 l a ih =>
    obtain ⟨e, o⟩ := a
    rw [show h1 ++ (e1, o1) :: (l ++ [(e, o)]) = h1 ++ (e1, o1) :: l ++ [(e, o)] by simp] at hok hm ⊢
    rw [ledgerAfter_snoc]
    refine used_mono (ih (HistOk_append.1 hok).1 ?_) ?_ o _
    · rw [List.map_append] at hm; exact (List.pairwise_append.1 hm).1
    · rw [List.map_append] at hm
      exact ((List.pairwise_append.1 hm).2.2 e1 (by simp) e (by simp)).now

/-! ### The worker -/

theorem tick_call_inv {r : Res V E} {b : Beh V E} (h : (tick cfg env s r b).2.calls ≠ []) :
    ∃ e q, s.delayQ = e.id :: q ∧ e ∈ s.ents ∧ reached env.now e.refTp = true ∧ e.refreshing = false ∧ e.expired env = false ∧
      ∃ tok, (tick cfg env s r b).2.calls = [(e.key, tok)] := by
  unfold tick at h ⊢
  cases hq : s.delayQ with
  | nil => rw [hq] at h; exact absurd rfl h
  | cons i q =>
    rw [hq] at h
    simp only at h ⊢
    cases hf : s.find i with
    | none => rw [hf] at h; exact absurd rfl h
    | some e =>
      rw [hf] at h
      simp only at h ⊢
      obtain ⟨he, rfl⟩ := find_some hf
      by_cases hd : reached env.now e.refTp = true
      · rw [if_pos hd] at h ⊢
        unfold refresh at h ⊢
        by_cases hr : (e.refreshing || e.expired env) = true
        · rw [if_pos hr] at h; exact absurd rfl h
        · rw [if_neg hr]
          simp only [Bool.or_eq_true, not_or, Bool.not_eq_true] at hr
          refine ⟨e, q, rfl, he, hd, hr.1, hr.2, ?_⟩
          simp only
          split
          · split
            · exact ⟨_, rfl⟩
            · exact ⟨_, rfl⟩
          · exact ⟨_, rfl⟩
      · rw [if_neg hd] at h; exact absurd rfl h

theorem sublist_split {α : Type} {q A B : List α} {x : α} (h : q.Sublist (A ++ x :: B)) (hx : x ∈ q) (hn : (A ++ x :: B).Nodup) :
    ∃ A' B', q = A' ++ x :: B' ∧ A'.length ≤ A.length := by
  obtain ⟨l1, l2, rfl, h1, h2⟩ := List.sublist_append_iff.1 h
  obtain ⟨_, n2, n3⟩ := List.nodup_append.1 hn
  have hx2 : x ∈ l2 := by
    rcases List.mem_append.1 hx with h | h
    · exact absurd rfl (n3 x (h1.subset h) x (List.mem_cons_self ..))
    · exact h
  cases h2 with
  | cons _ h2 => exact absurd (h2.subset hx2) (List.nodup_cons.1 n2).1
  | cons_cons _ h2 => exact ⟨l1, _, rfl, h1.length_le⟩

/-- An entry waiting to be refreshed. -/
structure Waiting (env : Env V) (s : St K V E) (k : K) (pre : List Nat) (e : Entry K V E) : Prop where
  mem : e ∈ s.ents
  key : e.key = k
  val : e.mapped.val? ≠ none
  rf : e.refreshing = false
  exp : e.expired env = false
  due : reached env.now e.refTp = true
  q : ∃ post, s.delayQ = pre ++ e.id :: post

theorem tick_handles {k : K} {e : Entry K V E} (w1 : WF1 cfg s) (w : Waiting env s k [] e) (r : Res V E) (b : Beh V E) :
    ∃ tok, (tick cfg env s r b).2.calls = [(k, tok)] := by
  obtain ⟨post, hq⟩ := w.q
  unfold tick
  rw [hq]
  simp only [List.nil_append, find_mem w1 w.mem, w.due, if_true]
  unfold refresh
  simp only [w.rf, w.exp, Bool.or_self, Bool.false_eq_true, if_false, w.key]
  split
  · split
    · exact ⟨_, rfl⟩
    · exact ⟨_, rfl⟩
  · exact ⟨_, rfl⟩

theorem tick_advances (hc : cfg.Ok) (hr : cfg.refresh.isSome = true) (hmo : M.mo) (g : Good cfg M (fun _ => False) s L) (hd : s.destroyed = false)
    {k : K} {e : Entry K V E} {i : Nat} {pre : List Nat} (w : Waiting M.env s k (i :: pre) e) (r : Res V E) (b : Beh V E) :
    ∃ e' pre', Waiting M.env (tick cfg M.env s r b).1 k pre' e' ∧ pre'.length ≤ pre.length ∧ (tick cfg M.env s r b).1.destroyed = false := by
  obtain ⟨post, hq⟩ := w.q
  obtain ⟨⟨d, idl⟩, hrf⟩ := Option.isSome_iff_exists.1 hr
  have hmem : i ∈ s.delayQ := by rw [hq]; simp
  obtain ⟨f, hf, rfl⟩ := List.mem_map.1 (g.wf1.dqM i hmem)
  have hdue : reached M.env.now f.refTp = true := by
    obtain ⟨t, ht, _⟩ := g.dq.dl2 hmo d idl hrf f hf hmem
    obtain ⟨u, hu, _⟩ := g.dq.dl2 hmo d idl hrf e w.mem (by rw [hq]; simp)
    have hp := g.dq.dl1 hmo d idl hrf
    rw [hq, List.cons_append, List.pairwise_cons] at hp
    have := hp.1 e.id (by simp) f hf e w.mem rfl rfl t u ht hu
    have hw := w.due
    rw [hu] at hw; rw [ht]
    simp only [reached, decide_eq_true_eq] at hw ⊢; omega
  have hne : e.id ≠ f.id := by
    have := g.wf1.dqN
    rw [hq, List.cons_append, List.nodup_cons] at this
    intro hh; exact this.1 (by rw [← hh]; simp)
  have hnp := queued_notPending g.wf2 hf hmem
  have hq' : s.delayQ = f.id :: (pre ++ e.id :: post) := by rw [hq]; rfl
  obtain ⟨_, _, F, sp, h1, h2, h3⟩ := refresh_ok hc (popped hc hq' g) hd (e := f) hf hnp (queued_notVoid g.dq hf hmem) r b
  have ht : tick cfg M.env s r b = refresh cfg M.env { s with delayQ := pre ++ e.id :: post } f r b := by
    unfold tick
    rw [hq']
    simp only [find_mem g.wf1 hf, hdue, if_true]
  rw [ht]
  generalize refresh cfg M.env { s with delayQ := pre ++ e.id :: post } f r b = g' at *
  have hex : e.id ≠ s.nextId := id_ne_next g.wf1 w.mem
  obtain ⟨e', he', sh, kp⟩ := sp.keepV e w.mem hex ⟨w.exp, fun hh => hne (h1 _ _ _ hh), .inl w.val⟩
  obtain ⟨q0, j, hs, hq0⟩ := sp.dq
  have hin : e.id ∈ g'.1.delayQ := by
    rcases sp.dqk e.id (by show e.id ∈ pre ++ e.id :: post; simp) hex with hh | hh | hh
    · exact hh
    · exact absurd (List.mem_map.2 ⟨e', he', sh.id⟩) hh
    · exact absurd hh (h3 _)
  have hin0 : e.id ∈ q0 := by
    rw [hq0] at hin
    rcases List.mem_append.1 hin with hh | hh
    · exact hh
    · exact absurd (List.eq_of_mem_replicate hh) hex
  obtain ⟨A', B', rfl, hl⟩ := sublist_split hs hin0 (by have := g.wf1.dqN; rw [hq'] at this; exact (List.nodup_cons.1 this).2)
  refine ⟨e', A', ⟨he', sh.key.trans w.key, by rw [kp.val]; exact w.val, by rw [sh.rfe (fun hh => hne (h2 _ hh))]; exact w.rf, kp.exp,
    by rw [sh.rft]; exact w.due, B' ++ List.replicate j s.nextId, ?_⟩, hl, sp.des.trans hd⟩
  rw [hq0, sh.id]; simp

theorem waiting_handled (hc : cfg.Ok) (hr : cfg.refresh.isSome = true) (hk : cfg.resolver ≠ .none) (env : Env V) (k : K) :
    ∀ (n : Nat) (h : Hist K V E), HistOk cfg St.init h → Mono (h.map (·.1) ++ [env]) → (stateAfter cfg h).destroyed = false →
    ∀ pre e, Waiting env (stateAfter cfg h) k pre e → pre.length ≤ n →
    ∀ ts : List (Res V E × Beh V E), n < ts.length →
    ∃ a r b c tok, ts = a ++ (r, b) :: c ∧ (outAt cfg (h ++ ticks env a) env (.tick r b)).calls = [(k, tok)] := by
  intro n
  induction n with
  | zero =>
    intro h hok hm hd pre e w hl ts hts
    cases ts with
    | nil => cases hts
    | cons p ts =>
      obtain rfl : pre = [] := List.length_eq_zero_iff.1 (by omega)
      obtain ⟨tok, ht⟩ := tick_handles (good_any hc h hok env).wf1 w p.1 p.2
      exact ⟨[], p.1, p.2, ts, tok, rfl, by simpa [ticks, outAt, step] using ht⟩
  | succ n ih =>
    intro h hok hm hd pre e w hl ts hts
    cases ts with
    | nil => cases hts
    | cons p ts =>
      obtain ⟨r, b⟩ := p
      cases pre with
      | nil =>
        obtain ⟨tok, ht⟩ := tick_handles (good_any hc h hok env).wf1 w r b
        exact ⟨[], r, b, ts, tok, rfl, by simpa [ticks, outAt, step] using ht⟩
      | cons i pre =>
        obtain ⟨e', pre', w', hl', hd'⟩ := tick_advances hc hr (M := ⟨True, False, env, True⟩) trivial (good_mono hc h hok env hm) hd w r b
        have hst : stateAfter cfg (h ++ [(env, .tick r b)]) = (tick cfg env (stateAfter cfg h) r b).1 := stateAfter_snoc h env _
        obtain ⟨a, r', b', c, tok, rfl, ht⟩ := ih (h ++ [(env, .tick r b)]) (by rw [HistOk_append]; exact ⟨hok, ⟨hk, hr, hd⟩, trivial⟩)
          (by
            unfold Mono at *
            rw [List.map_append]
            refine List.pairwise_append.2 ⟨hm, by simp, ?_⟩
            intro x hx y hy
            obtain rfl := List.mem_singleton.1 hy
            rcases List.mem_append.1 hx with hx | hx
            · exact (List.pairwise_append.1 hm).2.2 x hx y hy
            · obtain rfl := List.mem_singleton.1 hx; exact .refl _)
          (by rw [hst]; exact hd') pre' e' (by rw [hst]; exact w')
          (by simp at hl; omega) ts (by simpa using hts)
        refine ⟨(r, b) :: a, r', b', c, tok, rfl, ?_⟩
        simpa [ticks] using ht

theorem tried_kept {eqv : K → K → Bool} {kind : Kind} {now : Time} {k : K} {o : Op K V E} {out : Out K V E} (h : ¬ L.Changes eqv kind k o out)
    (ht : L.tried k = true) : (L.after eqv kind now o out).tried k = true := by
  have hput : ∀ (L : Ledger K V) k' keep v, L.tried k = true → ¬ eqv k k' = true → (L.put eqv now keep k' v).tried k = true := by
    intro L k' keep v ht hk; simp [Ledger.put, hk, ht]
  have hlook : ∀ (L : Ledger K V) k' rf tok (b : Beh V E), L.tried k = true → ¬ (eqv k k' = true ∧ ∃ r, b = .now r) →
      (L.lookup eqv now rf k' tok b).tried k = true := by
    intro L k' rf tok b ht hk
    cases b with
    | now r => exact hput L k' rf _ ht (fun hh => hk ⟨hh, r, rfl⟩)
    | later => simp [Ledger.lookup, Ledger.begin, ht]
    | drop => simp [Ledger.lookup, Ledger.forget, ht]
  cases o with
  | getIfExists k' => simp only [Ledger.after]; split <;> exact ht
  | get k' r =>
    simp only [Ledger.Changes] at h
    simp only [Ledger.after]; split
    · cases out.ret <;> exact ht
    · rename_i hc
      exact hput L k' _ _ ht (fun hh => h ⟨hh, by rw [hc]; simp⟩)
  | asyncGet k' w b =>
    simp only [Ledger.Changes] at h
    simp only [Ledger.after]; split
    · split
      · split <;> exact ht
      · exact ht
    · rename_i hc
      have hk : ¬ (eqv k k' = true ∧ ∃ r, b = .now r) := fun hh => h ⟨hh.1, by rw [hc]; simp, hh.2⟩
      split
      · exact hlook L k' _ _ _ ht hk
      · exact hlook L k' _ _ _ ht hk
  | emplace k' v f => exact hput L k' _ _ ht h
  | getOrEmplace k' v f =>
    simp only [Ledger.Changes] at h
    simp only [Ledger.after]; split
    · rename_i hm
      exact hput L k' _ _ ht (fun hh => h ⟨hh, hm⟩)
    · split <;> exact ht
  | erase k' => exact hput L k' _ _ ht h
  | clear => exact absurd trivial h
  | count => exact ht
  | complete tok r =>
    simp only [Ledger.Changes] at h
    simp only [Ledger.after]; split
    · rename_i hr
      have : ¬ L.valid k = some tok := fun hh => h ⟨hh, hr⟩
      simp [Ledger.finish, this, ht]
    · exact ht
  | drop tok => simp only [Ledger.after]; split <;> exact ht
  | tick r b =>
    simp only [Ledger.Changes] at h
    simp only [Ledger.after]; split
    · exact ht
    · rename_i k' tok l hc
      by_cases ha : kind = .async
      · rw [if_pos ha]
        exact hlook L k' _ _ _ ht (fun hh => h ⟨⟨(k', tok), by rw [hc]; rfl, hh.1⟩, fun _ => hh.2⟩)
      · rw [if_neg ha]
        exact hput L k' _ _ ht (fun hh => h ⟨⟨(k', tok), by rw [hc]; rfl, hh⟩, fun h => absurd h ha⟩)
  | destroy => exact absurd trivial h

/-- A refresh was started and nothing was written since: the ledger remembers it. -/
theorem tried_since {k : K} {tok : Nat} {h1 h2 : Hist K V E} {e1 : Env V} {r : Res V E} {b : Beh V E} {k' : K} (hk' : cfg.eqv k k' = true)
    (hcal : (outAt cfg h1 e1 (.tick r b)).calls = [(k', tok)]) (hk : Kept cfg k h1 ((e1, .tick r b) :: h2)) :
    (ledgerAfter cfg (h1 ++ (e1, .tick r b) :: h2)).tried k = true := by
  have h0 : ¬ ChangesAt cfg k h1 e1 (.tick r b) := by simpa using hk [] e1 (.tick r b) h2 rfl
  induction h2 using snoc_ind with
  | h0 =>
    rw [ledgerAfter_snoc]
    simp only [ChangesAt, Ledger.Changes, hcal] at h0
    have ha : cfg.resolver = .async := Classical.byContradiction fun hn => h0 ⟨⟨_, rfl, hk'⟩, fun hh => absurd hh hn⟩
    have hb : ∀ r, b ≠ .now r := fun r hh => h0 ⟨⟨_, rfl, hk'⟩, fun _ => ⟨r, hh⟩⟩
    simp only [Ledger.after, hcal, ha, if_true]
    cases b with
    | now r => exact absurd rfl (hb r)
    | later => simp [Ledger.lookup, Ledger.begin, hk']
    | drop => simp [Ledger.lookup, Ledger.forget, hk']
  | h1 l a ih =>
    obtain ⟨e, o⟩ := a
    rw [show h1 ++ (e1, Op.tick r b) :: (l ++ [(e, o)]) = h1 ++ (e1, .tick r b) :: l ++ [(e, o)] by simp, ledgerAfter_snoc]
    rw [show (e1, Op.tick r b) :: (l ++ [(e, o)]) = (e1, .tick r b) :: l ++ [(e, o)] by simp] at hk
    obtain ⟨k1, k2⟩ := Kept.snoc.1 hk
    exact tried_kept k2 (ih k1)

end Hoard
