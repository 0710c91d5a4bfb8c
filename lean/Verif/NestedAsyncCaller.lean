import Verif.NestedAsyncWho
/-! What the caller gets whose functor completes its lookup before it returns. -/
namespace Hoard.NestedAsync
open Spec
open Handlers (AllE cbsOf withOpens complete_pos complete_neg complete_dead drop_pos drop_neg)
variable {K V E : Type} {cfg : Cfg K} {env : Env V} {h : NHist K V E}

/-- What is stored for a result that is kept. -/
def stored : Res V E → Mapped V E
  | .ok v => .value v
  | .err x => .error x

/-- The entry of `t` holds the result `r`, and nothing refreshes it. -/
def Has (t : Nat) (r : Res V E) (e : Entry K V E) : Prop := (e.id = t → e.mapped = stored r) ∧ Cb.refresh t ∉ e.mapped.cbs

theorem has_same {t : Nat} {r : Res V E} {e : Entry K V E} {f : Mapped V E → Mapped V E} (h : Has t r e) (h1 : ∀ r : Res V E, f (stored r) = stored r)
    (h2 : ∀ m : Mapped V E, Cb.refresh t ∈ (f m).cbs → Cb.refresh t ∈ m.cbs) : Has t r (e.upd f) := by
  refine ⟨fun hi => ?_, fun hi => h.2 (h2 _ hi)⟩
  show f e.mapped = stored r
  rw [h.1 hi]; exact h1 r

theorem has_cancel {t : Nat} {r : Res V E} {e : Entry K V E} (h : Has t r e) : Has t r (e.upd .cancel) :=
  has_same h (fun r => by cases r <;> rfl) (fun m => by cases m <;> simp [Mapped.cancel, Mapped.cbs])

theorem has_completed {t : Nat} {r q : Res V E} {e : Entry K V E} (h : Has t r e) : Has t r (e.upd (completed cfg q)) := by
  refine has_same h (fun r => by cases r <;> rfl) (fun m => ?_)
  cases m with
  | pending p =>
    cases q with
    | ok v =>
      simp only [completed, Mapped.assigned]
      split
      · simp [Mapped.cbs]
      · split
        · split <;> simp [Mapped.cbs]
        · simp [Mapped.cbs]
    | err x => simp only [completed, Mapped.assignedError]; split <;> simp [Mapped.cbs]
  | _ => exact fun x => x

theorem has_addUser {t : Nat} {r : Res V E} {e : Entry K V E} (w : Nat) (h : Has t r e) : Has t r (e.upd (.addCb (.user w))) :=
  has_same h (fun r => by cases r <;> rfl) (fun m => by cases m <;> simp [Mapped.addCb, Mapped.cbs])

theorem has_cl (t : Nat) (r : Res V E) : ClW env (Has (K := K) t r) where
  time := by intro e e' h1 h2 h; unfold Has at *; rw [h1, h2]; exact h
  mark := by
    intro e hp h
    refine ⟨fun hi => ?_, ?_⟩
    · have h1 := h.1 hi
      unfold Entry.isPending at hp
      rw [h1] at hp; cases r <;> cases hp
    · have := h.2
      show Cb.refresh t ∉ e.mapped.markExpired.cbs
      cases hm : e.mapped <;> rw [hm] at this <;> first | exact this | simp [Mapped.markExpired, Mapped.cbs]
  str := by
    intro e h
    refine has_same h (fun r => by cases r <;> rfl) (fun m => ?_)
    cases m with
    | pending p => simp only [Mapped.strengthen]; (try split) <;> exact fun x => x
    | weak v => simp only [Mapped.strengthen]; split <;> simp [Mapped.cbs]
    | _ => exact fun x => x
  cb := by
    intro x old hx ho e hi he
    have hne : e.id ≠ t := by rintro rfl; exact hx.2 (hi ▸ ho)
    refine ⟨fun q => absurd q hne, ?_⟩
    have := he.2
    show Cb.refresh t ∉ e.mapped.markExpired.cbs
    cases hm : e.mapped <;> rw [hm] at this <;> first | exact this | simp [Mapped.markExpired, Mapped.cbs]

theorem has_new {t n : Nat} (r : Res V E) (ht : t < n) : New cfg n (Has (K := K) t r) where
  new := by intro e h1 h2; exact ⟨fun q => by omega, by rw [h2]; simp⟩
  can := fun e _ h => has_cancel h
  com := fun e q _ h => has_completed h

/-- While the functor runs, the result of its lookup stays. -/
theorem has_next (hc : cfg.Ok) (hok : NOk cfg {} h) {e : Ev K V E} (hev : e.ok cfg (endN cfg h)) {t : Nat} {r : Res V E} (ht : t < (endN cfg h).s.nextId)
    (hst : (endN cfg h).stack ≠ []) (hs : ∀ o, e = .op o → ∀ N, cfg.maxSize = some N → (step cfg env (endN cfg h).s o).1.size ≤ N)
    (hh : AllE (Has t r) (endN cfg h).s) : AllE (Has t r) (next cfg env (endN cfg h) e).1.s := by
  have I := inv_end h hok
  have w1 := I.wf1 hc
  cases e with
  | op o =>
    simp only [next]
    have hnd : o ≠ .destroy := fun q => hst (hev.2.2 (.inr q))
    have hnt : ∀ r b, o ≠ .tick r b := fun r b q => hst (hev.2.2 (.inl ⟨r, b, q⟩))
    exact keep_stepW hc (has_cl t r) w1 hh (has_new r ht) (fun _ _ _ x _ hx => ⟨has_cancel hx, has_completed hx⟩) (fun _ _ x _ hx => has_cancel hx) hnd hev.2.1
      (.inl hnt) (.inr (hs o rfl))
  | throw =>
    simp only [next]
    cases (endN cfg h).stack with
    | nil => exact hh
    | cons q st => exact hh
  | ret =>
    simp only [next]
    cases (endN cfg h).stack with
    | nil => exact hh
    | cons q st => exact keep_answer hh _ _ (fun _ x _ hx => has_addUser _ hx)
  | get k u =>
    simp only [next]
    have h1 := keep_get_ (cfg := cfg) (env := env) (has_cl t r) hh k true
    have hn1 : (get_ cfg env (endN cfg h).s k true).1.nextId = (endN cfg h).s.nextId := (get__shr (env := env) hc w1 k true).same.nextId
    cases (getWalk cfg env k true ((endN cfg h).s.bucket ((endN cfg h).s.bucketFor (cfg.hash k)))).hit with
    | some q => exact keep_answer h1 _ _ (fun _ x _ hx => has_addUser _ hx)
    | none => exact keep_resolveAsync (has_cl t r) h1 (has_new r (hn1 ▸ ht)) k .later

/-- A functor that runs after a step and was called before it was running before it. -/
theorem stack_back {n : NSt K V E} {e : Ev K V E} (hc : cfg.Ok) (w1 : WF1 cfg n.s) {p : Nat × Nat} (hp : p ∈ (next cfg env n e).1.stack) (ht : p.1 < n.s.nextId) : p ∈ n.stack := by
  cases e with
  | op o => exact hp
  | ret =>
    simp only [next] at hp
    cases hs : n.stack with
    | nil => simp only [hs] at hp; cases hp
    | cons q st => simp only [hs] at hp; exact List.mem_cons_of_mem _ hp
  | throw =>
    simp only [next] at hp
    cases hs : n.stack with
    | nil => simp only [hs] at hp; cases hp
    | cons q st => simp only [hs] at hp; exact List.mem_cons_of_mem _ hp
  | get k u =>
    simp only [next] at hp
    have hn1 : (get_ cfg env n.s k true).1.nextId = n.s.nextId := (get__shr (env := env) hc w1 k true).same.nextId
    cases hh : (getWalk cfg env k true (n.s.bucket (n.s.bucketFor (cfg.hash k)))).hit with
    | some q => simp only [hh] at hp; exact hp
    | none =>
      simp only [hh, List.mem_cons] at hp
      rcases hp with rfl | hp
      · have : (resolveAsync cfg env (get_ cfg env n.s k true).1 k .later).2 = n.s.nextId := hn1
        simp only at ht; omega
      · exact hp

theorem flat_append (a b : NHist K V E) : flat (a ++ b) = flat a ++ flat b := by simp [flat]

theorem size_sim (I : Inv cfg h) : (endN cfg h).s.size = (stateAfter cfg (flat h)).size := by rw [← er_size, I.sim, er_size]

/-- From the completion of a lookup until its functor returns, its entry holds the result. -/
theorem has_run (hc : cfg.Ok) (hw : cfg.weaken = false ∨ cfg.ptr = false ∨ cfg.maxSize = none) {t w : Nat} {r : Res V E} {h0 : NHist K V E} (h2 : NHist K V E)
    (hok : NOk cfg {} (h0 ++ h2)) (hx : NoEvictH cfg St.init (flat (h0 ++ h2))) (hst : (t, w) ∈ (endN cfg (h0 ++ h2)).stack) (ht : t < (endN cfg h0).s.nextId)
    (hh : AllE (Has t r) (endN cfg h0).s) : AllE (Has t r) (endN cfg (h0 ++ h2)).s ∧ t < (endN cfg (h0 ++ h2)).s.nextId := by
  induction h2 using snoc_ind with
  | h0 => rw [List.append_nil]; exact ⟨hh, ht⟩
  | h1 h2 p ih =>
    obtain ⟨env, e⟩ := p
    rw [← List.append_assoc] at hok hx hst ⊢
    have I' := inv_end _ hok
    rw [NOk_append] at hok
    have I := inv_end _ hok.1
    have hx0 := hx
    rw [flat_append, NoEvictH_append] at hx
    rw [endN_snoc] at hst ⊢
    have hlt : t < (endN cfg (h0 ++ h2)).s.nextId := by
      -- identifiers only grow
      have : ∀ l : NHist K V E, (endN cfg h0).s.nextId ≤ (endN cfg (h0 ++ l)).s.nextId := by
        intro l
        induction l using snoc_ind with
        | h0 => rw [List.append_nil]; exact Nat.le_refl _
        | h1 l q ihl => rw [← List.append_assoc, endN_snoc]; exact Nat.le_trans ihl (next_nextId _)
      exact Nat.lt_of_lt_of_le ht (this h2)
    have hs0 : (t, w) ∈ (endN cfg (h0 ++ h2)).stack := stack_back hc (I.wf1 hc) hst hlt
    obtain ⟨i1, i2⟩ := ih hok.1 hx.1 hs0
    refine ⟨has_next hc hok.1 hok.2.1 hlt (List.ne_nil_of_mem hs0) ?_ i1, Nat.lt_of_lt_of_le hlt (next_nextId _)⟩
    rintro o rfl N hN
    have hsz := size_sim I'
    rw [endN_snoc] at hsz
    simp only [next] at hsz
    rw [hsz]
    have hne : NoEvict cfg (stateAfter cfg (flat (h0 ++ h2 ++ [(env, .op o)]))) := by
      have h3 := (NoEvictH_append (h1 := flat (h0 ++ h2 ++ [(env, .op o)])) (h2 := [])).1 (by simpa using hx0)
      exact h3.2
    rcases hne N hN with q | ⟨q1, q2⟩
    · exact q
    · rcases hw with q | q | q
      · rw [q] at q1; cases q1
      · rw [q] at q2; cases q2
      · rw [q] at hN; cases hN

theorem mem_forget {t : Nat} {m : Mapped V E} : Cb.refresh t ∈ (forget m).cbs ↔ Cb.refresh t ∈ m.cbs := by
  cases m with
  | pending p => simp [forget, Mapped.cbs, isRefresh]
  | _ => exact Iff.rfl

/-- When a lookup is completed that was not invalidated, its entry holds the result. -/
theorem has_complete (hc : cfg.Ok) (hw : cfg.weaken = false ∨ cfg.ptr = false ∨ cfg.maxSize = none) (hok : NOk cfg {} h) (hm : Mono ((flat h).map (·.1) ++ [env]))
    (hx : NoEvictH cfg St.init (flat h)) (hd : (endN cfg h).s.destroyed = false) {k : K} {t : Nat} (hv : (ledgerAfter cfg (flat h)).valid k = some t) (r : Res V E) :
    AllE (Has t r) (complete cfg env (endN cfg h).s t r).1 ∧ (complete cfg env (endN cfg h).s t r).2.ret = .bool true ∧ t < (endN cfg h).s.nextId := by
  have I := inv_end h hok
  have w1 := I.wf1 hc
  have g := good_exact hc (flat h) I.ok env hm hx
  have hd' : (stateAfter cfg (flat h)).destroyed = false := by rw [← I.destroyed]; exact hd
  obtain ⟨ho, T, hT, hi, hp, hk, hl, _⟩ := (g.p k).c3 hd' t hv
  have hl := hl trivial
  have hs := g.g.st trivial hw T hT
  have ho' : t ∈ (endN cfg h).s.opens := I.opens ▸ ho
  have hlt : t < (endN cfg h).s.nextId := by rw [I.nextId, ← hi]; exact g.wf1.lt T (List.mem_append_left _ hT)
  -- the entry, in the state with nested calls
  have hTe : fg T ∈ (endN cfg h).s.ents.map fg := by rw [← er_ents, I.sim, er_ents]; exact List.mem_map.2 ⟨T, hT, rfl⟩
  obtain ⟨x, hxm, hxe⟩ := List.mem_map.1 hTe
  -- nothing refreshes it
  have hnr : AllE (fun e : Entry K V E => Cb.refresh t ∉ e.mapped.cbs) (endN cfg h).s := by
    intro e he hcb
    rcases List.mem_append.1 he with he | he
    · have : fg e ∈ (stateAfter cfg (flat h)).ents.map fg := by rw [← er_ents, ← I.sim, er_ents]; exact List.mem_map.2 ⟨e, he, rfl⟩
      obtain ⟨y, hy, hye⟩ := List.mem_map.1 this
      have hcy : Cb.refresh t ∈ y.mapped.cbs := by
        have h1 : Cb.refresh t ∈ (fg e).mapped.cbs := mem_forget.2 hcb
        rw [← hye] at h1
        exact mem_forget.1 h1
      have := ((g.wf2.cb y hy t hcy).2 T hT hi).1
      rw [hp] at this; cases this
    · have := I.lim hd e he
      unfold Entry.isPending at this
      cases hm : e.mapped with
      | pending p => rw [hm] at this; cases this
      | _ => rw [hm] at hcb; cases hcb
  refine ⟨?_, by rw [complete_pos ho' hd], hlt⟩
  have hxi : x.id = t := by rw [← fg_id x, hxe]; exact hi
  have hst : completed cfg r x.mapped = stored r := by
    have hfe : forget x.mapped = forget T.mapped := congrArg Entry.mapped hxe
    unfold Entry.isPending at hp
    cases hmT : T.mapped with
    | pending q =>
      cases hmx : x.mapped with
      | pending p =>
        rw [hmT, hmx] at hfe
        rw [hmT] at hl hs
        simp only [forget, Mapped.pending.injEq, Pend.mk.injEq] at hfe
        simp only [Mapped.live, Mapped.strong, Bool.not_eq_true'] at hl hs
        cases r <;> simp [completed, Mapped.assigned, Mapped.assignedError, stored, hfe, hl, hs]
      | _ => rw [hmT, hmx] at hfe; cases hfe
    | _ => rw [hmT] at hp; cases hp
  -- the entry is as it was until it is completed
  have hP : AllE (fun e : Entry K V E => (e.id = t → e.mapped = x.mapped) ∧ Cb.refresh t ∉ e.mapped.cbs) (endN cfg h).s := by
    intro e he
    refine ⟨fun hie => ?_, hnr e he⟩
    have h1 := findAny_mem w1 hxm
    have h2 := findAny_of w1 he
    rw [hxi] at h1; rw [hie, h1] at h2
    rw [Option.some.inj h2]
  have hR := keep_runCbs (i := t) (cbs := cbsOf (endN cfg h).s t) (s := (endN cfg h).s) (P := fun e : Entry K V E => (e.id = t → e.mapped = x.mapped) ∧ Cb.refresh t ∉ e.mapped.cbs)
    (by intro e e' h1 h2 h; rw [h1, h2]; exact h)
    (by
      intro old hcb e hie he
      obtain ⟨y, hy, hyc⟩ := cbsOf_mem hcb
      have hne : old ≠ t := fun q => hnr y hy (q ▸ hyc)
      refine ⟨fun q => absurd (hie.symm.trans q) hne, ?_⟩
      have := he.2
      show Cb.refresh t ∉ e.mapped.markExpired.cbs
      cases hm : e.mapped <;> rw [hm] at this <;> first | exact this | simp [Mapped.markExpired, Mapped.cbs]) hP
  have hM : AllE (Has t r) ((runCbs (endN cfg h).s t (cbsOf (endN cfg h).s t)).modify t (·.upd (completed cfg r))) := by
    have key : ∀ e : Entry K V E, ((e.id = t → e.mapped = x.mapped) ∧ Cb.refresh t ∉ e.mapped.cbs) → Has t r (atId t (·.upd (completed cfg r)) e) := by
      intro e he
      simp only [atId]
      split
      · rename_i hie
        have h1 : (e.upd (completed cfg r)).mapped = stored r := by show completed cfg r e.mapped = _; rw [he.1 hie]; exact hst
        exact ⟨fun _ => h1, by rw [h1]; cases r <;> simp [stored, Mapped.cbs]⟩
      · rename_i hie
        exact ⟨fun q => absurd q hie, he.2⟩
    intro e he
    rw [ents_modify, limbo_modify, ← List.map_append] at he
    obtain ⟨e0, he0, rfl⟩ := List.mem_map.1 he
    exact key e0 (hR e0 he0)
  rw [complete_pos ho' hd]
  exact AllE.mono (keep_assign (has_cl t r) hM t r.isOk) (fun _ x => x) rfl

end Hoard.NestedAsync
