import Verif.AbortLemmas
import Verif.Props.Async
import Verif.Props.HashFree
/-! # C94: comparisons of keys and copies of results that throw

`get`, `get_or_emplace` and `emplace` compare keys while they change the bucket. -/
namespace Hoard.Props
open Hoard Spec Demo Abort
variable {K V E : Type} {cfg : Cfg K}

instance aopOkDec (cfg : Cfg Nat) (env : Env Nat) (s : St Nat Nat Nat) (o : AOp Nat Nat Nat) : Decidable (o.ok cfg env s) :=
  match o with
  | .plain o => inferInstanceAs (Decidable (o.ok cfg s))
  | .look _ _ _ => inferInstanceAs (Decidable (_ ∧ _))
  | .emplace _ _ => inferInstanceAs (Decidable (_ ∧ _))

instance ahistOkDec (cfg : Cfg Nat) : (s : St Nat Nat Nat) → (h : AHist Nat Nat Nat) → Decidable (AHistOk cfg s h)
  | _, [] => isTrue trivial
  | s, (env, o) :: h =>
    have := ahistOkDec cfg (astep cfg env s o).1 h
    inferInstanceAs (Decidable (_ ∧ _))

/-- Keys 1, 5 and 9 have the same hash code.  A lookup of 9 is left at the second comparison, an `emplace` of 5 at the first, an
`emplace` of 1 at the second. -/
def leftDemo : AHist Nat Nat Nat :=
  [(at_ 0, .plain (.emplace 1 10 .none)), (at_ 1, .plain (.emplace 5 50 .none)), (at_ 2, .look 9 true 1), (at_ 3, .emplace 5 0), (at_ 4, .emplace 1 1)]

/-- C94.  However many calls have been left by an exception of a comparison or of a copy before: an answer from
the store is the value that the key has according to the writes and removals so far.  A call that threw counts as no write and
no removal. -/
theorem C94_answers_stay_right (hc : cfg.Ok) (h : AHist K V E) (hok : AHistOk cfg St.init h) (env : Env V) (o : Op K V E)
    (ho : o.ok cfg (astateAfter cfg h)) (k : K) (v : V)
    (ha : answered o (aoutAt cfg h env (.plain o)) = some (k, v)) (hca : (aoutAt cfg h env (.plain o)).calls = [])
    (hmd : (aoutAt cfg h env (.plain o)).made = false) :
    (aledgerAfter cfg (fun _ => .nothing) h).cur k = some v := by
  obtain ⟨c, hcn, g⟩ := agood hc False False (fun h => h.elim) h env hok (fun h => h.elim) (fun h => h.elim)
  rw [show c = fun _ => .nothing from funext (hcn (fun h => h))] at g
  exact (stored_valid hc g (fun h => h) ho ha hca hmd).1

/-- After the five calls of `leftDemo`, 5 still has its value. -/
example := C94_answers_stay_right (cfg := plain) (nat_ok rfl (by intro d i h; cases h)) leftDemo (by decide) (at_ 5) (.getIfExists 5) (by decide) 5 50
  (by decide) (by decide) (by decide)

/-- C94.  Without a size limit, and on clocks that do not go back: after any history with calls that were left,
`get_if_exists` says exactly what the writes and removals say, if every `emplace` that was left is counted as one of three
things: nothing; a removal of the value; a removal of the value that also gives up the lookup in flight.
Lookups that were left count as nothing.  Missing: that a failed `emplace` always counts as nothing, which is false, see
`C94_failed_emplace_may_lose_the_value`. -/
theorem C94_nothing_else_is_lost_partial (hc : cfg.Ok) (h : AHist K V E) (hok : AHistOk cfg St.init h)
    (env : Env V) (hm : Mono (h.map (·.1) ++ [env])) (hs : cfg.maxSize = none) :
    ∃ c : Nat → Left, ∀ k, (aoutAt cfg h env (.plain (.getIfExists k))).ret =
      match (aledgerAfter cfg c h).cur k with
      | none => .miss
      | some v => if env.now.past ((aledgerAfter cfg c h).ageLimit cfg.maxAge cfg.wall k) || reached env.now ((aledgerAfter cfg c h).idleLimit cfg.refresh k)
          then .miss else .val v := by
  obtain ⟨c, _, g⟩ := agood hc True True (fun _ => .inl trivial) h env hok (fun _ => hm)
    (fun _ _ _ _ N hN => by rw [hs] at hN; cases hN)
  exact ⟨c, fun k => peek_exact hc g trivial hs k⟩

example := C94_nothing_else_is_lost_partial (cfg := plain) (nat_ok rfl (by intro d i h; cases h)) leftDemo (by decide) (at_ 5)
  (mono_at [0, 1, 2, 3, 4, 5] (by decide)) rfl

/-- C94.  Two of the three cases for keys that have a value: the failing `emplace` of 5 (the fourth call) has done nothing,
the failing `emplace` of 1 (the last one) has removed the old value and stored nothing. -/
theorem C94_failed_emplace_may_lose_the_value :
    AHistOk plain St.init leftDemo ∧
    (aoutAt plain (leftDemo.take 3) (at_ 3) (.plain (.getIfExists 5))).ret = .val 50 ∧
    (aoutAt plain (leftDemo.take 4) (at_ 4) (.plain (.getIfExists 5))).ret = .val 50 ∧
    (aoutAt plain (leftDemo.take 4) (at_ 4) (.plain (.getIfExists 1))).ret = .val 10 ∧
    (aoutAt plain leftDemo (at_ 5) (.plain (.getIfExists 1))).ret = .miss := by decide

/-- C94.  The third case: a value of 1 is being refreshed, and 5 was written before that.  An `emplace` of 1 is left at the second
comparison.  The old value is gone, but the lookup still counts: its result is stored. -/
theorem C94_failed_emplace_may_leave_the_lookup :
    let cfg : Cfg Nat := { asyncC with refresh := some (10, 100) }
    let h : AHist Nat Nat Nat := [(at_ 0, .plain (.emplace 1 10 .none)), (at_ 1, .plain (.emplace 5 50 .none)), (at_ 11, .plain (.tick (.ok 0) .later)),
      (at_ 12, .emplace 1 1)]
    AHistOk cfg St.init h ∧
    (aoutAt cfg (h.take 3) (at_ 12) (.plain (.getIfExists 1))).ret = .val 10 ∧
    (aoutAt cfg h (at_ 13) (.plain (.getIfExists 1))).ret = .miss ∧
    (aoutAt cfg h (at_ 13) (.plain (.complete 2 (.ok 11)))).ret = .bool true ∧
    (aoutAt cfg (h ++ [(at_ 13, .plain (.complete 2 (.ok 11)))]) (at_ 14) (.plain (.getIfExists 1))).ret = .val 11 := by decide

/-- C94.  A lookup that is left by an exception changes no answer: whatever key is asked for, now or later, `get_if_exists` says
what it would have said without the failing call. -/
theorem C94_failed_lookup_is_invisible (hc : cfg.Ok) (h : AHist K V E) (env env' : Env V) (k : K) (incl : Bool) (n : Nat)
    (hok : AHistOk cfg St.init (h ++ [(env, .look k incl n)])) (hle : env.le env') (a : K) :
    aoutAt cfg (h ++ [(env, .look k incl n)]) env' (.plain (.getIfExists a)) = aoutAt cfg h env' (.plain (.getIfExists a)) := by
  have hok' := AHistOk_append.1 hok
  obtain ⟨_, _, g⟩ := agood hc False False (fun h => h.elim) h env hok'.1 (fun h => h.elim) (fun h => h.elim)
  obtain ⟨i, w, h1, h2⟩ := astep_stop (show AOp.ok cfg env (astateAfter cfg h) _ from hok'.2.1) (by intro p hp; cases hp)
  obtain ⟨_, _, hsub, hkeep⟩ := look_facts (F := ({} : Eff K V)) g.wf1 h1
  have g' := look_ok hc g h1
  simp only [aoutAt, astateAfter_snoc, h2]
  show getIfExists cfg env' (applyWalk cfg (astateAfter cfg h) i w) a = getIfExists cfg env' (astateAfter cfg h) a
  refine peek_ext hc _ _ _ _ _ _ fun v => (peek_val hc g' env' a v).trans (Iff.trans ?_ (peek_val hc g env' a v).symm)
  constructor
  · rintro ⟨e, he, hk⟩; exact ⟨e, hsub e he, hk⟩
  · rintro ⟨e, he, hk, hx, hv⟩
    rcases hkeep e he with h3 | h3
    · exact ⟨e, h3, hk, hx, hv⟩
    · rw [e.expired_mono hle (stale_expired h3)] at hx; cases hx

example := C94_failed_lookup_is_invisible (cfg := plain) (nat_ok rfl (by intro d i h; cases h)) (leftDemo.take 2) (at_ 2) (at_ 7) 9 true 1 (by decide)
  ⟨by decide, by decide, fun _ h => h⟩ 1

/-- Calls none of which is left. -/
def plainly (h : Hist K V E) : AHist K V E := h.map (fun p => (p.1, .plain p.2))

theorem arun_plainly (s : St K V E) (h : Hist K V E) : arun cfg s (plainly h) = run cfg s h := by
  induction h generalizing s with
  | nil => rfl
  | cons p h ih =>
    obtain ⟨e, o⟩ := p
    have := ih (step cfg e s o).1
    simp only [plainly, List.map_cons, arun, run, astep] at this ⊢
    rw [this]

theorem ahistOk_plainly {s : St K V E} {h : Hist K V E} : AHistOk cfg s (plainly h) ↔ HistOk cfg s h := by
  induction h generalizing s with
  | nil => exact Iff.rfl
  | cons p h ih => exact and_congr Iff.rfl ih

theorem look_same (hc : cfg.Ok) {mo : Prop} {env : Env V} {s : St K V E} {L : Ledger K V} (g : Good cfg ⟨mo, True, env, True⟩ (fun _ => False) s L)
    {k : K} {incl : Bool} {n i : Nat} {w : Walk K V E} (hw : stopWalk cfg env s (.look k incl n) = some (i, w)) :
    SameTo cfg cfg mo env (applyWalk cfg s i w) s L := by
  refine ⟨look_ok hc g hw, g, applyWalk_des _ _ _ _, applyWalk_nextId _ _ _ _, applyWalk_opens _ _ _ _, fun u => ?_⟩
  simp only [stopWalk, Option.map_eq_some_iff, Prod.mk.injEq] at hw
  obtain ⟨w', hw, rfl, rfl⟩ := hw
  obtain ⟨q3, q4, q5⟩ := lookStop_cut cfg env k incl _ n w' hw
  obtain ⟨oth, h2, h3, _⟩ := applyWalk_perm (cfg := cfg) (g := id) q3 (by simp)
  have hd : Drops env s.ents (applyWalk cfg s (s.bucketFor (cfg.hash k)) w').ents :=
    ⟨w'.removed, h2.trans (List.Perm.append_right _ (by rw [List.map_id] at h3; exact h3.symm)), q5⟩
  unfold Wt
  rw [Wl_drops hd]
  unfold applyWalk
  rw [Wl_dispose]; rfl

/-- C94.  A lookup that is left by an exception never shows, on a cache without size limit and refreshing whose clocks do not go back: whatever
calls follow, each shows what it would have shown without the failing lookup, callbacks and calls of the resolver included.  (The destructor
may drop callbacks in another order.) -/
theorem C94_failed_lookup_never_shows (hc : cfg.Ok) (hs : cfg.maxSize = none) (hr : cfg.refresh = none) (h1 : AHist K V E) (env env' : Env V) (k : K) (incl : Bool) (n : Nat)
    (h2 : Hist K V E) (o : Op K V E) (hok : AHistOk cfg St.init (h1 ++ (env, .look k incl n) :: plainly (h2 ++ [(env', o)])))
    (hm : Mono (h1.map (·.1) ++ env :: (h2.map (·.1) ++ [env']))) (hg : ∀ p ∈ h2 ++ [(env', o)], growFails p.2 = false)
    (hd : ∀ p ∈ h2 ++ [(env', o)], p.2 ≠ .destroy) :
    aoutAt cfg (h1 ++ (env, .look k incl n) :: plainly h2) env' (.plain o) = aoutAt cfg (h1 ++ plainly h2) env' (.plain o) := by
  have hok' := AHistOk_append.1 hok
  have hok2 : HistOk cfg (astep cfg env (astateAfter cfg h1) (.look k incl n)).1 (h2 ++ [(env', o)]) := ahistOk_plainly.1 hok'.2.2
  have hm1 : Mono (h1.map (·.1) ++ [env]) := by
    have : (h1.map (·.1) ++ env :: (h2.map (·.1) ++ [env'])) = (h1.map (·.1) ++ [env]) ++ (h2.map (·.1) ++ [env']) := by simp
    rw [this] at hm
    exact (List.pairwise_append.1 hm).1
  obtain ⟨c, _, g⟩ := agood hc True True (fun _ => .inl trivial) h1 env hok'.1 (fun _ => hm1) (fun _ a b _ => sim_noEvict hs _)
  obtain ⟨i, w, e1, e2⟩ := astep_stop (show AOp.ok cfg env (astateAfter cfg h1) _ from hok'.2.1) (by intro p hp; cases hp)
  have same := look_same hc g e1
  rw [e2] at hok2
  have ht : ∀ (h : Hist K V E) (s : St K V E), HistOk cfg s h → ∀ p ∈ h, isTick p.2 = false := by
    intro h
    induction h with
    | nil => intro s _ p hp; cases hp
    | cons q h ih =>
      intro s hok p hp
      rcases List.mem_cons.1 hp with rfl | hp
      · obtain ⟨e, o⟩ := p
        cases o with
        | tick r b => exact absurd hok.1.2 (by simp [hr])
        | _ => rfl
      · exact ih _ hok.2 p hp
  have R := SameTo.run (hash := cfg.hash) (over := cfg.over) (mb := cfg.maxBuckets) hc hc (.inr (.inr hs)) (.inl trivial) (h2 ++ [(env', o)]) same
    (fun _ => by
      simp only [Mono, List.map_append, List.map_cons, List.map_nil]
      exact (List.pairwise_append.1 hm).2.1)
    hok2 (fun p hp => ⟨ht _ _ hok2 p hp, hg p hp⟩) (noEvictH_none hs _ _) (noEvictH_none hs _ _)
  have E := R.2.2 hd
  have E2 : (run cfg (applyWalk cfg (astateAfter cfg h1) i w) (h2 ++ [(env', o)])).2 = (run cfg (astateAfter cfg h1) (h2 ++ [(env', o)])).2 := E
  rw [run_append, run_append] at E2
  have E3 := (List.append_inj' E2 rfl).2
  simp only [run, List.cons.injEq, and_true] at E3
  have a1 : astateAfter cfg (h1 ++ (env, .look k incl n) :: plainly h2) = (run cfg (applyWalk cfg (astateAfter cfg h1) i w) h2).1 := by
    have : h1 ++ (env, AOp.look k incl n) :: plainly h2 = (h1 ++ [(env, .look k incl n)]) ++ plainly h2 := by simp
    rw [this]
    unfold astateAfter
    rw [arun_append]
    show (arun cfg (astateAfter cfg (h1 ++ [(env, .look k incl n)])) (plainly h2)).1 = _
    rw [astateAfter_snoc, e2, arun_plainly]
    rfl
  have a2 : astateAfter cfg (h1 ++ plainly h2) = (run cfg (astateAfter cfg h1) h2).1 := by
    unfold astateAfter
    rw [arun_append, arun_plainly]
  simp only [aoutAt, a1, a2, astep]
  exact E3

/-- The hypotheses can be met: the failing lookup of 9 has removed the value of 1, which was too old; afterwards 5 and 1 are asked for. -/
example := C94_failed_lookup_never_shows (E := Nat) (cfg := { plain with maxAge := some 3, resolver := .sync }) (nat_ok rfl (by intro d i h; cases h)) rfl rfl
  [(at_ 0, .plain (.emplace 1 10 .none)), (at_ 2, .plain (.emplace 5 50 .none))] (at_ 4) (at_ 6) 9 true 0 [(at_ 4, .get 5 (.ok 51)), (at_ 5, .get 1 (.ok 11))] (.get 5 (.ok 52))
  (by decide) (mono_at [0, 2, 4, 4, 5, 6] (by decide)) (by decide) (by simp)

/-- C94.  An `emplace` that is left by an exception changes no answer for other keys; for its own key the answer is what it
was, or a miss.  Missing: that it is what it was, see `C94_failed_emplace_may_lose_the_value`. -/
theorem C94_failed_emplace_concerns_its_key_partial (hc : cfg.Ok) (h : AHist K V E) (env env' : Env V) (k : K) (n : Nat)
    (hok : AHistOk cfg St.init (h ++ [(env, .emplace k n)])) (hle : env.le env') (a : K) :
    aoutAt cfg (h ++ [(env, .emplace k n)]) env' (.plain (.getIfExists a)) = aoutAt cfg h env' (.plain (.getIfExists a)) ∨
    cfg.eqv a k = true ∧ (aoutAt cfg (h ++ [(env, .emplace k n)]) env' (.plain (.getIfExists a))).ret = .miss := by
  have hok' := AHistOk_append.1 hok
  obtain ⟨_, _, g⟩ := agood hc False False (fun h => h.elim) h env hok'.1 (fun h => h.elim) (fun h => h.elim)
  obtain ⟨i, w, h1, h2⟩ := astep_stop (show AOp.ok cfg env (astateAfter cfg h) _ from hok'.2.1) (by intro p hp; cases hp)
  obtain ⟨R, r⟩ := emplace_reached hc g.wf1 h1
  have g' := emplace_any hc g (fun h => h) h1
  simp only [aoutAt, astateAfter_snoc, h2]
  show getIfExists cfg env' (applyWalk cfg (astateAfter cfg h) i w) a = getIfExists cfg env' (astateAfter cfg h) a ∨
    _ ∧ (getIfExists cfg env' (applyWalk cfg (astateAfter cfg h) i w) a).ret = .miss
  cases hak : cfg.eqv a k with
  | false =>
    left
    have hno : ∀ e : Entry K V E, cfg.eqv e.key a = true → cfg.eqv e.key k = false := by
      intro e h1
      cases h2 : cfg.eqv e.key k with
      | false => rfl
      | true => rw [hc.trans _ _ _ (hc.symm _ _ h1) h2] at hak; cases hak
    refine peek_ext hc _ _ _ _ _ _ fun v => (peek_val hc g' env' a v).trans (Iff.trans ?_ (peek_val hc g env' a v).symm)
    constructor
    · rintro ⟨e, he, hk, hx⟩; exact ⟨e, r.sub e he (hno e hk), hk, hx⟩
    · rintro ⟨e, he, hk, hx, hv⟩
      rcases r.oth e he (hno e hk) with h3 | h3
      · exact ⟨e, h3, hk, hx, hv⟩
      · rw [e.expired_mono hle (stale_expired h3)] at hx; cases hx
  | true =>
    rcases optRet_cases (peekWalk cfg env' a ((applyWalk cfg (astateAfter cfg h) i w).bucket ((applyWalk cfg (astateAfter cfg h) i w).bucketFor (cfg.hash a)))) with h3 | ⟨v, h3⟩
    · exact .inr ⟨rfl, h3⟩
    · left
      obtain ⟨e, he, hk, hx, hv⟩ := (peek_val hc g' env' a v).1 h3
      have hek := hc.trans _ _ _ hk hak
      obtain ⟨hes, _⟩ := r.kept e he hek (.inl (by simp [hv]))
      have h4 := (peek_val hc g env' a v).2 ⟨e, hes, hk, hx, hv⟩
      refine peek_ext hc _ _ _ _ _ _ fun u => ?_
      rw [h4, show (getIfExists cfg env' (applyWalk cfg (astateAfter cfg h) i w) a).ret = .val v from h3]

example := C94_failed_emplace_concerns_its_key_partial (cfg := plain) (nat_ok rfl (by intro d i h; cases h)) (leftDemo.take 4) (at_ 4) (at_ 7) 1 1 (by decide)
  ⟨by decide, by decide, fun _ h => h⟩ 1

/-- C94.  Whatever calls were left before, completing a lookup invokes exactly the callbacks registered for it, each once
and in order, with the result. -/
theorem C94_waiters_hear_of_it (hc : cfg.Ok) (h : AHist K V E) (hok : AHistOk cfg St.init h) (env : Env V) (tok : Nat) (r : Res V E)
    (ht : (aoutAt cfg h env (.plain (.complete tok r))).ret = .bool true) :
    (aoutAt cfg h env (.plain (.complete tok r))).fired = ((aledgerAfter cfg (fun _ => .nothing) h).wait tok).map (fun w => (w, r)) := by
  obtain ⟨c, hcn, g⟩ := agood hc False False (fun h => h.elim) h env hok (fun h => h.elim) (fun h => h.elim)
  rw [show c = fun _ => .nothing from funext (hcn (fun h => h))] at g
  simp only [aoutAt, astep, step] at ht ⊢
  by_cases hx : tok ∈ (astateAfter cfg h).opens
  · rcases Bool.eq_false_or_eq_true (astateAfter cfg h).destroyed with hd | hd
    · exfalso; simp [complete, hx, hd] at ht
    · rw [(complete_ok hc g hd hx r).2]
  · exfalso; simp [complete, hx] at ht

/-- Two callbacks wait for the lookup of 1; a lookup of 5 and an `emplace` of 5 are left at the first comparison. -/
example := C94_waiters_hear_of_it (cfg := asyncC) (nat_ok rfl (by intro d i h; cases h))
  ([(at_ 0, .plain (.asyncGet 1 10 .later)), (at_ 1, .look 5 true 0), (at_ 2, .plain (.asyncGet 1 11 .later)), (at_ 3, .emplace 5 0)] : AHist Nat Nat Nat)
  (by decide) (at_ 4) 0 (.ok 7) (by decide)

end Hoard.Props
