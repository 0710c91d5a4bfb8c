import Verif.ThrowAcc
import Verif.Props.Async
import Verif.Props.Storage
/-! # C76-C80: calls that fail

Constructors of values, resolver functors and allocations that throw. -/
namespace Hoard.Props
open Hoard Spec Demo Throw
variable {K V E : Type} {cfg : Cfg K} {nx : Bool}

/-! ## C76 -/

/-- C76.  However many calls have failed before, in whatever way: an answer from the store is the
value that the key has according to the writes and removals so far.  Missing: histories in which
a failed delivery leaves a refresh of a stored value in place, see `C76_failed_refresh_is_lost`. -/
theorem C76_failures_leave_values_right_partial (hc : cfg.Ok) (h : XHist K V E) (hok : XHistOk cfg nx {} h) (hl : NoLostRefresh cfg nx h)
    (env : Env V) (o : Op K V E) (ho : (XOp.plain o).ok cfg (xstateAfter cfg nx h)) (k : K) (v : V)
    (ha : answered o (xoutAt cfg nx h env (.plain o)) = some (k, v)) (hca : (xoutAt cfg nx h env (.plain o)).calls = [])
    (hmd : (xoutAt cfg nx h env (.plain o)).made = false) :
    (xledgerAfter cfg nx h).cur k = some v := by
  have g := (xgood (nx := nx) hc False False (fun h => h.elim) h env hok hl (fun h => h.elim) (fun h => h.elim)).good
  have hs : (∀ tok r, o ≠ .complete tok r) → (∀ tok, o ≠ .drop tok) → xoutAt cfg nx h env (.plain o) = (step cfg env (xstateAfter cfg nx h).s o).2 := by
    intro h1 h2
    cases o with
    | complete tok r => exact absurd rfl (h1 tok r)
    | drop tok => exact absurd rfl (h2 tok)
    | _ => rfl
  have h1 : ∀ tok r, o ≠ .complete tok r := by rintro tok r rfl; simp [answered] at ha
  have h2 : ∀ tok, o ≠ .drop tok := by rintro tok rfl; simp [answered] at ha
  rw [hs h1 h2] at ha hca hmd
  exact (stored_valid hc g (fun h => h) ho.2 ha hca hmd).1

/-- C76: without a size limit, and on clocks that do not go back, `get_if_exists` says exactly what the writes
and removals say, up to the age limits: failures lose no value either. -/
theorem C76_failures_lose_no_value_partial (hc : cfg.Ok) (h : XHist K V E) (hok : XHistOk cfg nx {} h) (hl : NoLostRefresh cfg nx h)
    (env : Env V) (hm : Mono (h.map (·.1) ++ [env])) (hs : cfg.maxSize = none) (k : K) :
    (xoutAt cfg nx h env (.plain (.getIfExists k))).ret =
      match (xledgerAfter cfg nx h).cur k with
      | none => .miss
      | some v => if env.now.past ((xledgerAfter cfg nx h).ageLimit cfg.maxAge cfg.wall k) || reached env.now ((xledgerAfter cfg nx h).idleLimit cfg.refresh k)
          then .miss else .val v := by
  have g := (xgood (nx := nx) hc True True (fun _ => .inl trivial) h env hok hl (fun _ => hm)
    (fun _ _ _ _ N hN => by rw [hs] at hN; cases hN)).good
  exact peek_exact hc g trivial hs k

instance (cfg : Cfg Nat) (x : XSt Nat Nat Nat) (o : XOp Nat Nat Nat) : Decidable (o.ok cfg x) :=
  match o with
  | .plain _ => inferInstanceAs (Decidable (_ ∧ _))
  | .getFail _ _ _ => inferInstanceAs (Decidable (_ ∧ _ ∧ _))
  | .asyncFail _ _ _ _ => inferInstanceAs (Decidable (_ ∧ _ ∧ _))
  | .assignFail _ _ _ => inferInstanceAs (Decidable (_ = _))

instance xhistOkDec (cfg : Cfg Nat) (nx : Bool) : (x : XSt Nat Nat Nat) → (h : XHist Nat Nat Nat) → Decidable (XHistOk cfg nx x h)
  | _, [] => isTrue trivial
  | x, (env, o) :: h =>
    have := xhistOkDec cfg nx (xstep cfg nx env x o).1 h
    inferInstanceAs (Decidable (_ ∧ _))

/-- A key is written, another looked up; the functor throws, then a lookup waits and its delivery fails;
a third lookup starts afresh. -/
def failDemo : XHist Nat Nat Nat :=
  [(at_ 0, .plain (.emplace 1 10 .none)), (at_ 1, .asyncFail 2 20 .drop .functor), (at_ 2, .plain (.asyncGet 2 21 .later)),
   (at_ 3, .plain (.asyncGet 2 22 .later)), (at_ 4, .assignFail 2 false 7), (at_ 5, .plain (.asyncGet 2 23 .later)),
   (at_ 6, .plain (.complete 3 (.ok 8)))]

theorem failDemo_lost : NoLostRefresh asyncC false failDemo := by
  intro h1 env tok v h2 hh
  exfalso
  have : (env, XOp.assignFail tok true v) ∈ failDemo := by rw [hh]; simp
  simp [failDemo] at this

example : XHistOk asyncC false {} failDemo ∧ xouts asyncC false failDemo =
    [{ ret := .unit, made := true }, { ret := .throws, calls := [(2, 1)] }, { calls := [(2, 2)] }, {}, { ret := .throws, broken := [21, 22] },
     { calls := [(2, 3)] }, { ret := .bool true, fired := [(23, .ok 8)] }] ∧
    (xledgerAfter asyncC false failDemo).cur 1 = some 10 ∧ (xledgerAfter asyncC false failDemo).cur 2 = some 8 ∧
    (xoutAt asyncC false failDemo (at_ 7) (.plain (.getIfExists 2))).ret = .val 8 := by decide +kernel

/-- C76 is false for a refresh whose delivery fails and leaves the refresh in place: when the resolver then
delivers its value, the cache stores it nowhere, and goes on to answer with the old one. -/
theorem C76_failed_refresh_is_lost :
    let cfg : Cfg Nat := { asyncC with refresh := some (10, 0) }
    let h : XHist Nat Nat Nat :=
      [(at_ 0, .plain (.asyncGet 1 10 .later)), (at_ 0, .plain (.complete 0 (.ok 5))), (at_ 10, .plain (.tick (.ok 0) .later)),
       (at_ 11, .assignFail 1 true 6), (at_ 12, .plain (.complete 1 (.ok 6)))]
    XHistOk cfg false {} h ∧ (xoutAt cfg false (h.take 4) (at_ 12) (.plain (.complete 1 (.ok 6)))).ret = .bool true ∧
    (xledgerAfter cfg false h).cur 1 = some 6 ∧ (xoutAt cfg false h (at_ 13) (.plain (.getIfExists 1))).ret = .val 5 := by decide +kernel

/-! ## C77 -/

/-- The call is a lookup or a delivery, and if it is a lookup of a key equal to `a` with an asynchronous resolver, the functor did not
deliver before it failed. -/
def LookupOrDelivery (cfg : Cfg K) (a : K) : XOp K V E → Prop
  | .getFail _ _ _ => True
  | .asyncFail k _ b _ => cfg.eqv a k = true → ∀ r, b ≠ .now r
  | .assignFail _ _ _ => True
  | .plain (.get _ _) => True
  | .plain (.asyncGet _ _ _) => True
  | .plain (.complete _ _) => True
  | _ => False

/-- C77.  A lookup or a delivery that throws stores nothing and removes nothing: whatever key is asked for next, the answer is what it would have
been without the failing call. -/
theorem C77_failed_call_changes_no_value_partial (hc : cfg.Ok) (h : XHist K V E) (env : Env V) (o : XOp K V E)
    (hok : XHistOk cfg nx {} (h ++ [(env, o)])) (hl : NoLostRefresh cfg nx (h ++ [(env, o)])) (a : K) (ho : LookupOrDelivery cfg a o)
    (ht : (xoutAt cfg nx h env o).ret = .throws) :
    (xoutAt cfg nx (h ++ [(env, o)]) env (.plain (.getIfExists a))).ret = (xoutAt cfg nx h env (.plain (.getIfExists a))).ret := by
  have hok' := XHistOk_append.1 hok
  have ho1 : o.ok cfg (xstateAfter cfg nx h) := hok'.2.1
  have g := (xgood (nx := nx) hc False False (fun h => h.elim) h env hok'.1 hl.left (fun h => h.elim) (fun h => h.elim)).good
  have g' := (xgood (nx := nx) hc False False (fun h => h.elim) _ env hok hl (fun h => h.elim) (fun h => h.elim)).good
  rw [xstateAfter_snoc] at g'
  simp only [xoutAt, xstateAfter_snoc] at ht ⊢
  generalize xstateAfter cfg nx h = x at *
  show (getIfExists cfg env (xstep cfg nx env x o).1.s a).ret = (getIfExists cfg env x.s a).ret
  congr 1
  cases o with
  | getFail k r f => exact getFail_peek hc g ho1.2.2 ho1.2.1 k r f ht a
  | asyncFail k w b f =>
    refine asyncFail_peek hc g ho1.2.2 ho1.2.1 k w b f ht a (fun r hb => ?_)
    cases he : cfg.eqv a k with
    | false => rfl
    | true => exact absurd hb (ho he r)
  | assignFail tok keeps v => exact assignFail_peek hc g g' ht a
  | plain p =>
    cases p with
    | get k r =>
      exfalso
      rcases (get_ok hc g ho1.2.2 ho1.2.1 k r).2 with ⟨u, hu, _⟩ | ⟨⟨hm, _⟩ | ⟨hm, _⟩, _⟩
      · rw [show (xstep cfg nx env x (.plain (.get k r))).2.ret = _ from hu] at ht; cases ht
      · rw [show (xstep cfg nx env x (.plain (.get k r))).2.ret = _ from hm] at ht; cases ht
      · rw [show (xstep cfg nx env x (.plain (.get k r))).2.ret = _ from hm] at ht; cases r <;> cases ht
    | asyncGet k w b =>
      exfalso
      rw [show (xstep cfg nx env x (.plain (.asyncGet k w b))).2.ret = _ from (asyncGet_ok hc g ho1.2.2 ho1.2.1 k w b).2.1] at ht; cases ht
    | complete tok r =>
      simp only [xstep] at ht ⊢
      split at ht
      · rename_i hd
        rw [if_pos hd]
        cases r with
        | err e =>
          simp only [completeDead] at ht ⊢
          split <;> rfl
        | ok v =>
          simp only [completeDead] at ht ⊢
          split <;> rfl
      · exfalso
        simp only [complete] at ht
        repeat' split at ht
        all_goals cases ht
    | _ => exact ho.elim

/-- The failing calls of `failDemo` are among them, and so is a synchronous lookup that fails while it stores its value. -/
example : (xoutAt asyncC false (failDemo.take 4) (at_ 4) (.assignFail 2 false 7)).ret = .throws ∧
    (xoutAt asyncC false (failDemo.take 1) (at_ 1) (.asyncFail 2 20 .drop .functor)).ret = .throws ∧
    (xoutAt { plain with resolver := .sync } false ([(at_ 0, .plain (.emplace 1 10 .none))] : XHist Nat Nat Nat) (at_ 1) (.getFail 2 (.ok 5) .build)).ret = .throws := by decide

/-! ## C78 -/

theorem alive_of {h : XHist K V E} (hok : XHistOk cfg nx {} h) (hd : ∀ p ∈ h, p.2 ≠ .plain .destroy) : (xstateAfter cfg nx h).s.destroyed = false := by
  cases he : (xstateAfter cfg nx h).s.destroyed with
  | false => rfl
  | true =>
    obtain ⟨p, hp, hpd⟩ := (xdestroyed_iff h hok).1 he
    exact absurd hpd (hd p hp)

/-- C78.  A delivery that fails invokes nobody: all the callbacks that waited for the lookup are destroyed.  (The exception goes to the one who
called `assign`.) -/
theorem C78_failed_delivery_drops_waiters_partial (hc : cfg.Ok) (h : XHist K V E) (hok : XHistOk cfg nx {} h) (hl : NoLostRefresh cfg nx h)
    (env : Env V) (tok : Nat) (keeps : Bool) (v : V) (hd : ∀ p ∈ h, p.2 ≠ .plain .destroy) (hs : ¬ Spoiled cfg nx h tok)
    (ht : (xoutAt cfg nx h env (.assignFail tok keeps v)).ret = .throws) :
    xoutAt cfg nx h env (.assignFail tok keeps v) = { ret := .throws, broken := (xledgerAfter cfg nx h).wait tok } := by
  have g := (xgood (nx := nx) hc False False (fun h => h.elim) h env hok hl (fun h => h.elim) (fun h => h.elim)).good
  have hdd : (xstateAfter cfg nx h).s.destroyed = false := alive_of hok hd
  have hdead : tok ∉ (xstateAfter cfg nx h).dead := fun hh => hs ((dead_iff h hok hdd tok).1 hh)
  simp only [xoutAt, xstep] at ht ⊢
  by_cases hop : tok ∈ (xstateAfter cfg nx h).s.opens
  · simp only [assignFail, if_pos hop, hdd, Bool.false_eq_true, if_false]
    congr 1
    obtain ⟨T, hT, hid, _⟩ := g.wf2.opE hdd tok hop
    have := findAny_mem g.wf1 hT
    rw [hid] at this
    rw [this, ← hid]
    exact g.g.wt T hT (by rw [hid]; exact hop)
  · simp only [assignFail, if_neg hop, if_neg hdead] at ht
    cases ht

/-- C78: a handle whose lookup is gone after a failed delivery cannot be used any more: delivering a value throws, invokes nobody and
stores nothing (C77), and only dropping it works. -/
theorem C78_spoiled_handle (h : XHist K V E) (hok : XHistOk cfg nx {} h) (env : Env V) (tok : Nat)
    (hd : ∀ p ∈ h, p.2 ≠ .plain .destroy) (hs : Spoiled cfg nx h tok) (v : V) :
    xoutAt cfg nx h env (.plain (.complete tok (.ok v))) = { ret := .throws } ∧
    xoutAt cfg nx h env (.plain (.drop tok)) = { ret := .bool true } := by
  have hdd : (xstateAfter cfg nx h).s.destroyed = false := alive_of hok hd
  have hdead := (dead_iff h hok hdd tok).2 hs
  simp only [xoutAt, xstep, if_pos hdead, completeDead, hdd, Bool.false_eq_true, if_false, dropDead, and_self]

/-- C78: if the failed delivery leaves the lookup in place, a value can still be delivered.  It is stored as ever (C76), but nobody hears of it. -/
theorem C78_kept_lookup_can_be_delivered_partial (hc : cfg.Ok) (h : XHist K V E) (env env' : Env V) (tok : Nat) (v : V)
    (hok : XHistOk cfg nx {} (h ++ [(env, .assignFail tok true v)])) (hl : NoLostRefresh cfg nx (h ++ [(env, .assignFail tok true v)]))
    (hd : ∀ p ∈ h, p.2 ≠ .plain .destroy) (hs : ¬ Spoiled cfg nx h tok) (ht : (xoutAt cfg nx h env (.assignFail tok true v)).ret = .throws) (r : Res V E) :
    xoutAt cfg nx (h ++ [(env, .assignFail tok true v)]) env' (.plain (.complete tok r)) = { ret := .bool true } := by
  have hok' := XHistOk_append.1 hok
  have gx := (xgood (nx := nx) hc False False (fun h => h.elim) _ env' hok hl (fun h => h.elim) (fun h => h.elim))
  have hdd : (xstateAfter cfg nx h).s.destroyed = false := alive_of hok'.1 hd
  have hdead : tok ∉ (xstateAfter cfg nx h).dead := fun hh => hs ((dead_iff h hok'.1 hdd tok).1 hh)
  have hw : (xledgerAfter cfg nx (h ++ [(env, .assignFail tok true v)])).wait tok = [] := by
    rw [xledgerAfter_snoc]; simp only [xafter, ht, if_true, unheard]
  have hx := xstateAfter_snoc cfg nx h env (.assignFail tok true v)
  have hop : tok ∈ (xstateAfter cfg nx h).s.opens := by
    refine Classical.byContradiction fun hop => ?_
    simp only [xoutAt, xstep, assignFail, if_neg hop, if_neg hdead] at ht
    cases ht
  have hstep : (xstep cfg nx env (xstateAfter cfg nx h) (.assignFail tok true v)).1.s.opens = (xstateAfter cfg nx h).s.opens ∧
      (xstep cfg nx env (xstateAfter cfg nx h) (.assignFail tok true v)).1.s.destroyed = false ∧
      (xstep cfg nx env (xstateAfter cfg nx h) (.assignFail tok true v)).1.dead = (xstateAfter cfg nx h).dead := by
    simp only [xstep, assignFail, if_pos hop, hdd, Bool.false_eq_true, if_false, if_true]
    exact ⟨rfl, rfl, trivial⟩
  rw [← hx] at hstep
  have q := (complete_ok hc gx.good hstep.2.1 (hstep.1 ▸ hop) r).2
  rw [hw] at q
  simp only [xoutAt, xstep]
  rw [if_neg (by rw [hstep.2.2]; exact hdead)]
  exact q

/-- C78: whatever fails, no callback is invoked twice, or both invoked and destroyed (until the cache is destroyed). -/
theorem C78_settled_once_partial (hc : cfg.Ok) (h : XHist K V E) (hok : XHistOk cfg nx {} h) (hl : NoLostRefresh cfg nx h)
    (hN : (xasked h (xouts cfg nx h)).Nodup) :
    (answeredW (xouts cfg nx h)).Nodup ∧ (∀ w ∈ answeredW (xouts cfg nx h), w ∈ xasked h (xouts cfg nx h)) ∧
    ((∀ p ∈ h, p.2 ≠ .plain .destroy) → (brokenW (xouts cfg nx h)).Nodup ∧ ∀ w ∈ brokenW (xouts cfg nx h), w ∉ answeredW (xouts cfg nx h)) := by
  have A := xacc hc h hok hl hN
  refine ⟨A.fN, A.fw, fun hd => ?_⟩
  have hdd : (xstateAfter cfg nx h).s.destroyed = false := alive_of hok hd
  exact ⟨A.bN hdd, A.bf hdd⟩

/-- C78: and nobody is forgotten.  Every callback passed to a `get` that did not throw was invoked, or destroyed, or waits for a lookup whose completion will
invoke it, or the functor threw away the handle while it was being called (see C24). -/
theorem C78_nobody_is_forgotten_partial (hc : cfg.Ok) (h : XHist K V E) (hok : XHistOk cfg nx {} h) (hl : NoLostRefresh cfg nx h)
    (hN : (xasked h (xouts cfg nx h)).Nodup) (env : Env V) (r : Res V E) (w : Nat) (hw : w ∈ xasked h (xouts cfg nx h)) :
    w ∈ answeredW (xouts cfg nx h) ∨ w ∈ brokenW (xouts cfg nx h) ∨ XLost cfg nx h w ∨
    ∃ tok, (xoutAt cfg nx h env (.plain (.complete tok r))).ret = .bool true ∧ (w, r) ∈ (xoutAt cfg nx h env (.plain (.complete tok r))).fired := by
  have gx := (xgood (nx := nx) hc False False (fun h => h.elim) h env hok hl (fun h => h.elim) (fun h => h.elim))
  rcases (xacc hc h hok hl hN).all w hw with q | q | q | ⟨q, t, ht, htw⟩
  · exact .inl q
  · exact .inr (.inl q)
  · exact .inr (.inr (.inl q))
  · have := (complete_ok hc gx.good q ht r).2
    have hs : xoutAt cfg nx h env (.plain (.complete t r)) = (complete cfg env (xstateAfter cfg nx h).s t r).2 := by
      simp only [xoutAt, xstep]
      rw [if_neg (fun hh => gx.dop t hh ht)]
    refine .inr (.inr (.inr ⟨t, ?_, ?_⟩))
    · rw [hs]; rw [this]
    · rw [hs]; rw [this]; simpa using htw

/-- In `failDemo` two waiters are destroyed by the failed delivery and one is answered; the functor that threw took its callback with it.  The first handle is
spoiled. -/
example : xasked failDemo (xouts asyncC false failDemo) = [21, 22, 23] ∧ answeredW (xouts asyncC false failDemo) = [23] ∧
    brokenW (xouts asyncC false failDemo) = [21, 22] ∧ (xoutAt asyncC false failDemo (at_ 8) (.plain (.complete 2 (.ok 1)))).ret = .throws ∧
    (xledgerAfter asyncC false (failDemo.take 4)).wait 2 = [21, 22] := by decide +kernel

example : Spoiled asyncC false failDemo 2 :=
  ⟨failDemo.take 4, at_ 4, 7, failDemo.drop 5, rfl, by decide, by
    intro p hp hh
    simp only [failDemo, List.drop, List.mem_cons, List.not_mem_nil, or_false] at hp
    rcases hp with rfl | rfl <;> cases hh⟩

/-- A delivery that fails and leaves the lookup: the value delivered next is stored, but the waiter is gone. -/
example : let h : XHist Nat Nat Nat := [(at_ 0, .plain (.asyncGet 1 10 .later)), (at_ 1, .assignFail 0 true 7)]
    XHistOk asyncC false {} h ∧ xouts asyncC false h = [{ calls := [(1, 0)] }, { ret := .throws, broken := [10] }] ∧
    (xoutAt asyncC false (h ++ [(at_ 2, .plain (.complete 0 (.ok 8)))]) (at_ 3) (.plain (.getIfExists 1))).ret = .val 8 := by decide

/-! ## C79 -/

/-- C79.  Failed calls leave nothing behind.  `ks` is a list of distinct keys containing (up to equality) every key that has a
value or a lookup in flight.  After a history with failing calls the number of entries is the number of keys of the list that have a value, plus
the number of those with a lookup in flight.  Absent eviction; the clock does not go back.  Missing: failed deliveries of values that are not
pointers and that leave nothing of the lookup, see `C79_failed_deliveries_leak`. -/
theorem C79_failures_leave_nothing_partial (hc : cfg.Ok) (h : XHist K V E) (hok : XHistOk cfg nx {} h) (hl : NoLostRefresh cfg nx h) (hh : NoHusk cfg h)
    (hd : ∀ p ∈ h, p.2 ≠ .plain .destroy) (env : Env V) (hm : Mono (h.map (·.1) ++ [env])) (hx : XNoEvict cfg nx h)
    (ks : List K) (hks : ks.Pairwise (fun a b => cfg.eqv a b = false))
    (hcov : ∀ a, (xoutAt cfg nx h env (.plain (.getIfExists a))).ret.isVal = true ∨ ((xledgerAfter cfg nx h).valid a).isSome = true → ∃ k ∈ ks, cfg.eqv a k = true) :
    (xoutAt cfg nx h env (.plain .count)).ret = .num ((ks.filter (fun k => (xoutAt cfg nx h env (.plain (.getIfExists k))).ret.isVal)).length +
      (ks.filter (fun k => ((xledgerAfter cfg nx h).valid k).isSome)).length) := by
  have g := (xgood_tm (nx := nx) hc True True True (fun _ => .inl trivial) h env hok hl (fun _ => hm) (fun _ => hx) (fun _ => hh)).good
  have hdd := alive_of hok hd
  have hv : ∀ a, holds cfg env (xstateAfter cfg nx h).s a = (xoutAt cfg nx h env (.plain (.getIfExists a))).ret.isVal := by
    intro a
    rw [Bool.eq_iff_iff, holds_iff hc g env a]
    show (∃ v, (xoutAt cfg nx h env (.plain (.getIfExists a))).ret = .val v) ↔ _
    cases (xoutAt cfg nx h env (.plain (.getIfExists a))).ret <;> simp [Ret.isVal]
  have hj : ∀ a, joins cfg (xstateAfter cfg nx h).s a = ((xledgerAfter cfg nx h).valid a).isSome := by
    intro a
    rw [Bool.eq_iff_iff, joins, List.any_eq_true]
    constructor
    · rintro ⟨e, he, hl⟩
      simp only [Bool.and_eq_true] at hl
      rw [(g.p a).c2 e he hl.2 hl.1]; rfl
    · intro hv
      obtain ⟨t, ht⟩ := Option.isSome_iff_exists.1 hv
      obtain ⟨_, T, hT, _, _, hk, hl, _⟩ := (g.p a).c3 hdd t ht
      exact ⟨T, hT, by simp [hl trivial, hk]⟩
  show Ret.num (Hoard.count env (xstateAfter cfg nx h).s) = _
  rw [count_keys hc g trivial env ks hks (by intro a ha; rw [hv, hj] at ha; exact hcov a ha)]
  congr 2
  · congr 1; apply List.filter_congr; intro k _; exact hv k
  · congr 1; apply List.filter_congr; intro k _; exact hj k

/-- A functor that throws after dropping the handle, one that throws and keeps it, and a failed delivery that leaves the lookup. -/
def tidyDemo : XHist Nat Nat Nat :=
  [(at_ 0, .plain (.emplace 1 10 .none)), (at_ 1, .asyncFail 2 20 .drop .functor), (at_ 2, .asyncFail 3 21 .later .functor),
   (at_ 3, .plain (.asyncGet 4 22 .later)), (at_ 4, .assignFail 3 true 7)]

example : XHistOk asyncC false {} tidyDemo ∧ (∀ p ∈ tidyDemo, p.2 ≠ .plain .destroy) ∧ NoHusk asyncC tidyDemo ∧
    (xoutAt asyncC false tidyDemo (at_ 5) (.plain .count)).ret = .num 3 ∧
    [1, 2, 3, 4].map (fun k => (xledgerAfter asyncC false tidyDemo).valid k) = [none, none, some 2, some 3] := by
  refine ⟨by decide, ?_, .inr ?_, by decide, by decide⟩
  · intro p hp hh; simp [tidyDemo] at hp; rcases hp with rfl | rfl | rfl | rfl | rfl <;> cases hh
  · intro p hp t v hh; simp [tidyDemo] at hp; rcases hp with rfl | rfl | rfl | rfl | rfl <;> cases hh

/-- C79 is false of deliveries that leave nothing of the lookup: failed calls leave entries that nothing removes.  For every cache with an asynchronous resolver whose values are
not pointers, whatever its size limit, and every `n`: there is a history after which no lookup is in flight, nothing is stored, and yet the cache
counts `n` entries. -/
theorem C79_failed_deliveries_leak (hc : cfg.Ok) (hp : cfg.ptr = false) (hr : cfg.resolver = .async) (env : Env V) (k : K) (v : V) (n : Nat) :
    ∃ h : XHist K V E, XHistOk cfg nx {} h ∧ (∀ p ∈ h, ∃ w t, p.2 = .plain (.asyncGet k w .later) ∨ p.2 = .assignFail t false v ∨ p.2 = .plain (.drop t)) ∧
      (xoutAt cfg nx h env (.plain .count)).ret = .num n ∧
      (∀ a, (xoutAt cfg nx h env (.plain (.getIfExists a))).ret = .miss) ∧
      (∀ tok r, (xoutAt cfg nx h env (.plain (.complete tok r))).ret = .bool false) := by
  obtain ⟨h1, w1, hu, hd, hde, hop, hen, hsz, hnx⟩ := rounds_add (E := E) (nx := nx) hc hp hr env k v n
  refine ⟨failedRounds env k v n, h1, ?_, ?_, ?_, ?_⟩
  · clear h1 w1 hu hd hde hop hen hsz hnx
    induction n with
    | zero => intro p hp; cases hp
    | succ n ih =>
      intro p hp
      rcases List.mem_append.1 hp with hp | hp
      · exact ih p hp
      · simp only [failedRound, List.mem_cons, List.not_mem_nil, or_false] at hp
        rcases hp with rfl | rfl | rfl
        · exact ⟨n, n, .inl rfl⟩
        · exact ⟨n, n, .inr (.inl rfl)⟩
        · exact ⟨n, n, .inr (.inr rfl)⟩
  · show Ret.num (Hoard.count env (xstateAfter cfg nx (failedRounds env k v n)).s) = .num n
    rw [hu.count env, hsz]
  · intro a
    show (getIfExists cfg env (xstateAfter cfg nx (failedRounds env k v n)).s a).ret = .miss
    rw [getIfExists_eq hc w1.placed, hu.miss env a false]
    rfl
  · intro tok r
    simp only [xoutAt, xstep, hde, hop, List.not_mem_nil, if_false, complete]

/-! ## C80 -/

/-- C80.  When a failure ends the program.  Of the calls that are possible, exactly these do: failing a lookup (`assign_error`) through
a handle that an earlier failed delivery has spoiled; and a `get` that fails although it may not throw, because it is `noexcept` (`nx`), or that
fails while it stores the value of a resolver that may throw and nothing is left of the lookup. -/
theorem C80_what_ends_the_program (h : XHist K V E) (env : Env V) (o : XOp K V E) (hok : XHistOk cfg nx {} (h ++ [(env, o)])) :
    XEnded cfg nx (h ++ [(env, o)]) ↔
      (∃ tok er, o = .plain (.complete tok (.err er)) ∧ Spoiled cfg nx h tok ∧ ∀ p ∈ h, p.2 ≠ .plain .destroy) ∨
      (∃ k r f, o = .getFail k r f ∧ (xoutAt cfg nx h env o).ret = .throws ∧ (f = .assign ∨ nx = true)) := by
  have hok' := XHistOk_append.1 hok
  have ho1 : o.ok cfg (xstateAfter cfg nx h) := hok'.2.1
  unfold XEnded
  rw [xstateAfter_snoc, ended_iff env o ho1]
  have hdd : (xstateAfter cfg nx h).s.destroyed = false ↔ ∀ p ∈ h, p.2 ≠ .plain .destroy := by
    have := xdestroyed_iff (cfg := cfg) (nx := nx) h hok'.1
    constructor
    · intro hd p hp he; rw [this.2 ⟨p, hp, he⟩] at hd; cases hd
    · intro hd
      cases he : (xstateAfter cfg nx h).s.destroyed with
      | false => rfl
      | true => obtain ⟨p, hp, hpd⟩ := this.1 he; exact absurd hpd (hd p hp)
  constructor
  · rintro (⟨tok, er, h1, h2, h3⟩ | h1)
    · exact .inl ⟨tok, er, h1, (dead_iff h hok'.1 h3 tok).1 h2, hdd.1 h3⟩
    · exact .inr h1
  · rintro (⟨tok, er, h1, h2, h3⟩ | h1)
    · exact .inl ⟨tok, er, h1, (dead_iff h hok'.1 (hdd.2 h3) tok).2 h2, hdd.2 h3⟩
    · exact .inr h1

/-- C80: with an asynchronous resolver, a program that does not use a handle again after a failed delivery, except to drop it, is never ended by a failure. -/
theorem C80_asynchronous_failures_do_not_end_the_program (h : XHist K V E) (hok : XHistOk cfg nx {} h) (hr : cfg.resolver = .async)
    (hs : ∀ h1 env tok er h2, h = h1 ++ (env, .plain (.complete tok (.err er))) :: h2 → ¬ Spoiled cfg nx h1 tok) : ¬ XEnded cfg nx h := by
  rcases List.eq_nil_or_concat h with rfl | ⟨h1, p, rfl⟩
  · simp [XEnded, xstateAfter, xrun]
  · obtain ⟨env, o⟩ := p
    simp only [List.concat_eq_append] at hok hs ⊢
    rw [C80_what_ends_the_program h1 env o hok]
    rintro (⟨tok, er, rfl, h2, _⟩ | ⟨k, r, f, rfl, _⟩)
    · exact hs h1 env tok er [] rfl h2
    · have := (XHistOk_append.1 hok).2.1.2.1
      rw [hr] at this; cases this

/-- Failing the lookup of the spoiled handle of `failDemo` ends the program; so does, with a synchronous resolver, a value that cannot be made. -/
example : XHistOk asyncC false {} (failDemo ++ [(at_ 8, .plain (.complete 2 (.err 0)))]) ∧
    XEnded asyncC false (failDemo ++ [(at_ 8, .plain (.complete 2 (.err 0)))]) ∧
    XEnded { plain with resolver := .sync } false ([(at_ 0, .getFail 1 (.ok 5) .assign)] : XHist Nat Nat Nat) ∧
    ¬ XEnded { plain with resolver := .sync } false ([(at_ 0, .getFail 1 (.ok 5) .build)] : XHist Nat Nat Nat) := by unfold XEnded; decide +kernel

/-! ### Applied -/

/-- A history without failed deliveries that leave the lookup in place loses no refresh. -/
theorem none_lost {h : XHist Nat Nat Nat} (hh : h.all (fun p => match p.2 with | .assignFail _ true _ => false | _ => true) = true) : NoLostRefresh asyncC false h := by
  intro h1 env tok v h2 he
  rw [he] at hh
  simp at hh

theorem tidyDemo_lost : NoLostRefresh asyncC false tidyDemo := by
  intro h1 env tok v h2 he
  match h1 with
  | [] | [_] | [_, _] | [_, _, _] => simp [tidyDemo] at he
  | [_, _, _, _] =>
    simp only [tidyDemo, List.cons_append, List.nil_append, List.cons.injEq, Prod.mk.injEq, XOp.assignFail.injEq] at he
    obtain ⟨rfl, rfl, rfl, rfl, ⟨_, rfl, _⟩, _⟩ := he
    decide
  | _ :: _ :: _ :: _ :: _ :: _ => simp [tidyDemo] at he

example := C76_failures_leave_values_right_partial (cfg := asyncC) (nat_ok rfl (by intro d i h; cases h)) failDemo (by decide +kernel) failDemo_lost (at_ 7) (.getIfExists 2) (by decide +kernel) 2 8
  (by decide +kernel) (by decide +kernel) (by decide +kernel)
example := C76_failures_lose_no_value_partial (cfg := asyncC) (nat_ok rfl (by intro d i h; cases h)) tidyDemo (by decide +kernel) tidyDemo_lost (at_ 5) (by exact mono_at [0, 1, 2, 3, 4, 5] (by decide)) rfl 1
example := C77_failed_call_changes_no_value_partial (cfg := asyncC) (nat_ok rfl (by intro d i h; cases h)) (failDemo.take 4) (at_ 4) (.assignFail 2 false 7) (by decide +kernel)
  (none_lost (by decide)) 1 trivial (by decide +kernel)
example := C77_failed_call_changes_no_value_partial (cfg := asyncC) (nat_ok rfl (by intro d i h; cases h)) (failDemo.take 1) (at_ 1) (.asyncFail 2 20 .drop .functor) (by decide +kernel)
  (none_lost (by decide)) 1 (fun _ _ h => by cases h) (by decide +kernel)
example := C78_failed_delivery_drops_waiters_partial (cfg := asyncC) (nat_ok rfl (by intro d i h; cases h)) (failDemo.take 4) (by decide +kernel) (none_lost (by decide)) (at_ 4) 2 false 7 (by simp [failDemo])
  (by rintro ⟨h1, env, v, h2, he, _⟩
      have : (env, XOp.assignFail 2 false v) ∈ failDemo.take 4 := by rw [he]; simp
      simp [failDemo] at this) (by decide +kernel)
example := C78_kept_lookup_can_be_delivered_partial (cfg := asyncC) (nat_ok rfl (by intro d i h; cases h)) (tidyDemo.take 4) (at_ 4) (at_ 6) 3 7 (by decide +kernel) tidyDemo_lost (by simp [tidyDemo])
  (by rintro ⟨h1, env, v, h2, he, _⟩
      have : (env, XOp.assignFail 3 false v) ∈ tidyDemo.take 4 := by rw [he]; simp
      simp [tidyDemo] at this) (by decide +kernel) (.ok 9)
example := C78_settled_once_partial (cfg := asyncC) (nat_ok rfl (by intro d i h; cases h)) failDemo (by decide +kernel) failDemo_lost (by decide +kernel)
example := C78_nobody_is_forgotten_partial (cfg := asyncC) (nat_ok rfl (by intro d i h; cases h)) failDemo (by decide +kernel) failDemo_lost (by decide +kernel) (at_ 8) (.ok 0) 22 (by decide +kernel)
example := C79_failures_leave_nothing_partial (cfg := asyncC) (nat_ok rfl (by intro d i h; cases h)) tidyDemo (by decide +kernel) tidyDemo_lost
  (.inr (by intro p hp t v hh; simp [tidyDemo] at hp; rcases hp with rfl | rfl | rfl | rfl | rfl <;> cases hh)) (by simp [tidyDemo]) (at_ 5)
  (by exact mono_at [0, 1, 2, 3, 4, 5] (by decide)) (fun _ _ _ N hN => by cases hN) [1, 3, 4] (by decide)
  (by
    have g := (xgood (nx := false) (cfg := asyncC) (nat_ok rfl (by intro d i h; cases h)) False False (fun h => h.elim) tidyDemo (at_ 5) (by decide +kernel) tidyDemo_lost
      (fun h => h.elim) (fun h => h.elim)).good
    have hk : ∀ e ∈ (xstateAfter asyncC false tidyDemo).s.ents, e.expired (at_ 5) = false ∨ e.id ∈ (xstateAfter asyncC false tidyDemo).s.opens →
        ∃ k ∈ [1, 3, 4], asyncC.eqv e.key k = true := by decide +kernel
    rintro a (ha | ha)
    · have := (holds_iff (nat_ok rfl (by intro d i h; cases h)) g (at_ 5) a).2 (by
        revert ha
        show ((getIfExists asyncC (at_ 5) (xstateAfter asyncC false tidyDemo).s a).ret).isVal = true → _
        cases (getIfExists asyncC (at_ 5) (xstateAfter asyncC false tidyDemo).s a).ret <;> simp [Ret.isVal])
      simp only [holds, List.any_eq_true, Bool.and_eq_true, Bool.not_eq_true'] at this
      obtain ⟨e, he, hx, ha⟩ := this
      obtain ⟨k, hk1, hk2⟩ := hk e he (.inl hx.1)
      exact ⟨k, hk1, by simp [asyncC, plain] at ha hk2 ⊢; omega⟩
    · obtain ⟨t, ht⟩ := Option.isSome_iff_exists.1 ha
      obtain ⟨ho, T, hT, hid, _, ha, _⟩ := (g.p a).c3 (by decide +kernel) t ht
      obtain ⟨k, hk1, hk2⟩ := hk T hT (.inr (hid ▸ ho))
      exact ⟨k, hk1, by simp [asyncC, plain] at ha hk2 ⊢; omega⟩)

end Hoard.Props
