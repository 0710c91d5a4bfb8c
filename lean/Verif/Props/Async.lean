import Verif.AsyncAcc
import Verif.Settle
import Verif.Props.Resolver
/-! # Asynchronous lookups -/
namespace Hoard.Props
open Hoard Spec Demo
variable {K V E : Type} {cfg : Cfg K}

/-! ## C20 -/

/-- C20.  A lookup `tok` of `k` was started, and since then nothing was written to `k` or removed, the
lookup was neither completed nor dropped, and nothing was evicted.  Then a further `get` of an equal key does not call the
resolver: it is answered from the store (possible while a value is being refreshed), or its callback is registered for that same lookup. -/
theorem C20_share_one_resolver_call (hc : cfg.Ok) (h1 h2 : Hist K V E) (e1 : Env V) (o1 : Op K V E) (k a : K) (hka : cfg.eqv a k = true) (tok : Nat)
    (hs : StartsAt cfg k tok h1 e1 o1) (hok : HistOk cfg St.init (h1 ++ (e1, o1) :: h2)) (env : Env V)
    (hm : Mono ((h1 ++ (e1, o1) :: h2).map (·.1) ++ [env])) (hx : NoEvictH cfg St.init (h1 ++ (e1, o1) :: h2))
    (hk : Kept cfg k (h1 ++ [(e1, o1)]) h2) (hn : ∀ p ∈ h2, (∀ r, p.2 ≠ .complete tok r) ∧ p.2 ≠ .drop tok)
    (w : Nat) (b : Beh V E) (ho : (Op.asyncGet a w b : Op K V E).ok cfg (stateAfter cfg (h1 ++ (e1, o1) :: h2))) :
    (outAt cfg (h1 ++ (e1, o1) :: h2) env (.asyncGet a w b)).calls = [] ∧
    ((∃ v, StoredAnswer cfg a v (h1 ++ (e1, o1) :: h2) env (.asyncGet a w b)) ∨
      Registers cfg w tok (h1 ++ (e1, o1) :: h2) env (.asyncGet a w b)) := by
  have hm1 : Mono ((h1 ++ (e1, o1) :: h2).map (·.1)) := by
    unfold Mono at *; exact hm.sublist (List.sublist_append_left ..)
  have hv := in_flight hc hs h2 hok hm1 hx hk hn
  have g := good_exact hc _ hok env hm hx
  have hva : (ledgerAfter cfg (h1 ++ (e1, o1) :: h2)).valid a = some tok := (g.g.rsp a k hka).2.2.2.2.1.trans hv
  obtain ⟨hret, hbr, ⟨u, q1, q2, _⟩ | ⟨⟨q1, q2, _⟩, _⟩ | ⟨_, q, _⟩⟩ := (asyncGet_ok hc g ho.2 ho.1 a w b).2
  · have q1' : (outAt cfg (h1 ++ (e1, o1) :: h2) env (.asyncGet a w b)).fired = [(w, .ok u)] := q1
    have q2' : (outAt cfg (h1 ++ (e1, o1) :: h2) env (.asyncGet a w b)).calls = [] := q2
    refine ⟨q2', .inl ⟨u, ?_, q2', ?_⟩⟩
    · generalize outAt cfg (h1 ++ (e1, o1) :: h2) env (.asyncGet a w b) = out at q1'
      obtain ⟨r, f, br, c, m⟩ := out
      simp only at q1'; subst q1'; rfl
    · simp only [outAt, step, asyncGet]; split
      · rename_i i l _; cases l <;> rfl
      · simp only [answer]; split <;> rfl
  · exact ⟨q2, .inr ⟨a, b, rfl, q1, .inr ⟨q2, hva⟩⟩⟩
  · exact absurd trivial (q tok hva)

/-- A lookup in flight, another key written meanwhile, then a second get. -/
example := C20_share_one_resolver_call (cfg := asyncC) (nat_ok rfl (by intro d i h; cases h)) ([] : Hist Nat Nat Nat) [(at_ 1, .emplace 2 5 .none)] (at_ 0) (.asyncGet 1 10 .later) 1 1 rfl 0
  (by decide) (by decide) (at_ 2) (mono_at [0, 1, 2] (by decide)) (by decide) (by decide) (by simp) 11 .later (by decide)

/-- Two more gets while the first lookup is in flight: one resolver call, three waiters. -/
example : HistOk asyncC St.init ([(at_ 0, .asyncGet 1 10 .later), (at_ 1, .emplace 2 5 .none), (at_ 2, .asyncGet 1 11 .later)] : Hist Nat Nat Nat) ∧
    (outAt asyncC ([(at_ 0, .asyncGet 1 10 .later), (at_ 1, .emplace 2 5 .none)] : Hist Nat Nat Nat) (at_ 2) (.asyncGet 1 11 .later)) = {} ∧
    (outAt asyncC ([(at_ 0, .asyncGet 1 10 .later), (at_ 1, .emplace 2 5 .none), (at_ 2, .asyncGet 1 11 .later)] : Hist Nat Nat Nat) (at_ 3)
      (.complete 0 (.ok 7))) = { ret := .bool true, fired := [(10, .ok 7), (11, .ok 7)] } := by decide

/-- Without the assumption that nothing was evicted the sharing is lost: a size limit can evict a lookup in flight, and the next
`get` of the same key calls the resolver a second time while the first call has not returned. -/
theorem C20_eviction_ends_sharing :
    let cfg : Cfg Nat := { asyncC with maxSize := some 2 }
    let h : Hist Nat Nat Nat := [(at_ 0, .emplace 9 0 .none), (at_ 0, .asyncGet 1 10 .later), (at_ 0, .emplace 2 5 .none)]
    HistOk cfg St.init h ∧ (outAt cfg h (at_ 0) (.asyncGet 1 11 .later)).calls = [(1, 3)] ∧
    (outAt cfg h (at_ 0) (.complete 1 (.ok 7))).ret = .bool true := by decide

/-! ## C21 -/

/-- C21.  When a lookup completes, the callbacks invoked are exactly those registered for this lookup, in the
order in which the gets were made, each with the result delivered; no callback is dropped. -/
theorem C21_completion_answers_all_waiters (hc : cfg.Ok) (h : Hist K V E) (hok : HistOk cfg St.init h) (env : Env V) (tok : Nat) (r : Res V E)
    (hd : (outAt cfg h env (.complete tok r)).ret = .bool true) :
    ∃ ws : List Nat, (outAt cfg h env (.complete tok r)).fired = ws.map (fun w => (w, r)) ∧ (outAt cfg h env (.complete tok r)).broken = [] ∧
      ws.Sublist (asked h) ∧ ∀ w, w ∈ ws ↔ ∃ h1 e1 o1 h2, h = h1 ++ (e1, o1) :: h2 ∧ Registers cfg w tok h1 e1 o1 := by
  have hd' : (complete cfg env (stateAfter cfg h) tok r).2.ret = .bool true := hd
  by_cases hx : tok ∈ (stateAfter cfg h).opens
  · rcases Bool.eq_false_or_eq_true (stateAfter cfg h).destroyed with hde | hde
    · simp [complete, hx, hde] at hd'
    · have q := (complete_ok hc (good_any hc h hok env) hde hx r).2
      refine ⟨(ledgerAfter cfg h).wait tok, ?_, ?_, wait_order h tok, fun w => wait_iff h tok w⟩
      · rw [show outAt cfg h env (.complete tok r) = _ from q]
      · rw [show outAt cfg h env (.complete tok r) = _ from q]
  · simp [complete, hx] at hd'

example := C21_completion_answers_all_waiters (cfg := asyncC) (nat_ok rfl (by intro d i h; cases h))
  ([(at_ 0, .asyncGet 1 10 .later), (at_ 1, .emplace 2 5 .none), (at_ 2, .asyncGet 1 11 .later)] : Hist Nat Nat Nat) (by decide) (at_ 3) 0 (.ok 7) (by decide)

/-- C21: no waiter is answered twice (the callbacks passed to different gets being different), and none is both answered and dropped
(until the cache is destroyed). -/
theorem C21_answered_at_most_once (hc : cfg.Ok) (h : Hist K V E) (hok : HistOk cfg St.init h) (hN : (asked h).Nodup) :
    (answeredW (outsOf cfg h)).Nodup ∧ (∀ w ∈ answeredW (outsOf cfg h), w ∈ asked h) ∧
    ((stateAfter cfg h).destroyed = false → ∀ w ∈ brokenW (outsOf cfg h), w ∉ answeredW (outsOf cfg h)) :=
  ⟨(acc hc h hok hN).fN, (acc hc h hok hN).fw, (acc hc h hok hN).bf⟩

/-- C21: no waiter is answered by another lookup.  A callback is invoked either by its own `get`, or by the completion of
the lookup for which it was registered, with exactly the result delivered. -/
theorem C21_answered_by_own_lookup (hc : cfg.Ok) (h : Hist K V E) (hok : HistOk cfg St.init h) (env : Env V) (o : Op K V E)
    (ho : o.ok cfg (stateAfter cfg h)) (w : Nat) (r : Res V E) (hf : (w, r) ∈ (outAt cfg h env o).fired) :
    (∃ k b, o = .asyncGet k w b) ∨
    (∃ tok, o = .complete tok r ∧ ∃ h1 e1 o1 h2, h = h1 ++ (e1, o1) :: h2 ∧ Registers cfg w tok h1 e1 o1) := by
  have W := wstep hc (good_any hc h hok env) o ho
  have hf : (w, r) ∈ (step cfg env (stateAfter cfg h) o).2.fired := hf
  cases W with
  | quiet _ _ q _ _ _ => rw [q] at hf; cases hf
  | now k w' b r' h1 q _ _ _ =>
    rw [q] at hf; simp at hf
    obtain ⟨rfl, rfl⟩ := hf
    exact .inl ⟨k, b, h1⟩
  | join _ _ _ _ _ q _ _ _ _ _ => rw [q] at hf; cases hf
  | start _ _ _ _ q _ _ _ _ _ => rw [q] at hf; cases hf
  | done t r' h1 _ _ q _ _ _ _ =>
    rw [q] at hf
    simp only [List.mem_map, Prod.mk.injEq] at hf
    obtain ⟨u, hu, rfl, rfl⟩ := hf
    exact .inr ⟨t, h1, (wait_iff h t u).1 hu⟩
  | dropped _ _ _ _ q _ _ _ _ => rw [q] at hf; cases hf
  | gone _ _ q _ _ _ => rw [q] at hf; cases hf

/-- C21: nobody is forgotten.  Every callback passed to a `get` was invoked, or was dropped, or waits for a lookup that can still be completed and
whose completion will invoke it, or was registered for a lookup whose handle the resolver threw away while being called (see C24). -/
theorem C21_nobody_is_forgotten (hc : cfg.Ok) (h : Hist K V E) (hok : HistOk cfg St.init h) (hN : (asked h).Nodup) (env : Env V) (r : Res V E)
    (w : Nat) (hw : w ∈ asked h) :
    w ∈ answeredW (outsOf cfg h) ∨ w ∈ brokenW (outsOf cfg h) ∨ Lost cfg h w ∨
    ∃ tok, (outAt cfg h env (.complete tok r)).ret = .bool true ∧ (w, r) ∈ (outAt cfg h env (.complete tok r)).fired := by
  rcases (acc hc h hok hN).all w hw with q | q | q | ⟨q, t, ht, htw⟩
  · exact .inl q
  · exact .inr (.inl q)
  · exact .inr (.inr (.inl q))
  · have := (complete_ok hc (good_any hc h hok env) q ht r).2
    refine .inr (.inr (.inr ⟨t, ?_, ?_⟩))
    · rw [show outAt cfg h env (.complete t r) = _ from this]
    · rw [show outAt cfg h env (.complete t r) = _ from this]
      simpa using htw

/-- Two lookups in flight with interleaved waiters; one is answered, one dropped, one waits. -/
def waitDemo : Hist Nat Nat Nat :=
  [(at_ 0, .asyncGet 1 10 .later), (at_ 1, .asyncGet 2 11 .later), (at_ 2, .asyncGet 1 12 .later), (at_ 3, .asyncGet 2 13 .later),
   (at_ 4, .complete 0 (.ok 7)), (at_ 5, .drop 1), (at_ 6, .asyncGet 2 14 .later), (at_ 7, .asyncGet 1 15 .later)]

example : HistOk asyncC St.init waitDemo ∧ (asked waitDemo).Nodup ∧ answeredW (outsOf asyncC waitDemo) = [10, 12, 15] ∧
    brokenW (outsOf asyncC waitDemo) = [11, 13] ∧
    (outAt asyncC waitDemo (at_ 8) (.complete 2 (.ok 3))) = { ret := .bool true, fired := [(14, .ok 3)] } := by decide

/-! ## C22 -/

/-- C22, first half: whatever is done to the key while the lookup is in flight, its waiters get the lookup's result when it completes
(unless the cache is destroyed first). -/
theorem C22_waiters_still_answered (hc : cfg.Ok) (h1 h2 : Hist K V E) (e1 : Env V) (o1 : Op K V E) (k : K) (tok : Nat) (hs : StartsAt cfg k tok h1 e1 o1)
    (hok : HistOk cfg St.init (h1 ++ (e1, o1) :: h2)) (hd : (stateAfter cfg (h1 ++ (e1, o1) :: h2)).destroyed = false)
    (hn : ∀ p ∈ h2, (∀ r, p.2 ≠ .complete tok r) ∧ p.2 ≠ .drop tok) (env : Env V) (r : Res V E) :
    (outAt cfg (h1 ++ (e1, o1) :: h2) env (.complete tok r)).ret = .bool true ∧
    ∀ w h3 e3 o3 h4, h1 ++ (e1, o1) :: h2 = h3 ++ (e3, o3) :: h4 → Registers cfg w tok h3 e3 o3 →
      (w, r) ∈ (outAt cfg (h1 ++ (e1, o1) :: h2) env (.complete tok r)).fired := by
  have hopen := started_open hc hs hok hd hn
  have q := (complete_ok hc (good_any hc _ hok env) hd hopen r).2
  rw [show outAt cfg (h1 ++ (e1, o1) :: h2) env (.complete tok r) = _ from q]
  refine ⟨rfl, fun w h3 e3 o3 h4 hh hr => ?_⟩
  have := (wait_iff _ tok w).2 ⟨h3, e3, o3, h4, hh, hr⟩
  simpa using this

/-- Two wait for a lookup; the key is overwritten. -/
example := C22_waiters_still_answered (cfg := asyncC) (nat_ok rfl (by intro d i h; cases h)) ([] : Hist Nat Nat Nat) [(at_ 1, .asyncGet 1 11 .later), (at_ 2, .emplace 1 5 .none)]
  (at_ 0) (.asyncGet 1 10 .later) 1 0 (by decide) (by decide) (by decide) (by simp) (at_ 3) (.ok 7)

/-- C22, second half: if the key was written or removed after the lookup was started, the completion of the lookup
neither writes nor removes it. -/
theorem C22_late_result_not_stored (h1 h2 h3 : Hist K V E) (e1 e2 : Env V) (o1 o2 : Op K V E) (k : K) (tok : Nat) (hs : StartsAt cfg k tok h1 e1 o1)
    (hch : ChangesAt cfg k (h1 ++ (e1, o1) :: h2) e2 o2) (env : Env V) (r : Res V E) (v : V) :
    ¬ ChangesAt cfg k (h1 ++ (e1, o1) :: h2 ++ (e2, o2) :: h3) env (.complete tok r) ∧
    ¬ WritesAt cfg k v (h1 ++ (e1, o1) :: h2 ++ (e2, o2) :: h3) env (.complete tok r) := by
  have key : (ledgerAfter cfg (h1 ++ (e1, o1) :: h2 ++ (e2, o2) :: h3)).valid k ≠ some tok := by
    intro hv
    by_cases hs2 : StartsAt cfg k tok (h1 ++ (e1, o1) :: h2) e2 o2
    · exact starts_once hs hs2
    · obtain ⟨h4, e4, o4, h5, rfl, hs3⟩ := start_after hch hs2 hv
      refine starts_once (h2 := h2 ++ (e2, o2) :: h4) (e2 := e4) (o2 := o4) (b := k) hs ?_
      simpa using hs3
  exact ⟨fun h => key h.1, fun h => key h.1⟩

example := C22_late_result_not_stored (cfg := asyncC) ([] : Hist Nat Nat Nat) [(at_ 1, .asyncGet 1 11 .later)] [(at_ 3, .getIfExists 1)]
  (at_ 0) (at_ 2) (.asyncGet 1 10 .later) (.emplace 1 5 .none) 1 0 (by decide) (by decide) (at_ 4) (.ok 7) 7

/-- C22, what later gets of the key see: a value returned from the store after the change was written by the
change or after it, and not by the completion of the old lookup. -/
theorem C22_later_gets (hc : cfg.Ok) (h1 h2 h3 : Hist K V E) (e1 e2 : Env V) (o1 o2 : Op K V E) (k : K) (tok : Nat) (hs : StartsAt cfg k tok h1 e1 o1)
    (hch : ChangesAt cfg k (h1 ++ (e1, o1) :: h2) e2 o2) (hok : HistOk cfg St.init (h1 ++ (e1, o1) :: h2 ++ (e2, o2) :: h3))
    (env : Env V) (o : Op K V E) (ho : o.ok cfg (stateAfter cfg (h1 ++ (e1, o1) :: h2 ++ (e2, o2) :: h3))) (v : V)
    (ha : StoredAnswer cfg k v (h1 ++ (e1, o1) :: h2 ++ (e2, o2) :: h3) env o) :
    WritesAt cfg k v (h1 ++ (e1, o1) :: h2) e2 o2 ∨
    ∃ h4 e4 o4 h5, h3 = h4 ++ (e4, o4) :: h5 ∧ WritesAt cfg k v (h1 ++ (e1, o1) :: h2 ++ (e2, o2) :: h4) e4 o4 ∧ ∀ r, o4 ≠ .complete tok r := by
  have hv := stored_valid hc (good_any hc _ hok env) (fun h => h) ho ha.1 ha.2.1 ha.2.2
  by_cases hw : WritesAt cfg k v (h1 ++ (e1, o1) :: h2) e2 o2
  · exact .inl hw
  · right
    obtain ⟨h4, e4, o4, h5, rfl, hw4⟩ := write_after hch hw hv.1
    refine ⟨h4, e4, o4, h5, rfl, hw4, ?_⟩
    rintro r rfl
    exact (C22_late_result_not_stored h1 h2 h4 e1 e2 o1 o2 k tok hs hch e4 r v).2 hw4

example := C22_later_gets (cfg := asyncC) (nat_ok rfl (by intro d i h; cases h)) ([] : Hist Nat Nat Nat) [(at_ 1, .asyncGet 1 11 .later)] [(at_ 3, .complete 0 (.ok 7))]
  (at_ 0) (at_ 2) (.asyncGet 1 10 .later) (.emplace 1 5 .none) 1 0 (by decide) (by decide) (by decide) (at_ 4) (.asyncGet 1 12 .later) (by decide) 5 (by decide)

/-- Emplace while the lookup is in flight: the waiter gets 7, the cache keeps 5. -/
example : StartsAt asyncC 1 0 ([] : Hist Nat Nat Nat) (at_ 0) (.asyncGet 1 10 .later) ∧
    ChangesAt asyncC 1 ([] ++ (at_ 0, .asyncGet 1 10 .later) :: [] : Hist Nat Nat Nat) (at_ 1) (.emplace 1 5 .none) ∧
    (outAt asyncC ([(at_ 0, .asyncGet 1 10 .later), (at_ 1, .emplace 1 5 .none)] : Hist Nat Nat Nat) (at_ 2) (.complete 0 (.ok 7))).fired = [(10, .ok 7)] ∧
    (outAt asyncC ([(at_ 0, .asyncGet 1 10 .later), (at_ 1, .emplace 1 5 .none), (at_ 2, .complete 0 (.ok 7))] : Hist Nat Nat Nat) (at_ 3)
      (.asyncGet 1 11 .later)).fired = [(11, .ok 5)] :=
  ⟨⟨rfl, (1, 0), rfl, rfl⟩, rfl, by decide, by decide⟩

/-! ## C23 -/

/-- C23.  Once a lookup was completed or dropped, every further completion or cancellation of it returns false, invokes or drops no
callback, and leaves the cache exactly as it was. -/
theorem C23_completes_at_most_once (hc : cfg.Ok) (h1 h2 : Hist K V E) (e1 : Env V) (o1 : Op K V E) (tok : Nat) (hg : Given cfg tok h1)
    (ho : (∃ r, o1 = .complete tok r) ∨ o1 = .drop tok) (hok : HistOk cfg St.init h1) (env : Env V) (r : Res V E) :
    step cfg env (stateAfter cfg (h1 ++ (e1, o1) :: h2)) (.complete tok r) = (stateAfter cfg (h1 ++ (e1, o1) :: h2), { ret := .bool false }) ∧
    step cfg env (stateAfter cfg (h1 ++ (e1, o1) :: h2)) (.drop tok) = (stateAfter cfg (h1 ++ (e1, o1) :: h2), { ret := .bool false }) := by
  have hx := consumed (h2 := h2) hc hok hg (e := e1) ho
  simp [step, complete, drop, hx]

example := C23_completes_at_most_once (cfg := asyncC) (nat_ok rfl (by intro d i h; cases h)) ([(at_ 0, .asyncGet 1 10 .later)] : Hist Nat Nat Nat) [(at_ 2, .erase 1)] (at_ 1) (.drop 0) 0
  ⟨_, List.mem_singleton.2 rfl, 1, by decide⟩ (.inr rfl) (by decide) (at_ 3) (.ok 7)

/-- C23: after the cache is gone, a delivery returns false, and nobody's callback is invoked or dropped by it. -/
theorem C23_refused_after_destruction (hc : cfg.Ok) (h : Hist K V E) (hok : HistOk cfg St.init h) (hd : (stateAfter cfg h).destroyed = true)
    (env : Env V) (tok : Nat) (r : Res V E) :
    outAt cfg h env (.complete tok r) = { ret := .bool false } ∧
    (outAt cfg h env (.drop tok)).fired = [] ∧ (outAt cfg h env (.drop tok)).broken = [] := by
  have w2 := (good_any hc h hok env).wf2
  have hz : ∀ l, ((({ stateAfter cfg h with opens := l } : St K V E).findAny tok).map (·.mapped.cbs)).getD [] = [] := fun l => cbs_gone w2 hd tok
  by_cases hx : tok ∈ (stateAfter cfg h).opens
  · simp only [outAt, step, complete, drop, if_pos hx, hd, if_true]
    refine ⟨?_, trivial, ?_⟩
    · have := congrArg users (hz ((stateAfter cfg h).opens.erase tok))
      simp only [Out.mk.injEq, true_and, and_true]
      simp only [hd] at this
      exact this
    · rw [cbs_gone w2 hd tok]; rfl
  · simp [outAt, step, complete, drop, hx]

example := C23_refused_after_destruction (cfg := asyncC) (nat_ok rfl (by intro d i h; cases h)) ([(at_ 0, .asyncGet 1 10 .later), (at_ 1, .destroy)] : Hist Nat Nat Nat) (by decide) (by decide) (at_ 2) 0 (.ok 7)

example : Given asyncC 0 ([(at_ 0, .asyncGet 1 10 .later)] : Hist Nat Nat Nat) ∧
    HistOk asyncC St.init ([(at_ 0, .asyncGet 1 10 .later), (at_ 1, .destroy), (at_ 2, .complete 0 (.ok 1))] : Hist Nat Nat Nat) :=
  ⟨⟨_, List.mem_singleton.2 rfl, 1, by decide⟩, by decide⟩

/-- C21, in terms of the callbacks alone: at any time, no callback is invoked and dropped together more often than it was handed in.
In particular, with different callbacks: none is invoked twice, none is dropped twice, none is both invoked and dropped, and none appears
that was not handed in, also when the cache is destroyed meanwhile. -/
theorem C21_each_settled_at_most_once (hc : cfg.Ok) (h : Hist K V E) (hok : HistOk cfg St.init h) (hN : (asked h).Nodup) :
    (answeredW (outsOf cfg h) ++ brokenW (outsOf cfg h)).Nodup ∧ ∀ w ∈ answeredW (outsOf cfg h) ++ brokenW (outsOf cfg h), w ∈ asked h := by
  have hle : ∀ w, (answeredW (outsOf cfg h) ++ brokenW (outsOf cfg h)).count w ≤ (asked h).count w := by
    intro w
    have := Wt_hist hc h hok w
    rw [List.count_append]; omega
  refine ⟨List.nodup_iff_count.2 fun w => Nat.le_trans (hle w) (List.nodup_iff_count.1 hN w), fun w hw => ?_⟩
  have := List.count_pos_iff.2 hw
  exact List.count_pos_iff.1 (Nat.lt_of_lt_of_le this (hle w))

/-! ## C24 -/

/-- C24, the part that holds: the handle is dropped after the resolver returned.  Then every callback registered for the
lookup is dropped (its future reports an error), in the order of the gets, and nobody is answered.
Missing: the resolver dropping the handle while it is being called, for which the claim is false (see below). -/
theorem C24_drop_releases_waiters_partial (hc : cfg.Ok) (h1 h2 : Hist K V E) (e1 : Env V) (o1 : Op K V E) (k : K) (tok : Nat) (hs : StartsAt cfg k tok h1 e1 o1)
    (hok : HistOk cfg St.init (h1 ++ (e1, o1) :: h2)) (hd : (stateAfter cfg (h1 ++ (e1, o1) :: h2)).destroyed = false)
    (hn : ∀ p ∈ h2, (∀ r, p.2 ≠ .complete tok r) ∧ p.2 ≠ .drop tok) (env : Env V) :
    let out := outAt cfg (h1 ++ (e1, o1) :: h2) env (.drop tok)
    out.fired = [] ∧ out.broken.Sublist (asked (h1 ++ (e1, o1) :: h2)) ∧
    ∀ w, w ∈ out.broken ↔ ∃ h3 e3 o3 h4, h1 ++ (e1, o1) :: h2 = h3 ++ (e3, o3) :: h4 ∧ Registers cfg w tok h3 e3 o3 := by
  have hopen := started_open hc hs hok hd hn
  obtain ⟨_, _, q2, q3⟩ := drop_ok hc (good_any hc _ hok env) hopen
  have q3 : (outAt cfg (h1 ++ (e1, o1) :: h2) env (.drop tok)).broken = (ledgerAfter cfg (h1 ++ (e1, o1) :: h2)).wait tok := q3 hd
  refine ⟨q2, ?_, ?_⟩
  · rw [q3]; exact wait_order _ _
  · rw [q3]; exact fun w => wait_iff _ _ w

/-- Two wait for a lookup whose handle is dropped. -/
example := C24_drop_releases_waiters_partial (cfg := asyncC) (nat_ok rfl (by intro d i h; cases h)) ([] : Hist Nat Nat Nat) [(at_ 1, .asyncGet 1 11 .later), (at_ 2, .emplace 2 5 .none)]
  (at_ 0) (.asyncGet 1 10 .later) 1 0 (by decide) (by decide) (by decide) (by simp) (at_ 3)

/-- C24, and the next `get` starts a new lookup: after the handle was dropped, a `get` of the key calls the resolver, or is
answered with a stored value, or waits for a lookup that was started after the drop. -/
theorem C24_next_get_starts_new_lookup (hc : cfg.Ok) (h1 h2 : Hist K V E) (e1 : Env V) (k : K) (tok : Nat)
    (hv : (ledgerAfter cfg h1).valid k = some tok) (hdel : (outAt cfg h1 e1 (.drop tok)).ret = .bool true)
    (hok : HistOk cfg St.init (h1 ++ (e1, .drop tok) :: h2)) (env : Env V) (w : Nat) (b : Beh V E)
    (ho : (Op.asyncGet k w b : Op K V E).ok cfg (stateAfter cfg (h1 ++ (e1, .drop tok) :: h2))) :
    let out := outAt cfg (h1 ++ (e1, .drop tok) :: h2) env (.asyncGet k w b)
    (∃ t, out.calls = [(k, t)]) ∨ (∃ v, out.fired = [(w, .ok v)]) ∨
    (∃ t h3 e3 o3 h4, Registers cfg w t (h1 ++ (e1, .drop tok) :: h2) env (.asyncGet k w b) ∧
      h2 = h3 ++ (e3, o3) :: h4 ∧ StartsAt cfg k t (h1 ++ (e1, .drop tok) :: h3) e3 o3) := by
  have h0 : (ledgerAfter cfg (h1 ++ [(e1, .drop tok)])).valid k = none := by
    rw [ledgerAfter_snoc]; simp [Ledger.after, hdel, Ledger.abandon, hv]
  simp only
  obtain ⟨_, _, ⟨u, q, _⟩ | ⟨⟨q1, q2, t, q3⟩, _⟩ | ⟨q1, _⟩⟩ := (asyncGet_ok hc (good_any hc _ hok env) ho.2 ho.1 k w b).2
  · exact .inr (.inl ⟨u, q⟩)
  · right; right
    have q3' := q3
    rw [show h1 ++ (e1, Op.drop tok) :: h2 = (h1 ++ [(e1, .drop tok)]) ++ h2 by simp] at q3'
    obtain ⟨h3, e3, o3, h4, p1, p2⟩ := start_since h0 h2 q3'
    exact ⟨t, h3, e3, o3, h4, ⟨k, b, rfl, q1, .inr ⟨q2, q3⟩⟩, p1, by simpa using p2⟩
  · exact .inl ⟨_, q1⟩

example := C24_next_get_starts_new_lookup (cfg := asyncC) (nat_ok rfl (by intro d i h; cases h)) ([(at_ 0, .asyncGet 1 10 .later)] : Hist Nat Nat Nat) [(at_ 2, .emplace 2 5 .none)] (at_ 1) 1 0
  (by decide) (by decide) (by decide) (at_ 3) 11 .later (by decide)

/-- C24 is false when the resolver drops the handle while it is being called: the callback of that `get` is neither
invoked nor dropped, whatever happens afterwards, as long as the cache lives. -/
theorem C24_dropped_inside_resolver_waits_forever (hc : cfg.Ok) (h1 h2 : Hist K V E) (e1 : Env V) (k : K) (w : Nat)
    (hok : HistOk cfg St.init (h1 ++ (e1, .asyncGet k w .drop) :: h2)) (hN : (asked (h1 ++ (e1, .asyncGet k w .drop) :: h2)).Nodup)
    (hcall : (outAt cfg h1 e1 (.asyncGet k w .drop)).calls ≠ []) (hd : (stateAfter cfg (h1 ++ (e1, .asyncGet k w .drop) :: h2)).destroyed = false) :
    w ∉ answeredW (outsOf cfg (h1 ++ (e1, .asyncGet k w .drop) :: h2)) ∧ w ∉ brokenW (outsOf cfg (h1 ++ (e1, .asyncGet k w .drop) :: h2)) :=
  let q := lost_forever hc h2 hok hN hcall hd
  ⟨q.1, q.2.1⟩

/-- Such a history: the resolver drops the handle of the first `get`, later gets of the key are answered. -/
example : HistOk asyncC St.init ([(at_ 0, .asyncGet 1 10 .drop), (at_ 1, .asyncGet 1 11 .later), (at_ 2, .complete 1 (.ok 4))] : Hist Nat Nat Nat) ∧
    (outAt asyncC ([] : Hist Nat Nat Nat) (at_ 0) (.asyncGet 1 10 .drop)).calls ≠ [] ∧
    answeredW (outsOf asyncC ([(at_ 0, .asyncGet 1 10 .drop), (at_ 1, .asyncGet 1 11 .later), (at_ 2, .complete 1 (.ok 4))] : Hist Nat Nat Nat)) = [11] := by decide

/-! ## C42 -/

/-- C42.  After the cache was destroyed, no callback is invoked and none is dropped by anything that still can happen, and late deliveries return false. -/
theorem C42_silence_after_destruction (hc : cfg.Ok) (h1 h2 : Hist K V E) (e1 : Env V) (hok : HistOk cfg St.init (h1 ++ (e1, .destroy) :: h2))
    (h3 h4 : Hist K V E) (e3 : Env V) (o3 : Op K V E) (hh : h2 = h3 ++ (e3, o3) :: h4) :
    ((∃ t r, o3 = .complete t r) ∨ ∃ t, o3 = .drop t) ∧
    (outAt cfg (h1 ++ (e1, .destroy) :: h3) e3 o3).fired = [] ∧ (outAt cfg (h1 ++ (e1, .destroy) :: h3) e3 o3).broken = [] ∧
    (∀ t r, o3 = .complete t r → (outAt cfg (h1 ++ (e1, .destroy) :: h3) e3 o3).ret = .bool false) := by
  subst hh
  rw [show h1 ++ (e1, Op.destroy) :: (h3 ++ (e3, o3) :: h4) = (h1 ++ (e1, .destroy) :: h3) ++ (e3, o3) :: h4 by simp, HistOk_append] at hok
  have hd : (stateAfter cfg (h1 ++ (e1, .destroy) :: h3)).destroyed = true := by
    rcases Bool.eq_false_or_eq_true (stateAfter cfg (h1 ++ (e1, .destroy) :: h3)).destroyed with h | h
    · exact h
    · rw [show h1 ++ (e1, Op.destroy) :: h3 = (h1 ++ [(e1, .destroy)]) ++ h3 by simp, stateAfter_append] at h
      have := run_des h
      rw [stateAfter_snoc] at this
      exact absurd rfl (step_des cfg e1 _ _ this).2
  have hop : o3.ok cfg (stateAfter cfg (h1 ++ (e1, .destroy) :: h3)) := hok.2.1
  have R := fun t r => C23_refused_after_destruction hc _ hok.1 hd e3 t r
  have no : ∀ {P : Prop}, (stateAfter cfg (h1 ++ (e1, .destroy) :: h3)).destroyed = false → P := by intro P h; rw [hd] at h; cases h
  cases o3 with
  | complete t r =>
    refine ⟨.inl ⟨t, r, rfl⟩, ?_, ?_, ?_⟩
    · rw [(R t r).1]
    · rw [(R t r).1]
    · rintro t' r' ⟨⟩; rw [(R t r).1]
  | drop t =>
    by_cases hV : Nonempty (Res V E)
    · obtain ⟨r⟩ := hV
      exact ⟨.inr ⟨t, rfl⟩, (R t r).2.1, (R t r).2.2, by simp⟩
    · refine ⟨.inr ⟨t, rfl⟩, ?_, ?_, by simp⟩
      · simp only [outAt, step, drop]; split <;> rfl
      · simp only [outAt, step, drop]; split
        · rw [cbs_gone (good_any hc _ hok.1 e3).wf2 hd t]; rfl
        · rfl
  | get k r => exact no hop.2
  | asyncGet k w b => exact no hop.2
  | tick r b => exact no hop.2.2
  | _ => exact no hop

example := C42_silence_after_destruction (cfg := asyncC) (nat_ok rfl (by intro d i h; cases h)) ([(at_ 0, .asyncGet 1 10 .later), (at_ 0, .asyncGet 2 11 .later)] : Hist Nat Nat Nat)
  [(at_ 2, .complete 0 (.ok 1)), (at_ 2, .drop 1)] (at_ 1) (by decide) [(at_ 2, .complete 0 (.ok 1))] [] (at_ 2) (.drop 1) rfl

/-- C47.  Once the cache is destroyed, the callbacks invoked so far and the callbacks dropped so far are together
exactly the callbacks that were ever handed in, each as often as it was handed in.  No future waits forever (also not the ones of C24 whose
handle the resolver threw away while being called), and none is settled twice. -/
theorem C47_everybody_settled (hc : cfg.Ok) (h1 h2 : Hist K V E) (e1 : Env V) (hok : HistOk cfg St.init (h1 ++ (e1, .destroy) :: h2)) :
    (answeredW (outsOf cfg (h1 ++ (e1, .destroy) :: h2)) ++ brokenW (outsOf cfg (h1 ++ (e1, .destroy) :: h2))).Perm (asked (h1 ++ (e1, .destroy) :: h2)) := by
  have hd : (stateAfter cfg (h1 ++ (e1, .destroy) :: h2)).destroyed = true := by
    have hs : (stateAfter cfg (h1 ++ [(e1, .destroy)])).destroyed = true := by rw [stateAfter_snoc]; rfl
    have : ∀ (l h : Hist K V E), (stateAfter cfg h).destroyed = true → (stateAfter cfg (h ++ l)).destroyed = true := by
      intro l
      induction l with
      | nil => intro h q; simpa using q
      | cons p l ih =>
        intro h q
        have := ih (h ++ [p]) (by
          obtain ⟨e, o⟩ := p
          rw [stateAfter_snoc]
          by_cases r : o = .destroy
          · subst r; rfl
          · rw [step_destroyed cfg e _ o r]; exact q)
        simpa using this
    have := this h2 _ hs
    simpa using this
  rw [List.perm_iff_count]
  intro w
  have := Wt_hist hc _ hok w
  rw [Wt_gone (good_any hc _ hok e1).wf2 hd w] at this
  rw [List.count_append]; omega

/-- Three callbacks: one invoked, one lost by the resolver, one waiting when the cache is destroyed; a late delivery follows. -/
example :
    let h : Hist Nat Nat Nat := [(at_ 0, .asyncGet 1 10 .drop), (at_ 1, .asyncGet 1 11 .later), (at_ 2, .complete 1 (.ok 4)),
      (at_ 3, .asyncGet 2 12 .later), (at_ 4, .destroy), (at_ 5, .complete 2 (.ok 5))]
    HistOk asyncC St.init h ∧ answeredW (outsOf asyncC h) = [11] ∧ brokenW (outsOf asyncC h) = [10, 12] := by
  refine ⟨?_, by decide, by decide⟩
  simp [HistOk, Op.ok]; decide

/-- C42: destruction unlinks every entry from the hash table, the recency queue and the refresh queue, invokes nobody,
and drops every callback that waits for a lookup which could still have been completed. -/
theorem C42_everything_unlinked (hc : cfg.Ok) (h : Hist K V E) (hok : HistOk cfg St.init h) (hd : (stateAfter cfg h).destroyed = false) (env : Env V) :
    (stateAfter cfg (h ++ [(env, .destroy)])).ents = [] ∧ (stateAfter cfg (h ++ [(env, .destroy)])).delayQ = [] ∧
    (cfg.maxSize.isSome = true → (stateAfter cfg (h ++ [(env, .destroy)])).bq.q = []) ∧
    (outAt cfg h env .destroy).fired = [] ∧
    ∀ tok r w, (w, r) ∈ (outAt cfg h env (.complete tok r)).fired → w ∈ (outAt cfg h env .destroy).broken := by
  have hok' : HistOk cfg St.init (h ++ [(env, .destroy)]) := HistOk_append.2 ⟨hok, hd, trivial⟩
  have g := good_any hc _ hok' env
  have he : (stateAfter cfg (h ++ [(env, .destroy)])).ents = [] := by rw [stateAfter_snoc]; exact destroy_ents cfg _
  refine ⟨he, ?_, ?_, rfl, ?_⟩
  · cases hq : (stateAfter cfg (h ++ [(env, .destroy)])).delayQ with
    | nil => rfl
    | cons i q =>
      have := g.wf1.dqM i (by rw [hq]; simp)
      rw [he] at this; cases this
  · intro hs
    have := (g.wf1.bq hs).2
    rw [he] at this
    exact this.eq_nil
  · intro tok r w hw
    have W := wstep hc (good_any hc h hok env) (.complete tok r) trivial
    have W' := wstep hc (good_any hc h hok env) (.destroy : Op K V E) hd
    have hw : (w, r) ∈ (step cfg env (stateAfter cfg h) (.complete tok r)).2.fired := hw
    cases W with
    | quiet _ _ q _ _ _ => rw [q] at hw; cases hw
    | done t r' h1 ht _ q _ _ _ _ =>
      rw [q] at hw
      simp only [List.mem_map, Prod.mk.injEq] at hw
      obtain ⟨u, hu, rfl, _⟩ := hw
      cases W' with
      | gone _ _ _ _ _ hb => exact hb t ht u hu
      | quiet _ hde _ _ _ _ => exact absurd rfl hde
      | now _ _ _ _ ho => cases ho
      | join _ _ _ _ ho => cases ho
      | start _ _ _ ho => cases ho
      | done _ _ ho => cases ho
      | dropped _ ho => cases ho
    | now _ _ _ _ ho => cases ho
    | join _ _ _ _ ho => cases ho
    | start _ _ _ ho => cases ho
    | dropped _ ho => cases ho
    | gone ho => cases ho

/-- A cache destroyed with two lookups in flight, one of which is delivered late. -/
example : HistOk asyncC St.init ([(at_ 0, .asyncGet 1 10 .later), (at_ 0, .asyncGet 2 11 .later), (at_ 1, .destroy), (at_ 2, .complete 0 (.ok 1)),
      (at_ 2, .drop 1)] : Hist Nat Nat Nat) ∧
    (outAt asyncC ([(at_ 0, .asyncGet 1 10 .later), (at_ 0, .asyncGet 2 11 .later)] : Hist Nat Nat Nat) (at_ 1) .destroy).broken = [10, 11] := by decide

/-! ### Applied -/

example := C21_answered_at_most_once (cfg := asyncC) (nat_ok rfl (by intro d i h; cases h)) waitDemo (by decide) (by decide)
example := C21_answered_by_own_lookup (cfg := asyncC) (nat_ok rfl (by intro d i h; cases h)) waitDemo (by decide) (at_ 8) (.complete 2 (.ok 3)) (by decide) 14 (.ok 3) (by decide)
example := C21_nobody_is_forgotten (cfg := asyncC) (nat_ok rfl (by intro d i h; cases h)) waitDemo (by decide) (by decide) (at_ 8) (.ok 3) 14 (by decide)
example := C21_each_settled_at_most_once (cfg := asyncC) (nat_ok rfl (by intro d i h; cases h)) (waitDemo ++ [(at_ 8, .destroy)]) (by decide) (by decide)
example := C24_dropped_inside_resolver_waits_forever (cfg := asyncC) (nat_ok rfl (by intro d i h; cases h)) ([(at_ 0, .asyncGet 2 9 .later)] : Hist Nat Nat Nat) [(at_ 1, .asyncGet 1 11 .later), (at_ 2, .complete 2 (.ok 4))] (at_ 0) 1 10
  (by decide) (by decide) (by decide) (by decide)
example := C47_everybody_settled (cfg := asyncC) (nat_ok rfl (by intro d i h; cases h)) waitDemo [(at_ 9, .complete 2 (.ok 5))] (at_ 8) (by decide)
example := C42_everything_unlinked (cfg := { asyncC with maxSize := some 2 }) (nat_ok rfl (by intro d i h; cases h)) waitDemo (by decide) (by decide) (at_ 8)

end Hoard.Props
