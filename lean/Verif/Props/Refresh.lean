import Verif.RefreshLemmas
import Verif.Demo
/-! # Refreshing: C33 – C36 -/
namespace Hoard.Props
open Hoard Spec Demo
variable {K V E : Type} {cfg : Cfg K}

/-! ## C33 -/

/-- C33, first half.  A written value is the answer to every get (of any kind, at once
and without a call of the resolver) until something else is written to the key or the
key is removed.  In particular the history `h2` may contain any number of refreshes of
the key that are started and still in flight or given up: those do not write.
Absent eviction, an age limit reached, and the idle timer. -/
theorem C33_old_value_until_refresh_completes (hc : cfg.Ok) (h1 h2 : Hist K V E) (e1 : Env V) (o1 : Op K V E)
    (hok : HistOk cfg St.init (h1 ++ (e1, o1) :: h2)) (hx : NoEvictH cfg St.init (h1 ++ (e1, o1) :: h2)) (k : K) (v : V)
    (hwr : WritesAt cfg k v h1 e1 o1) (hk : Kept cfg k (h1 ++ [(e1, o1)]) h2) (env : Env V)
    (hm : Mono ((h1 ++ (e1, o1) :: h2).map (·.1) ++ [env]))
    (hal : cfg.maxSize = none ∨ cfg.weaken = false ∨ cfg.ptr = false ∨ env.alive v = true)
    (hage : ∀ A, cfg.maxAge = some A → Younger cfg.wall A e1.now env.now)
    (hidle : reached env.now ((ledgerAfter cfg (h1 ++ (e1, o1) :: h2)).idleLimit cfg.refresh k) = false)
    (o : Op K V E) (ho : o.ok cfg (stateAfter cfg (h1 ++ (e1, o1) :: h2))) (ha : Asks k o) :
    StoredAnswer cfg k v (h1 ++ (e1, o1) :: h2) env o :=
  kept_value hc h1 h2 e1 o1 hok hx k v hwr hk env hm hal hage hidle o ho ha

/-- Starting a refresh that stays in flight does not write or remove the key. -/
theorem C33_starting_a_refresh_keeps_the_value (ha : cfg.resolver = .async) (h : Hist K V E) (env : Env V) (k : K) (r : Res V E) (b : Beh V E) (hb : b = .later ∨ b = .drop) :
    ¬ ChangesAt cfg k h env (.tick r b) := by
  rintro ⟨_, h2⟩
  obtain ⟨r', rfl⟩ := h2 ha
  rcases hb with h | h <;> cases h

/-- C33, second half.  The refresh started by the worker is completed with the value
`v`: from then on every get is answered with `v`, until the key is written again. -/
theorem C33_new_value_after_refresh (hc : cfg.Ok) (h1 h2 h3 : Hist K V E) (e1 e2 : Env V) (r : Res V E) (k : K) (tok : Nat) (v : V)
    (hs : StartsAt cfg k tok h1 e1 (.tick r .later)) (hk : Kept cfg k (h1 ++ [(e1, .tick r .later)]) h2)
    (hn : ∀ p ∈ h2, (∀ r, p.2 ≠ .complete tok r) ∧ p.2 ≠ .drop tok)
    (hd : (stateAfter cfg (h1 ++ (e1, .tick r .later) :: h2)).destroyed = false)
    (hok : HistOk cfg St.init ((h1 ++ (e1, .tick r .later) :: h2) ++ (e2, .complete tok (.ok v)) :: h3))
    (hx : NoEvictH cfg St.init ((h1 ++ (e1, .tick r .later) :: h2) ++ (e2, .complete tok (.ok v)) :: h3))
    (hk3 : Kept cfg k ((h1 ++ (e1, .tick r .later) :: h2) ++ [(e2, .complete tok (.ok v))]) h3) (env : Env V)
    (hm : Mono (((h1 ++ (e1, .tick r .later) :: h2) ++ (e2, .complete tok (.ok v)) :: h3).map (·.1) ++ [env]))
    (hal : cfg.maxSize = none ∨ cfg.weaken = false ∨ cfg.ptr = false ∨ env.alive v = true)
    (hage : ∀ A, cfg.maxAge = some A → Younger cfg.wall A e2.now env.now)
    (hidle : reached env.now ((ledgerAfter cfg ((h1 ++ (e1, .tick r .later) :: h2) ++ (e2, .complete tok (.ok v)) :: h3)).idleLimit cfg.refresh k) = false)
    (o : Op K V E) (ho : o.ok cfg (stateAfter cfg ((h1 ++ (e1, .tick r .later) :: h2) ++ (e2, .complete tok (.ok v)) :: h3))) (ha : Asks k o) :
    StoredAnswer cfg k v ((h1 ++ (e1, .tick r .later) :: h2) ++ (e2, .complete tok (.ok v)) :: h3) env o := by
  have hok1 := (HistOk_append.1 hok).1
  have hm1 : Mono ((h1 ++ (e1, .tick r .later) :: h2).map (·.1)) := by
    unfold Mono at *; rw [List.map_append, List.append_assoc] at hm; exact (List.pairwise_append.1 hm).1
  have hfl := in_flight hc hs h2 hok1 hm1 (NoEvictH_append.1 hx).1 hk hn
  have hop := started_open hc hs hok1 hd hn
  have hret : (outAt cfg (h1 ++ (e1, .tick r .later) :: h2) e2 (.complete tok (.ok v))).ret = .bool true := by
    rw [show outAt cfg (h1 ++ (e1, .tick r .later) :: h2) e2 (.complete tok (.ok v)) = _ from (complete_ok hc (good_any hc _ hok1 e2) hd hop (.ok v)).2]
  exact kept_value hc _ h3 e2 _ hok hx k v ⟨hfl, hret, rfl⟩ hk3 env hm hal hage hidle o ho ha

/-- Refresh every 10, asynchronous resolver. -/
def refr : Cfg Nat := { plain with resolver := .async, refresh := some (10, 0) }

/-- A value written at 0 is due at 10, refreshed from 10 to 15. -/
example :
    let h : Hist Nat Nat Nat := [(at_ 0, .emplace 1 5 .none), (at_ 10, .tick (.ok 0) .later)]
    refr.Ok ∧ HistOk refr St.init (h ++ [(at_ 15, .complete 1 (.ok 6))]) ∧ Mono ([0, 10, 15, 16].map at_) ∧
    (outAt refr ([(at_ 0, .emplace 1 5 .none)] : Hist Nat Nat Nat) (at_ 10) (.tick (.ok 0) .later)).calls = [(1, 1)] ∧
    outAt refr h (at_ 12) (.asyncGet 1 7 .later) = { fired := [(7, .ok 5)] } ∧
    outAt refr (h ++ [(at_ 15, .complete 1 (.ok 6))]) (at_ 16) (.asyncGet 1 8 .later) = { fired := [(8, .ok 6)] } :=
  ⟨nat_ok rfl (by intro d i h; cases h; decide), by decide, mono_at _ (by decide), by decide, by decide, by decide⟩

example : StartsAt refr 1 1 ([(at_ 0, .emplace 1 5 .none)] : Hist Nat Nat Nat) (at_ 10) (.tick (.ok 0) .later) :=
  ⟨rfl, (1, 1), by decide, rfl, rfl⟩

/-! ## C34 -/

/-- C34, first half.  With an idle timer `I`: if the key was not used by the user after
time `T` (during `h2`, which may contain any number of refreshes), then from time
`T + I` on no lookup returns a stored value. -/
theorem C34_unused_value_not_returned (hc : cfg.Ok) (d I : Int) (hr : cfg.refresh = some (d, I)) (hI : I ≠ 0) (h1 h2 : Hist K V E)
    (hok : HistOk cfg St.init (h1 ++ h2)) (k : K) (T : Int) (ht : ∀ p ∈ h1, p.1.now ≤ T)
    (hu : ∀ a e o b, h2 = a ++ (e, o) :: b → ¬ UsesAt cfg k (h1 ++ a) e o)
    (env : Env V) (hnow : T + I ≤ env.now) (o : Op K V E) (ho : o.ok cfg (stateAfter cfg (h1 ++ h2))) (v : V) :
    ¬ StoredAnswer cfg k v (h1 ++ h2) env o := by
  intro ha
  have hv := stored_valid hc (good_any hc _ hok env) (fun h => h) ho ha.1 ha.2.1 ha.2.2
  have hb := used_bound hc k T h1 h2 hok ht hu (.inl (by rw [hv.1]; simp))
  have hl := hv.2.1
  simp only [Ledger.idleLimit, hr, hI, if_false, reached, decide_eq_true_eq, not_or] at hl
  have := hl.2
  omega

/-- C34, second half.  A use of the key extends the life of its value to that time plus
`I` (whoever wrote the value, the user or a refresh, before or after that use); without
idle timer (`I = 0`) there is no such deadline. -/
theorem C34_use_extends_deadline (hc : cfg.Ok) (d I : Int) (hr : cfg.refresh = some (d, I)) (h1 h2 : Hist K V E) (e1 : Env V) (o1 : Op K V E)
    (hok : HistOk cfg St.init (h1 ++ (e1, o1) :: h2)) (hx : NoEvictH cfg St.init (h1 ++ (e1, o1) :: h2)) (k : K) (v : V)
    (hwr : WritesAt cfg k v h1 e1 o1) (hk : Kept cfg k (h1 ++ [(e1, o1)]) h2) (env : Env V)
    (hm : Mono ((h1 ++ (e1, o1) :: h2).map (·.1) ++ [env]))
    (hal : cfg.maxSize = none ∨ cfg.weaken = false ∨ cfg.ptr = false ∨ env.alive v = true)
    (hage : ∀ A, cfg.maxAge = some A → Younger cfg.wall A e1.now env.now)
    (huse : I = 0 ∨ ∃ a eu ou b, h1 ++ (e1, o1) :: h2 = a ++ (eu, ou) :: b ∧ UsesAt cfg k a eu ou ∧ env.now < eu.now + I)
    (o : Op K V E) (ho : o.ok cfg (stateAfter cfg (h1 ++ (e1, o1) :: h2))) (ha : Asks k o) :
    StoredAnswer cfg k v (h1 ++ (e1, o1) :: h2) env o := by
  refine kept_value hc h1 h2 e1 o1 hok hx k v hwr hk env hm hal hage ?_ o ho ha
  unfold Ledger.idleLimit
  rw [hr]
  by_cases hI : I = 0
  · simp [hI, reached]
  · rcases huse with h | ⟨a, eu, ou, b, heq, hu, hlt⟩
    · exact absurd h hI
    · have hm1 : Mono ((a ++ (eu, ou) :: b).map (·.1)) := by
        rw [← heq]; unfold Mono at *; exact (List.pairwise_append.1 hm).1
      have := used_since hc k a b eu ou (heq ▸ hok) hm1 hu
      rw [heq]
      simp only [hI, if_false, reached, decide_eq_false_iff_not]
      omega

/-- Refresh every 10, idle timer 25, synchronous resolver. -/
def idle : Cfg Nat := { plain with resolver := .sync, refresh := some (10, 25) }

/-- Written at 0, refreshed at 10 and 20, hit at 22, refreshed at 30 and 40: returned at
46, not returned at 47.  Without the hit it would have been gone at 25. -/
example :
    let h : Hist Nat Nat Nat := [(at_ 0, .get 1 (.ok 5)), (at_ 10, .tick (.ok 6) .later), (at_ 20, .tick (.ok 7) .later)]
    let h' : Hist Nat Nat Nat := h ++ [(at_ 22, .get 1 (.ok 0)), (at_ 30, .tick (.ok 8) .later), (at_ 40, .tick (.ok 9) .later)]
    idle.Ok ∧ HistOk idle St.init h' ∧ (outAt idle h' (at_ 46) (.getIfExists 1)).ret = .val 9 ∧ (outAt idle h' (at_ 47) (.getIfExists 1)).ret = .miss ∧
    (outAt idle h (at_ 24) (.getIfExists 1)).ret = .val 7 ∧ (outAt idle h (at_ 25) (.getIfExists 1)).ret = .miss :=
  ⟨nat_ok rfl (by intro d i h; cases h; decide), by decide, by decide, by decide, by decide, by decide⟩

example : UsesAt idle 1 ([(at_ 0, .get 1 (.ok 5)), (at_ 10, .tick (.ok 6) .later)] : Hist Nat Nat Nat) (at_ 22) (.get 1 (.ok 0)) ∧
    ¬ UsesAt idle 1 ([(at_ 0, .get 1 (.ok 5))] : Hist Nat Nat Nat) (at_ 10) (.tick (.ok 6) .later) :=
  ⟨⟨rfl, .inr ⟨6, by decide⟩⟩, fun h => h⟩

/-! ## C35 -/

/-- C35, order.  When the worker refreshes a key, that key has a live value, is due (its
last write is at least the delay ago), was not refreshed since, and no key with a live
value not yet refreshed was due earlier. -/
theorem C35_earliest_due_first (hc : cfg.Ok) (d I : Int) (hr : cfg.refresh = some (d, I)) (h : Hist K V E) (hok : HistOk cfg St.init h) (env : Env V)
    (hm : Mono (h.map (·.1) ++ [env])) (r : Res V E) (b : Beh V E) (ho : (Op.tick r b : Op K V E).ok cfg (stateAfter cfg h)) (k : K) (tok : Nat)
    (hcal : (k, tok) ∈ (outAt cfg h env (.tick r b)).calls) :
    (∃ v, (outAt cfg h env (.getIfExists k)).ret = .val v) ∧ (ledgerAfter cfg h).time k + d ≤ env.now ∧ (ledgerAfter cfg h).tried k = false ∧
    ∀ a u, (outAt cfg h env (.getIfExists a)).ret = .val u → (ledgerAfter cfg h).tried a = false →
      (ledgerAfter cfg h).time k + d ≤ (ledgerAfter cfg h).time a + d := by
  have g := good_mono hc h hok env hm
  obtain ⟨e, q, hq, he, hdue, hrf, hx, tok', hc1⟩ := tick_call_inv (cfg := cfg) (env := env) (s := stateAfter cfg h) (r := r) (b := b)
    (by intro hh; rw [show (outAt cfg h env (.tick r b)).calls = [] from hh] at hcal; cases hcal)
  rw [show (outAt cfg h env (.tick r b)).calls = _ from hc1] at hcal
  obtain ⟨rfl, rfl⟩ : k = e.key ∧ tok = tok' := by simpa using hcal
  have hnp := queued_notPending g.wf2 he (by rw [hq]; simp)
  obtain ⟨v, hv⟩ := Option.ne_none_iff_exists'.1 (refr_of hc g.wf2 he hnp hrf hx (g.dq.noVoid trivial e he)).val
  obtain ⟨c1, c2, c3, c4, c5⟩ := (g.v e.key).c1 e he (hc.refl _) v hv
  simp only [Ledger.dueAt, hr, Option.map_some] at c4
  refine ⟨⟨v, (peek_val hc g env e.key v).2 ⟨e, he, hc.refl _, hx, hv⟩⟩, ?_, ?_, ?_⟩
  · rw [c4] at hdue; simpa [reached] using hdue
  · cases ht : (ledgerAfter cfg h).tried e.key
    · rfl
    · rw [hrf, ht] at c5; simp at c5
  · intro a u hu htr
    obtain ⟨f, hf, hfa, hfx, hfv⟩ := (peek_val hc g env a u).1 hu
    obtain ⟨_, _, _, f4, f5⟩ := (g.v a).c1 f hf hfa u hfv
    simp only [Ledger.dueAt, hr, Option.map_some] at f4
    have hfr : f.refreshing = false := by
      cases hh : f.refreshing
      · rfl
      · rw [hh, htr] at f5; simp at f5
    rcases g.dq.dl3 trivial (by rw [hr]; rfl) f hf (by simp [hfv]) hfr with hh | hh | hh
    · rw [hq] at hh
      rcases List.mem_cons.1 hh with hh | hh
      · obtain rfl := eq_of_id g.wf1 hf he hh
        rw [c4, Option.some.injEq] at f4; omega
      · have hp := g.dq.dl1 trivial d I hr
        rw [hq, List.pairwise_cons] at hp
        exact hp.1 f.id hh e he f hf rfl rfl _ _ c4 f4
    · have hh : f.expired env = true := hh
      rw [hfx] at hh; cases hh
    · exact hh.elim

/-- C35, none is missed.  If a key with a live value is due and was not refreshed since
its last write, then a worker that runs often enough (a number of times that does not
depend on what the resolver does) refreshes it, before time goes on. -/
theorem C35_none_missed (hc : cfg.Ok) (d I : Int) (hr : cfg.refresh = some (d, I)) (hk : cfg.resolver ≠ .none) (h : Hist K V E) (hok : HistOk cfg St.init h)
    (hd : (stateAfter cfg h).destroyed = false) (env : Env V) (hm : Mono (h.map (·.1) ++ [env])) (k : K) (v : V)
    (hv : (outAt cfg h env (.getIfExists k)).ret = .val v) (hdue : (ledgerAfter cfg h).time k + d ≤ env.now)
    (htr : (ledgerAfter cfg h).tried k = false) :
    ∃ n, ∀ ts : List (Res V E × Beh V E), n < ts.length →
      ∃ a r b c k' tok, ts = a ++ (r, b) :: c ∧ cfg.eqv k' k = true ∧ (outAt cfg (h ++ ticks env a) env (.tick r b)).calls = [(k', tok)] := by
  have g := good_mono hc h hok env hm
  obtain ⟨e, he, hek, hx, hev⟩ := (peek_val hc g env k v).1 hv
  obtain ⟨_, _, _, c4, c5⟩ := (g.v k).c1 e he hek v hev
  simp only [Ledger.dueAt, hr, Option.map_some] at c4
  have hrf : e.refreshing = false := by
    cases hh : e.refreshing
    · rfl
    · rw [hh, htr] at c5; simp at c5
  rcases g.dq.dl3 trivial (by rw [hr]; rfl) e he (by simp [hev]) hrf with hh | hh | hh
  · obtain ⟨pre, post, hq⟩ := List.append_of_mem hh
    refine ⟨pre.length, fun ts hts => ?_⟩
    obtain ⟨a, r, b, c, tok, hts, hcal⟩ := waiting_handled hc (by rw [hr]; rfl) hk env e.key pre.length h hok hm hd pre e
      ⟨he, rfl, by simp [hev], hrf, hx, by rw [c4]; simpa [reached] using hdue, post, hq⟩ (Nat.le_refl _) ts hts
    exact ⟨a, r, b, c, e.key, tok, hts, hek, hcal⟩
  · have hh : e.expired env = true := hh
    rw [hx] at hh; cases hh
  · exact hh.elim

/-- Two values due at 10 and 11; at 12 the worker refreshes both, in this order. -/
example :
    let h : Hist Nat Nat Nat := [(at_ 0, .emplace 1 5 .none), (at_ 1, .emplace 2 6 .none), (at_ 2, .asyncGet 1 3 .later)]
    HistOk refr St.init h ∧ (outAt refr h (at_ 12) (.tick (.ok 0) .later)).calls = [(1, 2)] ∧
    (outAt refr (h ++ ticks (at_ 12) [(.ok 0, .later)]) (at_ 12) (.tick (.ok 0) .later)).calls = [(2, 3)] ∧
    (outAt refr (h ++ ticks (at_ 12) [(.ok 0, .later), (.ok 0, .later)]) (at_ 12) (.tick (.ok 0) .later)).calls = [] := by decide

/-! ## C36 -/

/-- C36, what holds: a refresh that fails (the resolver reports an error) drops the
value.  No stored value of the key is returned until it is written again.  Missing: the
case of a refresh that is given up without a result. -/
theorem C36_failed_refresh_drops_value_partial (hc : cfg.Ok) (h1 h2 h3 : Hist K V E) (e1 e2 : Env V) (r : Res V E) (k : K) (tok : Nat) (x : E)
    (hs : StartsAt cfg k tok h1 e1 (.tick r .later)) (hk : Kept cfg k (h1 ++ [(e1, .tick r .later)]) h2)
    (hn : ∀ p ∈ h2, (∀ r, p.2 ≠ .complete tok r) ∧ p.2 ≠ .drop tok)
    (hd : (stateAfter cfg (h1 ++ (e1, .tick r .later) :: h2)).destroyed = false)
    (hok : HistOk cfg St.init ((h1 ++ (e1, .tick r .later) :: h2) ++ (e2, .complete tok (.err x)) :: h3))
    (hx : NoEvictH cfg St.init (h1 ++ (e1, .tick r .later) :: h2))
    (hm : Mono ((h1 ++ (e1, .tick r .later) :: h2).map (·.1)))
    (env : Env V) (o : Op K V E) (ho : o.ok cfg (stateAfter cfg ((h1 ++ (e1, .tick r .later) :: h2) ++ (e2, .complete tok (.err x)) :: h3))) (v : V)
    (ha : StoredAnswer cfg k v ((h1 ++ (e1, .tick r .later) :: h2) ++ (e2, .complete tok (.err x)) :: h3) env o) :
    ∃ h4 e4 o4 h5, h3 = h4 ++ (e4, o4) :: h5 ∧ WritesAt cfg k v ((h1 ++ (e1, .tick r .later) :: h2) ++ (e2, .complete tok (.err x)) :: h4) e4 o4 := by
  have hok1 := (HistOk_append.1 hok).1
  have hfl := in_flight hc hs h2 hok1 hm hx hk hn
  have hop := started_open hc hs hok1 hd hn
  have hret : (outAt cfg (h1 ++ (e1, .tick r .later) :: h2) e2 (.complete tok (.err x))).ret = .bool true := by
    rw [show outAt cfg (h1 ++ (e1, .tick r .later) :: h2) e2 (.complete tok (.err x)) = _ from (complete_ok hc (good_any hc _ hok1 e2) hd hop (.err x)).2]
  have hv := stored_valid hc (good_any hc _ hok env) (fun h => h) ho ha.1 ha.2.1 ha.2.2
  exact write_after (show ChangesAt cfg k _ e2 (.complete tok (.err x)) from ⟨hfl, hret⟩) (fun hw => by cases hw.2.2) hv.1

/-- The same for a synchronous resolver. -/
theorem C36_failed_synchronous_refresh_drops_value_partial (hc : cfg.Ok) (hr : cfg.resolver ≠ .async) (h1 h2 : Hist K V E) (e1 : Env V) (x : E) (b : Beh V E)
    (k k' : K) (hkk : cfg.eqv k k' = true) (tok : Nat) (hcal : (outAt cfg h1 e1 (.tick (.err x) b)).calls = [(k', tok)])
    (hok : HistOk cfg St.init (h1 ++ (e1, .tick (.err x) b) :: h2)) (env : Env V)
    (o : Op K V E) (ho : o.ok cfg (stateAfter cfg (h1 ++ (e1, .tick (.err x) b) :: h2))) (v : V)
    (ha : StoredAnswer cfg k v (h1 ++ (e1, .tick (.err x) b) :: h2) env o) :
    ∃ h3 e3 o3 h4, h2 = h3 ++ (e3, o3) :: h4 ∧ WritesAt cfg k v (h1 ++ (e1, .tick (.err x) b) :: h3) e3 o3 := by
  have hv := stored_valid hc (good_any hc _ hok env) (fun h => h) ho ha.1 ha.2.1 ha.2.2
  exact write_after (show ChangesAt cfg k h1 e1 (.tick (.err x) b) from ⟨⟨_, by rw [hcal]; rfl, hkk⟩, fun hh => absurd hh hr⟩)
    (fun hw => by have := hw.2; rw [if_neg hr] at this; cases this) hv.1

/-- C36 is false: a refresh that was started and not completed (in flight, or given up) is
the last one.  The worker does not refresh the key again as long as the value is kept. -/
theorem C36_abandoned_refresh_is_never_retried (hc : cfg.Ok) (h1 h2 : Hist K V E) (e1 : Env V) (r : Res V E) (b : Beh V E) (k k' : K) (tok : Nat)
    (hkk : cfg.eqv k k' = true) (hcal : (outAt cfg h1 e1 (.tick r b)).calls = [(k', tok)])
    (hok : HistOk cfg St.init (h1 ++ (e1, .tick r b) :: h2)) (hk : Kept cfg k h1 ((e1, .tick r b) :: h2)) (env : Env V) (r' : Res V E) (b' : Beh V E)
    (ho : (Op.tick r' b' : Op K V E).ok cfg (stateAfter cfg (h1 ++ (e1, .tick r b) :: h2))) :
    ∀ p ∈ (outAt cfg (h1 ++ (e1, .tick r b) :: h2) env (.tick r' b')).calls, cfg.eqv k p.1 = false := by
  intro p hp
  have g := good_any hc _ hok env
  rcases (tick_ok hc g ho.2.2 r' b').2 with q | ⟨a, q, _, _, _, q5⟩
  · rw [show outAt cfg (h1 ++ (e1, .tick r b) :: h2) env (.tick r' b') = _ from q] at hp; cases hp
  · rw [show outAt cfg (h1 ++ (e1, .tick r b) :: h2) env (.tick r' b') = _ from q] at hp
    obtain rfl : p = (a, _) := by simpa using hp
    cases hh : cfg.eqv k a
    · rfl
    · have h1 := (g.g.rsp k a hh).2.2.2.2.2
      rw [q5, tried_since hkk hcal hk] at h1; cases h1

/-- … and it is served forever (no age limit, no idle timer, no eviction). -/
theorem C36_abandoned_refresh_freezes_value (hc : cfg.Ok) (hA : cfg.maxAge = none) (d : Int) (hr : cfg.refresh = some (d, 0)) (hs : cfg.maxSize = none)
    (h1 h2 h3 : Hist K V E) (e1 e2 : Env V) (o1 : Op K V E) (k : K) (v : V) (r : Res V E) (b : Beh V E) (hb : b = .later ∨ b = .drop)
    (ha : cfg.resolver = .async) (hwr : WritesAt cfg k v h1 e1 o1)
    (hok : HistOk cfg St.init (h1 ++ (e1, o1) :: (h2 ++ (e2, .tick r b) :: h3)))
    (hk2 : Kept cfg k (h1 ++ [(e1, o1)]) h2) (hk3 : Kept cfg k (h1 ++ (e1, o1) :: (h2 ++ [(e2, .tick r b)])) h3)
    (env : Env V) (hm : Mono ((h1 ++ (e1, o1) :: (h2 ++ (e2, .tick r b) :: h3)).map (·.1) ++ [env]))
    (o : Op K V E) (ho : o.ok cfg (stateAfter cfg (h1 ++ (e1, o1) :: (h2 ++ (e2, .tick r b) :: h3)))) (hq : Asks k o) :
    StoredAnswer cfg k v (h1 ++ (e1, o1) :: (h2 ++ (e2, .tick r b) :: h3)) env o := by
  have hno : ∀ (h : Hist K V E) (s : St K V E), NoEvictH cfg s h := by
    intro h
    induction h with
    | nil => exact fun s N hN => by rw [hs] at hN; cases hN
    | cons p h ih => exact fun s => ⟨fun N hN => (by rw [hs] at hN; cases hN), ih _⟩
  have h0 := C33_starting_a_refresh_keeps_the_value ha (h1 ++ [(e1, o1)] ++ h2) e2 k r b hb
  refine kept_value hc h1 _ e1 o1 hok (hno _ _) k v hwr ?_ env hm (.inl hs) (by rw [hA]; simp) (by simp [Ledger.idleLimit, hr, reached]) o ho hq
  rw [show h2 ++ (e2, Op.tick r b) :: h3 = (h2 ++ [(e2, .tick r b)]) ++ h3 by simp, Kept.append]
  refine ⟨Kept.snoc.2 ⟨hk2, h0⟩, ?_⟩
  simpa using hk3

/-- The worker's refresh at 10 is dropped by the resolver; at 1000 the value of time 0 is still served, and not refreshed. -/
example :
    let h : Hist Nat Nat Nat := [(at_ 0, .emplace 1 5 .none), (at_ 10, .tick (.ok 0) .later), (at_ 11, .drop 1)]
    HistOk refr St.init h ∧ outAt refr h (at_ 1000) (.tick (.ok 0) .later) = {} ∧
    outAt refr h (at_ 1000) (.asyncGet 1 7 .later) = { fired := [(7, .ok 5)] } := by decide

/-! ### Applied -/

/-- The refresh of key 1 was started at 10; at 12 the old value is returned. -/
example := C33_old_value_until_refresh_completes (cfg := refr) (nat_ok rfl (by intro d i h; cases h; decide)) ([] : Hist Nat Nat Nat) [(at_ 10, .tick (.ok 0) .later)] (at_ 0) (.emplace 1 5 .none)
  (by decide) (by decide) 1 5 (by decide) (by decide) (at_ 12) (by exact mono_at [0, 10, 12] (by decide)) (.inl rfl) (by intro A h; cases h) (by decide)
  (.asyncGet 1 7 .later) (by decide) (by simp [Asks])
example := C33_starting_a_refresh_keeps_the_value (cfg := refr) rfl ([(at_ 0, .emplace 1 5 .none)] : Hist Nat Nat Nat) (at_ 10) 1 (.ok 0) .later (.inl rfl)

/-- It is answered at 15; other calls come before and after. -/
example := C33_new_value_after_refresh (cfg := refr) (nat_ok rfl (by intro d i h; cases h; decide)) ([(at_ 0, .emplace 1 5 .none)] : Hist Nat Nat Nat) [(at_ 11, .emplace 5 7 .none)] [(at_ 16, .erase 5)] (at_ 10) (at_ 15) (.ok 0) 1 1 6
  (by decide) (by decide) (by simp) (by decide) (by decide) (by decide) (by decide) (at_ 17) (by exact mono_at [0, 10, 11, 15, 16, 17] (by decide)) (.inl rfl) (by intro A h; cases h) (by decide)
  (.asyncGet 1 7 .later) (by decide) (by simp [Asks])

/-- Not used since 20: not returned at 47. -/
example := C34_unused_value_not_returned (cfg := idle) (nat_ok rfl (by intro d i h; cases h; decide)) 10 25 rfl (by decide) ([(at_ 0, .get 1 (.ok 5)), (at_ 10, .tick (.ok 6) .later)] : Hist Nat Nat Nat) [(at_ 20, .tick (.ok 7) .later)]
  (by decide) 1 10 (by decide) (by
    intro a e o b he
    match a, he with
    | [], he => cases he; decide
    | [_], he => injection he with _ h2; cases h2
    | _ :: _ :: _, he => injection he with _ h2; cases h2) (at_ 36) (by decide) (.getIfExists 1) (by decide) 7

/-- Used at 22: returned at 46. -/
example := C34_use_extends_deadline (cfg := idle) (nat_ok rfl (by intro d i h; cases h; decide)) 10 25 rfl
  ([(at_ 0, .get 1 (.ok 5)), (at_ 10, .tick (.ok 6) .later)] : Hist Nat Nat Nat) [(at_ 22, .get 1 (.ok 0)), (at_ 23, .emplace 2 1 .none)] (at_ 20) (.tick (.ok 7) .later)
  (by decide) (by decide) 1 7 (by decide) (by decide) (at_ 46) (by exact mono_at [0, 10, 20, 22, 23, 46] (by decide)) (.inl rfl) (by intro A h; cases h)
  (.inr ⟨[(at_ 0, .get 1 (.ok 5)), (at_ 10, .tick (.ok 6) .later), (at_ 20, .tick (.ok 7) .later)], at_ 22, .get 1 (.ok 0), [(at_ 23, .emplace 2 1 .none)], rfl, by decide, by decide⟩)
  (.getIfExists 1) (by decide) (by simp [Asks])

/-- Values due at 10 and at 11: at 12 the first is refreshed first, and none is missed. -/
example := C35_earliest_due_first (cfg := refr) (nat_ok rfl (by intro d i h; cases h; decide)) 10 0 rfl ([(at_ 0, .emplace 1 5 .none), (at_ 1, .emplace 2 6 .none)] : Hist Nat Nat Nat) (by decide) (at_ 12)
  (by exact mono_at [0, 1, 12] (by decide)) (.ok 0) .later (by decide) 1 2 (by decide)
example := C35_none_missed (cfg := refr) (nat_ok rfl (by intro d i h; cases h; decide)) 10 0 rfl (by decide) ([(at_ 0, .emplace 1 5 .none), (at_ 1, .emplace 2 6 .none)] : Hist Nat Nat Nat) (by decide) (by decide) (at_ 12)
  (by exact mono_at [0, 1, 12] (by decide)) 2 6 (by decide) (by decide) (by decide)

/-- A refresh fails at 15; the value found at 17 was written at 16. -/
example := C36_failed_refresh_drops_value_partial (cfg := refr) (nat_ok rfl (by intro d i h; cases h; decide)) ([(at_ 0, .emplace 1 5 .none)] : Hist Nat Nat Nat) [(at_ 11, .emplace 5 7 .none)] [(at_ 16, .emplace 1 8 .none)] (at_ 10) (at_ 15) (.ok 0) 1 1 3
  (by decide) (by decide) (by simp) (by decide) (by decide) (by decide) (by exact mono_at [0, 10, 11] (by decide)) (at_ 17) (.getIfExists 1) (by decide) 8 (by decide)
example := C36_failed_synchronous_refresh_drops_value_partial (cfg := idle) (nat_ok rfl (by intro d i h; cases h; decide)) (by decide) ([(at_ 0, .get 1 (.ok 5))] : Hist Nat Nat Nat) [(at_ 11, .get 1 (.ok 6))] (at_ 10) 3 .later
  1 1 rfl 1 (by decide) (by decide) (at_ 12) (.getIfExists 1) (by decide) 6 (by decide)
example := C36_abandoned_refresh_is_never_retried (cfg := refr) (nat_ok rfl (by intro d i h; cases h; decide)) ([(at_ 0, .emplace 1 5 .none)] : Hist Nat Nat Nat) [(at_ 11, .drop 1)] (at_ 10) (.ok 0) .later 1 1 1 rfl (by decide)
  (by decide) (by decide) (at_ 1000) (.ok 0) .later (by decide)
example := C36_abandoned_refresh_freezes_value (cfg := refr) (nat_ok rfl (by intro d i h; cases h; decide)) rfl 10 rfl rfl ([] : Hist Nat Nat Nat) [(at_ 1, .emplace 2 6 .none)] [(at_ 11, .drop 2)] (at_ 0) (at_ 10) (.emplace 1 5 .none) 1 5 (.ok 0) .later (.inl rfl)
  rfl (by decide) (by decide) (by decide) (by decide) (at_ 1000) (by exact mono_at [0, 1, 10, 11, 1000] (by decide)) (.asyncGet 1 7 .later) (by decide) (by simp [Asks])

end Hoard.Props
