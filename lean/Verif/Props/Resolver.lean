import Verif.ValueLemmas
/-! # Caches with a resolver called inside `get` -/
namespace Hoard.Props
open Hoard Spec Demo
variable {K V E : Type} {cfg : Cfg K}

/-! ## C17 -/

/-- C17, first half.  In every reachable state of a cache with a synchronous resolver, `get(k)`
asks the resolver exactly when no live value is stored, asks it once and for `k`,
and then hands its result (value or exception) to the caller; otherwise it returns the stored
value.  In particular the internal-error exception is never thrown. -/
theorem C17_resolver_called_exactly_on_miss (hc : cfg.Ok) (hr : cfg.resolver = .sync) (h : Hist K V E) (hok : HistOk cfg St.init h)
    (env : Env V) (k : K) (r : Res V E) (ho : (stateAfter cfg h).destroyed = false) :
    (∀ v, (outAt cfg h env (.getIfExists k)).ret = .val v →
      (outAt cfg h env (.get k r)).calls = [] ∧ (outAt cfg h env (.get k r)).ret = .val v) ∧
    ((outAt cfg h env (.getIfExists k)).ret = .miss →
      (∃ tok, (outAt cfg h env (.get k r)).calls = [(k, tok)]) ∧ (outAt cfg h env (.get k r)).ret = resRet r) ∧
    ((∃ v, (outAt cfg h env (.getIfExists k)).ret = .val v) ∨ (outAt cfg h env (.getIfExists k)).ret = .miss) := by
  have g := good_any hc h hok env
  have hra : cfg.resolver ≠ .async := by rw [hr]; simp
  have hp := fun v => get__peek hc g.wf1 g.wf2 env k false v
  have hcases := (get_ok hc g ho hra k r).2
  simp only at hcases
  have hre : ∀ v, (getIfExists cfg env (stateAfter cfg h) k).ret = .val v ↔
      (get cfg env (stateAfter cfg h) k r).2.ret = .val v ∧ (get cfg env (stateAfter cfg h) k r).2.calls = [] := by
    intro v
    have hg := (get__ok hc g k false (.inr hra)).2.2
    rw [← hp v]
    simp only [get]
    generalize hgg : get_ cfg env (stateAfter cfg h) k false = gg at hg
    obtain ⟨s1, l⟩ := gg
    simp only at hg
    rcases hg with ⟨u, rfl, _⟩ | ⟨_, hf, _⟩ | ⟨rfl, _⟩
    · simp [hr, syncRet]
    · cases hf
    · simp [hr]
  have hm : (∃ v, (getIfExists cfg env (stateAfter cfg h) k).ret = .val v) ∨ (getIfExists cfg env (stateAfter cfg h) k).ret = .miss :=
    (optRet_cases _).symm
  refine ⟨fun v hv => ?_, fun hmiss => ?_, hm⟩
  · have := (hre v).1 hv
    exact ⟨this.2, this.1⟩
  · rcases hcases with ⟨u, h1, _, h3⟩ | ⟨⟨_, _, h3⟩ | ⟨h1, h2, _⟩, _⟩
    · have := (hre u).2 ⟨h1, h3⟩
      have hmiss : (getIfExists cfg env (stateAfter cfg h) k).ret = .miss := hmiss
      rw [hmiss] at this; cases this
    · rw [hr] at h3; cases h3
    · exact ⟨⟨_, h2⟩, h1⟩

/-- C17, second half.  Once the resolver produced a value for `k`, a later `get` of an equal key
does not ask it again but returns that value, as long as nothing was written to the key or removed in between
and the value is not too old, evicted or destroyed. -/
theorem C17_second_get_does_not_ask (hc : cfg.Ok) (hr : cfg.resolver = .sync) (h1 h2 : Hist K V E) (e1 : Env V) (k a : K)
    (hka : cfg.eqv a k = true) (v : V) (r' : Res V E)
    (hok : HistOk cfg St.init (h1 ++ (e1, .get k (.ok v)) :: h2)) (env : Env V)
    (hm : Mono ((h1 ++ (e1, .get k (.ok v)) :: h2).map (·.1) ++ [env])) (hx : NoEvictH cfg St.init (h1 ++ (e1, .get k (.ok v)) :: h2))
    (hcall : (outAt cfg h1 e1 (.get k (.ok v))).calls ≠ [])
    (hk : Kept cfg a (h1 ++ [(e1, .get k (.ok v))]) h2)
    (ho : (stateAfter cfg (h1 ++ (e1, .get k (.ok v)) :: h2)).destroyed = false)
    (hlive : ¬ DeadL cfg env (ledgerAfter cfg (h1 ++ (e1, .get k (.ok v)) :: h2)) a v) :
    (outAt cfg (h1 ++ (e1, .get k (.ok v)) :: h2) env (.get a r')).calls = [] ∧
    (outAt cfg (h1 ++ (e1, .get k (.ok v)) :: h2) env (.get a r')).ret = .val v := by
  have g := good_exact hc _ hok env hm hx
  have hw : WritesAt cfg a v h1 e1 (.get k (.ok v)) := ⟨hka, hcall, rfl⟩
  have hcur := (kept_facts hk).1
  rw [ledgerAfter_snoc, (after_writes hw).1, show h1 ++ [(e1, .get k (.ok v))] ++ h2 = h1 ++ (e1, .get k (.ok v)) :: h2 by simp] at hcur
  have hra : cfg.resolver ≠ .async := by rw [hr]; simp
  rcases (get_ok hc g ho hra a r').2 with ⟨u, q1, q2, q3⟩ | ⟨_, q2⟩
  · have := q2.1; rw [hcur] at this; cases this
    exact ⟨q3, q1⟩
  · exact absurd (q2 trivial v hcur) hlive

def memo : Cfg Nat := { plain with resolver := .sync, maxAge := some 5 }

/-- A miss, a hit, an expired value, and a resolver that throws. -/
example : HistOk memo St.init ([(at_ 0, .get 1 (.ok 7))] : Hist Nat Nat Nat) ∧
    (outAt memo ([] : Hist Nat Nat Nat) (at_ 0) (.get 1 (.ok 7))) = { ret := .val 7, calls := [(1, 0)] } ∧
    (outAt memo ([(at_ 0, .get 1 (.ok 7))] : Hist Nat Nat Nat) (at_ 4) (.get 1 (.ok 8))) = { ret := .val 7 } ∧
    (outAt memo ([(at_ 0, .get 1 (.ok 7))] : Hist Nat Nat Nat) (at_ 5) (.get 1 (.ok 8))) = { ret := .val 8, calls := [(1, 1)] } ∧
    (outAt memo ([(at_ 0, .get 1 (.ok 7))] : Hist Nat Nat Nat) (at_ 5) (.get 1 (.err 3))) = { ret := .err 3, calls := [(1, 1)] } := by decide

/-- The hypotheses of the second half can be met: the value is 4 old with an age limit of 5. -/
example : Kept memo 1 ([] ++ [(at_ 0, .get 1 (.ok 7))] : Hist Nat Nat Nat) [] ∧
    Mono (([(at_ 0, .get 1 (.ok 7))] : Hist Nat Nat Nat).map (·.1) ++ [at_ 4]) ∧
    NoEvictH memo St.init ([(at_ 0, .get 1 (.ok 7))] : Hist Nat Nat Nat) ∧
    ¬ DeadL memo (at_ 4) (ledgerAfter memo ([(at_ 0, .get 1 (.ok 7))] : Hist Nat Nat Nat)) 1 7 :=
  ⟨Kept.nil _ _, mono_at [0, 4] (by decide), ⟨(fun _ h => by cases h), (fun _ h => by cases h)⟩, by
    rintro (h | h | ⟨h, _⟩)
    · exact absurd h (by decide)
    · exact absurd h (by decide)
    · cases h⟩

/-! ## C18 -/

/-- C18, synchronous resolver: an error is thrown to the caller whose `get` asked the
resolver, and to nobody else: whenever a `get` throws an error, that very call asked the
resolver and the resolver produced that error. -/
theorem C18_error_only_from_own_call (hc : cfg.Ok) (h : Hist K V E) (hok : HistOk cfg St.init h)
    (env : Env V) (k : K) (r : Res V E) (x : E) (ho : (Op.get k r : Op K V E).ok cfg (stateAfter cfg h))
    (he : (outAt cfg h env (.get k r)).ret = .err x) :
    r = .err x ∧ ∃ tok, (outAt cfg h env (.get k r)).calls = [(k, tok)] := by
  have he : (get cfg env (stateAfter cfg h) k r).2.ret = .err x := he
  rcases (get_ok hc (good_any hc h hok env) ho.2 ho.1 k r).2 with ⟨u, q1, _⟩ | ⟨⟨q1, _⟩ | ⟨q1, q2, _⟩, _⟩
  · rw [q1] at he; cases he
  · rw [q1] at he; cases he
  · refine ⟨?_, _, q2⟩
    rw [q1] at he
    cases r <;> simp [resRet] at he ⊢; exact he

/-- C18, all operations: no operation other than `get` (with a synchronous resolver) and none
of its results ever reports an error that was not delivered in that very step: an asynchronous
`get` is answered with an error only if its own resolver call completed with it at once, and otherwise errors reach
waiters only from the completion of the lookup they wait for. -/
theorem C18_error_reaches_only_its_lookup (hc : cfg.Ok) (h : Hist K V E) (hok : HistOk cfg St.init h)
    (env : Env V) (o : Op K V E) (ho : o.ok cfg (stateAfter cfg h)) (w : Nat) (x : E) (hf : (w, .err x) ∈ (outAt cfg h env o).fired) :
    (∃ k tok, o = .asyncGet k w (.now (.err x)) ∧ (outAt cfg h env o).calls = [(k, tok)]) ∨
    (∃ tok, o = .complete tok (.err x) ∧ w ∈ (ledgerAfter cfg h).wait tok) := by
  have g := good_any hc h hok env
  cases o with
  | asyncGet k w' b =>
    left
    have hf : (w, .err x) ∈ (asyncGet cfg env (stateAfter cfg h) k w' b).2.fired := hf
    obtain ⟨_, _, ⟨u, q1, _⟩ | ⟨⟨q1, _⟩, _⟩ | ⟨q1, _, _, q4⟩⟩ := (asyncGet_ok hc g ho.2 ho.1 k w' b).2
    · rw [show (asyncGet cfg env (stateAfter cfg h) k w' b).2.fired = _ from q1] at hf; simp at hf
    · rw [show (asyncGet cfg env (stateAfter cfg h) k w' b).2.fired = _ from q1] at hf; cases hf
    · rw [show (asyncGet cfg env (stateAfter cfg h) k w' b).2.fired = _ from q4] at hf
      cases b with
      | now r =>
        simp only [List.mem_singleton, Prod.mk.injEq] at hf
        obtain ⟨rfl, rfl⟩ := hf
        exact ⟨k, _, rfl, q1⟩
      | later => cases hf
      | drop => cases hf
  | complete tok r =>
    right
    have hf : (w, .err x) ∈ (complete cfg env (stateAfter cfg h) tok r).2.fired := hf
    by_cases hx : tok ∈ (stateAfter cfg h).opens
    · rcases Bool.eq_false_or_eq_true (stateAfter cfg h).destroyed with hd | hd
      · unfold complete at hf; rw [if_pos hx] at hf; simp [hd] at hf
      · rw [(complete_ok hc g hd hx r).2] at hf
        simp only [List.mem_map, Prod.mk.injEq] at hf
        obtain ⟨u, hu, rfl, rfl⟩ := hf
        exact ⟨tok, rfl, hu⟩
    · unfold complete at hf; rw [if_neg hx] at hf; cases hf
  | tick r b =>
    exfalso
    have hf : (w, .err x) ∈ (tick cfg env (stateAfter cfg h) r b).2.fired := hf
    rcases (tick_ok hc g ho.2.2 r b).2 with q | ⟨k, q, _⟩
    · rw [show (tick cfg env (stateAfter cfg h) r b).2 = _ from q] at hf; cases hf
    · rw [show (tick cfg env (stateAfter cfg h) r b).2 = _ from q] at hf; cases hf
  | get k r =>
    exfalso
    have hf : (w, .err x) ∈ (get cfg env (stateAfter cfg h) k r).2.fired := hf
    simp only [get] at hf
    split at hf <;> cases hf
  | emplace k v f =>
    exfalso
    have hf : (w, .err x) ∈ (emplace cfg env (stateAfter cfg h) k v f).2.fired := hf
    simp only [emplace] at hf
    split at hf <;> cases hf
  | getOrEmplace k v f =>
    exfalso
    have hf : (w, .err x) ∈ (getOrEmplace cfg env (stateAfter cfg h) k v f).2.fired := hf
    simp only [getOrEmplace] at hf
    split at hf
    · cases hf
    · split at hf <;> cases hf
    · cases hf
  | drop tok =>
    exfalso
    have hf : (w, .err x) ∈ (drop (stateAfter cfg h) tok).2.fired := hf
    simp only [drop] at hf
    split at hf <;> cases hf
  | getIfExists k => cases hf
  | erase k => cases hf
  | clear => cases hf
  | count => cases hf
  | destroy => cases hf

/-- C18: after the resolver failed, the key has no value, and the next `get` of the key, with nothing written to it in
between, asks the resolver again (synchronous resolver). -/
theorem C18_next_get_asks_again (hc : cfg.Ok) (hr : cfg.resolver = .sync) (h1 h2 : Hist K V E) (e1 : Env V) (k a : K)
    (hka : cfg.eqv a k = true) (x : E) (r' : Res V E)
    (hok : HistOk cfg St.init (h1 ++ (e1, .get k (.err x)) :: h2)) (env : Env V)
    (hcall : (outAt cfg h1 e1 (.get k (.err x))).calls ≠ [])
    (hk : Kept cfg a (h1 ++ [(e1, .get k (.err x))]) h2)
    (ho : (stateAfter cfg (h1 ++ (e1, .get k (.err x)) :: h2)).destroyed = false) :
    ∃ tok, (outAt cfg (h1 ++ (e1, .get k (.err x)) :: h2) env (.get a r')).calls = [(a, tok)] := by
  have hcur := (kept_facts hk).1
  have h0 : ((ledgerAfter cfg h1).after cfg.eqv cfg.resolver e1.now (.get k (.err x)) (outAt cfg h1 e1 (.get k (.err x)))).cur a = none := by
    cases hl : (outAt cfg h1 e1 (.get k (.err x))).calls with
    | nil => exact absurd hl hcall
    | cons p q => simp [Ledger.after, hl, Ledger.write, Ledger.put, hka, value?]
  rw [ledgerAfter_snoc, h0, show h1 ++ [(e1, .get k (.err x))] ++ h2 = h1 ++ (e1, .get k (.err x)) :: h2 by simp] at hcur
  have hra : cfg.resolver ≠ .async := by rw [hr]; simp
  rcases (get_ok hc (good_any hc _ hok env) ho hra a r').2 with ⟨u, _, q2, _⟩ | ⟨⟨_, _, q3⟩ | ⟨_, q2, _⟩, _⟩
  · have := q2.1; rw [hcur] at this; cases this
  · rw [hr] at q3; cases q3
  · exact ⟨_, q2⟩

/-- The same for an asynchronous resolver: after the lookup in flight of `k` failed, with nothing
written to the key in between, the next `get` is not answered from the store: it
asks the resolver again, or waits for a lookup that was started after the failure. -/
theorem C18_next_async_get_asks_again (hc : cfg.Ok) (h1 h2 : Hist K V E) (e1 : Env V) (k : K) (tok : Nat) (x : E)
    (hv : (ledgerAfter cfg h1).valid k = some tok) (hdel : (outAt cfg h1 e1 (.complete tok (.err x))).ret = .bool true)
    (hok : HistOk cfg St.init (h1 ++ (e1, .complete tok (.err x)) :: h2)) (env : Env V)
    (hk : Kept cfg k (h1 ++ [(e1, .complete tok (.err x))]) h2) (w : Nat) (b : Beh V E)
    (ho : (Op.asyncGet k w b : Op K V E).ok cfg (stateAfter cfg (h1 ++ (e1, .complete tok (.err x)) :: h2))) :
    let out := outAt cfg (h1 ++ (e1, .complete tok (.err x)) :: h2) env (.asyncGet k w b)
    (∃ t, out.calls = [(k, t)]) ∨
    (out.calls = [] ∧ out.fired = [] ∧ ∃ t h3 e3 o3 h4, (ledgerAfter cfg (h1 ++ (e1, .complete tok (.err x)) :: h2)).valid k = some t ∧
      h2 = h3 ++ (e3, o3) :: h4 ∧ StartsAt cfg k t (h1 ++ (e1, .complete tok (.err x)) :: h3) e3 o3) := by
  have hcur := (kept_facts hk).1
  have h0 : ((ledgerAfter cfg h1).after cfg.eqv cfg.resolver e1.now (.complete tok (.err x)) (outAt cfg h1 e1 (.complete tok (.err x)))).cur k = none := by
    simp [Ledger.after, hdel, Ledger.finish, hv, value?]
  rw [ledgerAfter_snoc, h0, show h1 ++ [(e1, .complete tok (.err x))] ++ h2 = h1 ++ (e1, .complete tok (.err x)) :: h2 by simp] at hcur
  simp only
  obtain ⟨_, _, ⟨u, _, _, q⟩ | ⟨⟨q1, q2, t, q3⟩, _⟩ | ⟨q1, _⟩⟩ := (asyncGet_ok hc (good_any hc _ hok env) ho.2 ho.1 k w b).2
  · have := q.1; rw [hcur] at this; cases this
  · right
    obtain ⟨h3, e3, o3, h4, p1, p2⟩ := start_after (show ChangesAt cfg k h1 e1 (.complete tok (.err x)) from ⟨hv, hdel⟩) (fun h => h) q3
    exact ⟨q2, q1, t, h3, e3, o3, h4, q3, p1, p2⟩
  · exact .inl ⟨_, q1⟩

def asyncC : Cfg Nat := { plain with resolver := .async }

/-- Two waiters of a failed lookup get the error; the next `get` starts a new lookup. -/
example : HistOk asyncC St.init ([(at_ 0, .asyncGet 1 10 .later), (at_ 1, .asyncGet 1 11 .later)] : Hist Nat Nat Nat) ∧
    (ledgerAfter asyncC ([(at_ 0, .asyncGet 1 10 .later), (at_ 1, .asyncGet 1 11 .later)] : Hist Nat Nat Nat)).valid 1 = some 0 ∧
    (outAt asyncC ([(at_ 0, .asyncGet 1 10 .later), (at_ 1, .asyncGet 1 11 .later)] : Hist Nat Nat Nat) (at_ 2) (.complete 0 (.err 5)))
      = { ret := .bool true, fired := [(10, .err 5), (11, .err 5)] } ∧
    (outAt asyncC ([(at_ 0, .asyncGet 1 10 .later), (at_ 1, .asyncGet 1 11 .later), (at_ 2, .complete 0 (.err 5))] : Hist Nat Nat Nat) (at_ 3)
      (.asyncGet 1 12 .later)) = { calls := [(1, 1)] } := by decide

/-- A throwing resolver, and the next `get` asking again. -/
example : (outAt memo ([(at_ 0, .get 1 (.err 3))] : Hist Nat Nat Nat) (at_ 0) (.get 1 (.ok 8))) = { ret := .val 8, calls := [(1, 1)] } := by decide

/-! ### Applied -/

example := C17_resolver_called_exactly_on_miss (cfg := memo) (nat_ok rfl (by intro d i h; cases h)) rfl ([(at_ 0, .get 1 (.ok 7))] : Hist Nat Nat Nat) (by decide) (at_ 4) 1 (.ok 8) (by decide)
example := C17_second_get_does_not_ask (cfg := memo) (nat_ok rfl (by intro d i h; cases h)) rfl ([(at_ 0, .get 5 (.ok 3))] : Hist Nat Nat Nat) [(at_ 2, .get 2 (.err 3)), (at_ 3, .erase 5)] (at_ 1) 1 1 rfl 7 (.ok 8) (by decide) (at_ 5)
  (by exact mono_at [0, 1, 2, 3, 5] (by decide)) (by decide) (by decide) (by decide) (by decide) (by
    rintro (h | h | ⟨h, _⟩)
    · exact absurd h (by decide)
    · exact absurd h (by decide)
    · cases h)
example := C18_error_only_from_own_call (cfg := memo) (nat_ok rfl (by intro d i h; cases h)) ([(at_ 0, .get 1 (.ok 7))] : Hist Nat Nat Nat) (by decide) (at_ 5) 1 (.err 3) 3 (by decide) (by decide)
example := C18_error_reaches_only_its_lookup (cfg := asyncC) (nat_ok rfl (by intro d i h; cases h)) ([(at_ 0, .asyncGet 1 10 .later), (at_ 1, .asyncGet 1 11 .later)] : Hist Nat Nat Nat) (by decide) (at_ 2)
  (.complete 0 (.err 5)) (by decide) 11 5 (by decide)
example := C18_error_reaches_only_its_lookup (cfg := asyncC) (nat_ok rfl (by intro d i h; cases h)) ([(at_ 0, .asyncGet 1 10 .later)] : Hist Nat Nat Nat) (by decide) (at_ 2)
  (.asyncGet 2 12 (.now (.err 6))) (by decide) 12 6 (by decide)
example := C18_next_get_asks_again (cfg := memo) (nat_ok rfl (by intro d i h; cases h)) rfl ([(at_ 0, .get 5 (.ok 3))] : Hist Nat Nat Nat) [(at_ 1, .get 2 (.ok 3))] (at_ 1) 1 1 rfl 3 (.ok 8) (by decide) (at_ 2)
  (by decide) (by decide) (by decide)
example := C18_next_async_get_asks_again (cfg := asyncC) (nat_ok rfl (by intro d i h; cases h)) ([(at_ 0, .asyncGet 1 10 .later), (at_ 1, .asyncGet 1 11 .later)] : Hist Nat Nat Nat) [(at_ 2, .asyncGet 2 12 .later)] (at_ 2) 1 0 5
  (by decide) (by decide) (by decide) (at_ 3) (by decide) 13 .later (by decide)

end Hoard.Props
