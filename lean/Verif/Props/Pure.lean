import Verif.PureLemmas
import Verif.Props.Async
import Verif.Props.Resolver
import Verif.Props.Values
/-! # A resolver that computes a function

The vocabulary is in `Verif/Spec/Pure.lean`. -/
namespace Hoard.Props
open Hoard Spec Demo
variable {K V E : Type} {cfg : Cfg K}

/-! ## C91 -/

/-- C91: when the resolver computes a function `f` (that does not tell equal keys apart), and nobody stores other values than those of `f`,
every value returned by `get`, `get_if_exists` and `get_or_emplace` is the value of `f` at the key asked for.
For all limits on size and age, refreshing, weak and strong storage, clocks and histories. -/
theorem C91_values_are_those_of_the_function (hc : cfg.Ok) (f : K → Res V E) (hf : ∀ a b, cfg.eqv a b = true → f a = f b)
    (h : Hist K V E) (hok : HistOk cfg St.init h) (hp : Computes f cfg h) (env : Env V) (o : Op K V E)
    (ho : o.ok cfg (stateAfter cfg h)) (hpo : ComputesAt f cfg h env o) (k : K) (hk : Asks k o) (v : V)
    (hv : (outAt cfg h env o).ret = .val v) : f k = .ok v := by
  have g := good_any hc h hok env
  cases o with
  | getIfExists k' =>
    have hv : (getIfExists cfg env (stateAfter cfg h) k').ret = .val v := hv
    cases (show k' = k from hk)
    rcases (getIfExists_ok hc g k).2 with ⟨u, hu, hl⟩ | ⟨hm, _⟩
    · rw [show (getIfExists cfg env (stateAfter cfg h) k).ret = _ from hu] at hv
      cases hv
      exact cur_computes hc hf hok hp hl.1
    · rw [show (getIfExists cfg env (stateAfter cfg h) k).ret = _ from hm] at hv; cases hv
  | get k' r =>
    have hv : (get cfg env (stateAfter cfg h) k' r).2.ret = .val v := hv
    have hpo : ∀ p ∈ (get cfg env (stateAfter cfg h) k' r).2.calls, r = f p.1 := hpo
    cases (show k' = k from hk)
    rcases (get_ok hc g ho.2 ho.1 k r).2 with ⟨u, q1, hl, _⟩ | ⟨⟨q1, _⟩ | ⟨q1, q2, _⟩, _⟩
    · rw [show (get cfg env (stateAfter cfg h) k r).2.ret = _ from q1] at hv
      cases hv
      exact cur_computes hc hf hok hp hl.1
    · rw [show (get cfg env (stateAfter cfg h) k r).2.ret = _ from q1] at hv; cases hv
    · rw [show (get cfg env (stateAfter cfg h) k r).2.ret = _ from q1] at hv
      have hr := hpo (k, _) (by rw [show (get cfg env (stateAfter cfg h) k r).2.calls = _ from q2]; exact List.mem_singleton.2 rfl)
      rw [← hr]
      cases r with
      | ok u => cases hv; rfl
      | err x => cases hv
  | getOrEmplace k' v' e =>
    have hv : (getOrEmplace cfg env (stateAfter cfg h) k' v' e).2.ret = .val v := hv
    cases (show k' = k from hk)
    rcases (getOrEmplace_ok hc g ho k v' e (fun h => h.elim)).2 with ⟨u, q1, hl, _⟩ | ⟨q1, _⟩ | ⟨⟨_, q1⟩, _⟩
    · rw [show (getOrEmplace cfg env (stateAfter cfg h) k v' e).2.ret = _ from q1] at hv
      cases hv
      exact cur_computes hc hf hok hp hl.1
    · rw [show (getOrEmplace cfg env (stateAfter cfg h) k v' e).2.ret = _ from q1] at hv; cases hv
    · rw [show (getOrEmplace cfg env (stateAfter cfg h) k v' e).2.ret = _ from q1] at hv
      cases hv
      exact hpo
  | asyncGet k' w b =>
    have hv : (asyncGet cfg env (stateAfter cfg h) k' w b).2.ret = .val v := hv
    rw [show (asyncGet cfg env (stateAfter cfg h) k' w b).2.ret = _ from (asyncGet_ok hc g ho.2 ho.1 k' w b).2.1] at hv
    cases hv
  | emplace => cases hk
  | erase => cases hk
  | clear => cases hk
  | count => cases hk
  | complete => cases hk
  | drop => cases hk
  | tick => cases hk
  | destroy => cases hk

/-- C91, synchronous resolver: then `get` is the function: it returns the value of `f` at the key, or throws the error of `f` at the key,
whatever is stored, was evicted, has died or was refreshed. -/
theorem C91_get_is_the_function (hc : cfg.Ok) (hr : cfg.resolver = .sync) (f : K → Res V E) (hf : ∀ a b, cfg.eqv a b = true → f a = f b)
    (h : Hist K V E) (hok : HistOk cfg St.init h) (hp : Computes f cfg h) (env : Env V) (k : K) (r : Res V E)
    (ho : (stateAfter cfg h).destroyed = false) (hpo : ComputesAt f cfg h env (.get k r)) :
    (outAt cfg h env (.get k r)).ret = resRet (f k) := by
  have hpo : ∀ p ∈ (get cfg env (stateAfter cfg h) k r).2.calls, r = f p.1 := hpo
  show (get cfg env (stateAfter cfg h) k r).2.ret = _
  rcases (get_ok hc (good_any hc h hok env) ho (by rw [hr]; decide) k r).2 with ⟨u, q1, hl, _⟩ | ⟨⟨_, _, q⟩ | ⟨q1, q2, _⟩, _⟩
  · rw [show (get cfg env (stateAfter cfg h) k r).2.ret = _ from q1, cur_computes hc hf hok hp hl.1]; rfl
  · rw [hr] at q; cases q
  · rw [show (get cfg env (stateAfter cfg h) k r).2.ret = _ from q1,
      hpo (k, _) (by rw [show (get cfg env (stateAfter cfg h) k r).2.calls = _ from q2]; exact List.mem_singleton.2 rfl)]

/-- C91: what the calls of `get` return in a whole history depends on the keys and on `f` only: neither the limits on size and age, nor the clocks,
nor the operations in between, nor the cache itself can be seen. -/
theorem C91_the_cache_is_invisible (hc : cfg.Ok) (hr : cfg.resolver = .sync) (f : K → Res V E) (hf : ∀ a b, cfg.eqv a b = true → f a = f b)
    (h : Hist K V E) (hok : HistOk cfg St.init h) (hp : Computes f cfg h) :
    getRets h (outsOf cfg h) = (getKeys h).map (fun k => resRet (f k)) := by
  have key : ∀ h1 h2, h = h1 ++ h2 → getRets h2 (run cfg (stateAfter cfg h1) h2).2 = (getKeys h2).map (fun k => resRet (f k)) := by
    intro h1 h2
    induction h2 generalizing h1 with
    | nil => intro _; rfl
    | cons p h2 ih =>
      intro hh
      obtain ⟨e, o⟩ := p
      have ih := ih (h1 ++ [(e, o)]) (by rw [hh, List.append_assoc]; rfl)
      rw [stateAfter_snoc] at ih
      obtain ⟨ok1, oo⟩ := histOk_at hh hok
      cases o with
      | get k r =>
        have := C91_get_is_the_function hc hr f hf h1 ok1 (fun a env o b hab => hp a env o (b ++ (e, .get k r) :: h2) (by rw [hh, hab]; simp)) e k r oo.2 (hp _ _ _ _ hh)
        simp only [run, getRets, getKeys, List.map_cons, ih]
        exact congrArg (· :: _) this
      | _ => simpa only [run, getRets, getKeys] using ih
  exact key [] h rfl

/-- C91, asynchronous resolver: every callback that is invoked gets the value or the error of `f` at the key of its own `get`. -/
theorem C91_callbacks_get_the_function (hc : cfg.Ok) (f : K → Res V E) (hf : ∀ a b, cfg.eqv a b = true → f a = f b)
    (h : Hist K V E) (hok : HistOk cfg St.init h) (hp : Computes f cfg h) (env : Env V) (o : Op K V E)
    (ho : o.ok cfg (stateAfter cfg h)) (hpo : ComputesAt f cfg h env o) (hN : (asked (h ++ [(env, o)])).Nodup)
    (w : Nat) (r : Res V E) (hw : (w, r) ∈ (outAt cfg h env o).fired) (k : K) (hk : AskedFor w k (h ++ [(env, o)])) : r = f k := by
  rcases C21_answered_by_own_lookup hc h hok env o ho w r hw with ⟨k', b, rfl⟩ | ⟨tok, rfl, h1, e1, o1, h2, hh, hreg⟩
  · have := askedFor_unique hN hk ⟨env, b, List.mem_append_right _ (List.mem_singleton.2 rfl)⟩
    subst this
    have hw : (w, r) ∈ (asyncGet cfg env (stateAfter cfg h) k w b).2.fired := hw
    have hpo : ∀ p ∈ (asyncGet cfg env (stateAfter cfg h) k w b).2.calls, ∀ r, b = .now r → r = f p.1 := hpo
    obtain ⟨_, _, ⟨u, q1, _, hl⟩ | ⟨⟨q1, _⟩, _⟩ | ⟨q1, _, _, q4⟩⟩ := (asyncGet_ok hc (good_any hc h hok env) ho.2 ho.1 k w b).2
    · rw [show (asyncGet cfg env (stateAfter cfg h) k w b).2.fired = _ from q1] at hw
      cases List.mem_singleton.1 hw
      exact (cur_computes hc hf hok hp hl.1).symm
    · rw [show (asyncGet cfg env (stateAfter cfg h) k w b).2.fired = _ from q1] at hw; cases hw
    · rw [show (asyncGet cfg env (stateAfter cfg h) k w b).2.fired = _ from q4] at hw
      cases b with
      | now r' =>
        cases List.mem_singleton.1 hw
        exact hpo (k, _) (by rw [show (asyncGet cfg env (stateAfter cfg h) k w (.now r)).2.calls = _ from q1]; exact List.mem_singleton.2 rfl) r rfl
      | later => cases hw
      | drop => cases hw
  · obtain ⟨k', b, rfl, _, hcase⟩ := hreg
    obtain ⟨ok1, _⟩ := histOk_at hh hok
    have hmem : (e1, Op.asyncGet k' w b) ∈ h := by rw [hh]; exact List.mem_append_right _ (List.mem_cons_self ..)
    have := askedFor_unique hN hk ⟨e1, b, List.mem_append_left _ hmem⟩
    subst this
    rcases hcase with hcall | ⟨_, hv⟩
    · exact hpo _ (outAt_mem hh) (k, tok) (by rw [hcall]; exact List.mem_singleton.2 rfl) rfl
    · obtain ⟨out, ho1, p, hpc, ht, he⟩ := valid_computes hc ok1 hv
      rw [hf _ _ he]
      refine hpo out ?_ p hpc ht
      rw [hh, outsOf_append]
      exact List.mem_append_left _ ho1

/-- C91: without limits, refreshing and age, the resolver is called once for every key that has a value, and every time for the keys for which
it fails.  What `get` returns is `f`, as always. -/
theorem C91_each_value_is_computed_once (hc : cfg.Ok) (hs : cfg.maxSize = none) (ha : cfg.maxAge = none) (hfr : cfg.refresh = none)
    (hr : cfg.resolver = .sync) (f : K → Res V E) (hf : ∀ a b, cfg.eqv a b = true → f a = f b) (ks : List (Env V × K)) :
    (outsOf cfg (getAll f ks)).map (·.ret) = ks.map (fun p => resRet (f p.2)) ∧
    (outsOf cfg (getAll f ks)).map (fun out => out.calls.map (·.1)) = callsFor cfg.eqv f [] (ks.map (·.2)) := by
  constructor
  · rw [← getAll_rets f ks _ (by simp [outsOf, run_len, getAll]),
      C91_the_cache_is_invisible hc hr f hf _ (getAll_ok hr f ks) (getAll_computes hc hr f ks), getAll_keys, List.map_map]
    rfl
  · have key : ∀ l l', (run cfg (stateAfter cfg (getAll f l)) (getAll f l')).2.map (fun out => out.calls.map (·.1)) =
        callsFor cfg.eqv f (l.map (·.2)) (l'.map (·.2)) := by
      intro l l'
      induction l' generalizing l with
      | nil => rfl
      | cons p l' ih =>
        obtain ⟨e, k⟩ := p
        have ih := ih (l ++ [(e, k)])
        rw [getAll_snoc, stateAfter_snoc] at ih
        rw [show getAll f ((e, k) :: l') = (e, .get k (f k)) :: getAll f l' from rfl]
        simp only [run, List.map_cons, callsFor, ih, List.map_append, List.map_nil]
        congr 1
        have hpeek : (outAt cfg (getAll f l) e (.getIfExists k)).ret = found (if (l.map (·.2)).any (fun a => cfg.eqv k a) then value? (f k) else none) := by
          obtain ⟨os, hos⟩ : ∃ os : List (Env V × MapOp K V E), os = l.map (fun p => (p.1, .get p.2 (f p.2))) ++ [(e, .getIfExists k)] := ⟨_, rfl⟩
          have hm := C02_unlimited_cache_is_a_memo_table hc hs ha hfr hr os
          have e1 : os.map (fun p => (p.1, p.2.toOp)) = getAll f l ++ [(e, (.getIfExists k : Op K V E))] := by simp [hos, getAll, MapOp.toOp]
          have e2 : os.map (·.2) = (l.map (·.2)).map (fun a => (.get a (f a) : MapOp K V E)) ++ [.getIfExists k] := by simp [hos]
          rw [e1, e2, mapRun_snoc, show (run cfg St.init (getAll f l ++ [(e, (.getIfExists k : Op K V E))])).2 = outsOf cfg _ from rfl, outsOf_snoc,
            List.map_append] at hm
          have := (List.append_inj' hm rfl).2
          simp only [List.map_cons, List.map_nil, List.cons.injEq, and_true] at this
          rw [this, ← mapEnd_gets hc hf]
          rfl
        obtain ⟨c1, c2, _⟩ := C17_resolver_called_exactly_on_miss hc hr (getAll f l) (getAll_ok hr f l) e k (f k) (getAll_open f l)
        rw [hpeek] at c1 c2
        show (outAt cfg (getAll f l) e (.get k (f k))).calls.map (·.1) = _
        cases hfk : f k with
        | ok v =>
          rw [hfk] at c1 c2
          cases hany : (l.map (·.2)).any (fun a => cfg.eqv k a) with
          | true =>
            rw [hany] at c1
            rw [(c1 v rfl).1]; rfl
          | false =>
            rw [hany] at c2
            obtain ⟨⟨t, ht⟩, _⟩ := c2 rfl
            rw [ht]; rfl
        | err x =>
          rw [hfk] at c2
          obtain ⟨⟨t, ht⟩, _⟩ := c2 (by simp [value?, found])
          rw [ht]; rfl
    exact key [] ks

/-! A cache of at most three values, none older than 5, refreshed every 2, that computes squares and fails for the multiples of 3. -/

/-- The function: the square, and an error for the multiples of 3. -/
def sq (k : Nat) : Res Nat Nat := if k % 3 = 0 then .err k else .ok (k * k)

/-- The cache with a synchronous resolver. -/
def sqSync : Cfg Nat := { plain with resolver := .sync, maxSize := some 3, maxAge := some 5, refresh := some (2, 0) }

/-- The cache with an asynchronous resolver. -/
def sqAsync : Cfg Nat := { sqSync with resolver := .async }

/-- Five keys in a cache of three, with refreshes and removals. -/
def sqHist : Hist Nat Nat Nat :=
  [(at_ 0, .get 1 (sq 1)), (at_ 0, .get 3 (sq 3)), (at_ 0, .get 5 (sq 5)), (at_ 1, .emplace 2 4 .none), (at_ 2, .tick (sq 1) .later), (at_ 3, .tick (sq 5) .later),
   (at_ 3, .get 4 (sq 4)), (at_ 4, .erase 5), (at_ 4, .get 5 (sq 5)), (at_ 4, .get 1 (sq 1)), (at_ 5, .get 3 (sq 3)), (at_ 9, .get 5 (sq 5))]

/-- Asynchronous lookups of four keys, one answered at once, two later. -/
def sqHistA : Hist Nat Nat Nat :=
  [(at_ 0, .asyncGet 1 10 .later), (at_ 0, .asyncGet 3 11 .later), (at_ 0, .asyncGet 1 12 .later), (at_ 1, .asyncGet 2 13 (.now (sq 2))),
   (at_ 1, .complete 1 (sq 3)), (at_ 2, .complete 0 (sq 1)), (at_ 3, .asyncGet 3 14 .later), (at_ 4, .asyncGet 1 15 .later)]

example : HistOk sqSync St.init sqHist ∧ ComputesFrom sq sqSync [] sqHist ∧ getKeys sqHist = [1, 3, 5, 4, 5, 1, 3, 5] ∧
    (outsOf sqSync sqHist).map (·.calls.map (·.1)) = [[1], [3], [5], [], [1], [5], [4], [], [5], [], [3], [5]] ∧
    getRets sqHist (outsOf sqSync sqHist) = [.val 1, .err 3, .val 25, .val 16, .val 25, .val 1, .err 3, .val 25] := by decide +kernel
example := C91_the_cache_is_invisible (cfg := sqSync) (nat_ok rfl (by intro d i h; cases h; decide)) rfl sq (by intro a b h; simp [sqSync, plain] at h; rw [h])
  sqHist (by decide +kernel) (computes_of _ _ _ (by decide +kernel))
example := C91_get_is_the_function (cfg := sqSync) (nat_ok rfl (by intro d i h; cases h; decide)) rfl sq (by intro a b h; simp [sqSync, plain] at h; rw [h])
  sqHist (by decide +kernel) (computes_of _ _ _ (by decide +kernel)) (at_ 10) 5 (.err 0) (by decide +kernel) (by decide +kernel)
example := C91_values_are_those_of_the_function (cfg := sqSync) (nat_ok rfl (by intro d i h; cases h; decide)) sq (by intro a b h; simp [sqSync, plain] at h; rw [h])
  sqHist (by decide +kernel) (computes_of _ _ _ (by decide +kernel)) (at_ 10) (.getOrEmplace 5 25 .none) (by decide +kernel) (by decide +kernel) 5 rfl 25 (by decide +kernel)
example : HistOk sqAsync St.init sqHistA ∧ ComputesFrom sq sqAsync [] sqHistA ∧
    (outsOf sqAsync sqHistA).map (·.fired) = [[], [], [], [(13, .ok 4)], [(11, .err 3)], [(10, .ok 1), (12, .ok 1)], [], [(15, .ok 1)]] := by decide +kernel
example := C91_callbacks_get_the_function (cfg := sqAsync) (nat_ok rfl (by intro d i h; cases h; decide)) sq (by intro a b h; simp [sqAsync, sqSync, plain] at h; rw [h])
  (sqHistA.take 5) (by decide +kernel) (computes_of _ _ _ (by decide +kernel)) (at_ 2) (.complete 0 (sq 1)) trivial (by decide +kernel) (by decide +kernel) 12 (.ok 1) (by decide +kernel)
  1 ⟨at_ 0, .later, by simp [sqHistA]⟩

example := C91_each_value_is_computed_once (cfg := { plain with resolver := .sync }) (nat_ok rfl (by intro d i h; cases h)) rfl rfl rfl rfl sq
  (by intro a b h; simp [plain] at h; rw [h]) [(at_ 0, 1), (at_ 1, 3), (at_ 2, 5), (at_ 3, 1), (at_ 4, 3)]
example : callsFor plain.eqv sq [] [1, 3, 5, 1, 3] = [[1], [3], [5], [], [3]] := by decide

end Hoard.Props
