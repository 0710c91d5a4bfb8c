import Verif.ValueLemmas
/-!
# Which values lookups return

The vocabulary is in `Verif/Spec/Ledger.lean`, `Verif/Spec/Reach.lean` and
`Verif/Spec/MapSpec.lean`.  A history `h : Hist` is a list of operations with the
clock reading (and the set of objects still alive) at each of them; `stateAfter`
is the cache after it, `outAt cfg h env o` what the operation `o` does after it.
-/
namespace Hoard.Props
open Hoard Spec Demo
variable {K V E : Type} {cfg : Cfg K}

/-! ## C01 -/

/-- C01.  A value returned from the store by any lookup was written to (a key equal to) `k`
by some earlier operation, and since then nothing was written to `k`, `k` was
not erased and the cache was not cleared.  For all policies, clocks, hash
functions and histories. -/
theorem C01_stored_answer_is_last_write (hc : cfg.Ok) (h : Hist K V E) (hok : HistOk cfg St.init h) (env : Env V) (o : Op K V E)
    (ho : o.ok cfg (stateAfter cfg h)) (k : K) (v : V) (ha : StoredAnswer cfg k v h env o) :
    ∃ h1 e1 o1 h2, h = h1 ++ (e1, o1) :: h2 ∧ WritesAt cfg k v h1 e1 o1 ∧ Kept cfg k (h1 ++ [(e1, o1)]) h2 := by
  have hv := stored_valid hc (good_any hc h hok env) (fun h => h) ho ha.1 ha.2.1 ha.2.2
  exact last_write h hv.1

/-- C01, second half: when the write is the completion of a lookup, that lookup
was started for an equal key, and nothing was written to the key nor removed
between the start and the completion. -/
theorem C01_completed_lookup_was_for_this_key (h : Hist K V E) (env : Env V) (k : K) (v : V) (tok : Nat) (r : Res V E)
    (hw : WritesAt cfg k v h env (.complete tok r)) :
    r = .ok v ∧ ∃ h1 e1 o1 h2, h = h1 ++ (e1, o1) :: h2 ∧ StartsAt cfg k tok h1 e1 o1 ∧ Kept cfg k (h1 ++ [(e1, o1)]) h2 := by
  obtain ⟨h1, h2, h3⟩ := hw
  obtain ⟨a, e1, o1, b, h4, h5, h6, _⟩ := lookup_origin h h1
  exact ⟨h3, a, e1, o1, b, h4, h5, h6⟩

/-- A lookup in flight, another key written meanwhile, then the result arrives. -/
example := C01_completed_lookup_was_for_this_key (cfg := { plain with resolver := .async })
  ([(at_ 0, .asyncGet 3 7 .later), (at_ 1, .emplace 7 50 .none)] : Hist Nat Nat Nat) (at_ 2) 3 30 0 (.ok 30) (by decide)

/-- A cache with everything: colliding keys, a size limit, an age limit, a resolver. -/
def full : Cfg Nat :=
  { hash := fun k => k % 2, eqv := fun a b => a == b, maxSize := some 4, maxAge := some 10, resolver := .async }

def fullHist : Hist Nat Nat Nat :=
  [(at_ 0, .emplace 1 10 .none), (at_ 1, .asyncGet 3 7 .later), (at_ 2, .emplace 5 50 .none),
   (at_ 3, .complete 1 (.ok 30)), (at_ 4, .emplace 1 11 .none)]

/-- The hypotheses are met: 3 gets the result of the lookup, 1 its last value. -/
example : full.Ok ∧ HistOk full St.init fullHist ∧
    StoredAnswer full 3 30 fullHist (at_ 5) (.asyncGet 3 8 .later) ∧ StoredAnswer full 1 11 fullHist (at_ 5) (.getIfExists 1) := by
  refine ⟨nat_ok rfl (by intro d i h; cases h), by decide, ?_, ?_⟩ <;> exact ⟨by decide, by decide, by decide⟩

/-! ## C02 -/

/-- C02.  Without size limit, age limit, refresh and resolver, every sequence of
calls returns exactly what a plain map would return.  For every hash function
compatible with equality, every load factor behaviour, and every clock. -/
theorem C02_unlimited_cache_is_a_map (hc : cfg.Ok) (hs : cfg.maxSize = none) (ha : cfg.maxAge = none) (hr : cfg.refresh = none)
    (hk : cfg.resolver = .none) (os : List (Env V × MapOp K V E)) :
    (run cfg St.init (os.map (fun p => (p.1, p.2.toOp)))).2.map (·.ret) = mapRun cfg.eqv false (fun _ => none) (os.map (·.2)) := by
  cases os with
  | nil => rfl
  | cons p os =>
    have := sim_run hc hs ha hr (by rw [hk]; simp) (p :: os) (env := p.1) (m := fun _ => none) (L := {}) ⟨good_init .., rfl, fun _ => rfl, rfl⟩
    rw [this, hk]; rfl

/-- The same with a synchronous resolver: the cache is a memo table. -/
theorem C02_unlimited_cache_is_a_memo_table (hc : cfg.Ok) (hs : cfg.maxSize = none) (ha : cfg.maxAge = none) (hr : cfg.refresh = none)
    (hk : cfg.resolver = .sync) (os : List (Env V × MapOp K V E)) :
    (run cfg St.init (os.map (fun p => (p.1, p.2.toOp)))).2.map (·.ret) = mapRun cfg.eqv true (fun _ => none) (os.map (·.2)) := by
  cases os with
  | nil => rfl
  | cons p os =>
    have := sim_run hc hs ha hr (by rw [hk]; simp) (p :: os) (env := p.1) (m := fun _ => none) (L := {}) ⟨good_init .., rfl, fun _ => rfl, rfl⟩
    rw [this, hk]; rfl

/-- A run with colliding keys and growth of the table, as the map sees it. -/
example : plain.Ok ∧ mapRun plain.eqv false (fun _ => none)
    ([.emplace 0 1, .emplace 4 2, .emplace 8 3, .emplace 1 4, .emplace 5 5, .erase 4, .get 0 (.ok 9), .get 4 (.ok 9),
      .getOrEmplace 4 7, .getIfExists 4] : List (MapOp Nat Nat Nat)) =
    [.unit, .unit, .unit, .unit, .unit, .unit, .val 1, .miss, .val 7, .val 7] :=
  ⟨nat_ok rfl (by intro d i h; cases h), by decide⟩

/-! ## C03 -/

/-- Is the operation a `get_if_exists`? -/
def isPeek : Op K V E → Bool
  | .getIfExists _ => true
  | _ => false

/-- C03.  Removing all calls of `get_if_exists` from a history changes neither the
results of the other operations nor the state reached. -/
theorem C03_get_if_exists_has_no_effect (cfg : Cfg K) (s : St K V E) (h : Hist K V E) :
    (run cfg s (h.filter (fun p => !isPeek p.2))).1 = (run cfg s h).1 ∧
    (run cfg s (h.filter (fun p => !isPeek p.2))).2 = ((h.zip (run cfg s h).2).filter (fun p => !isPeek p.1.2)).map (·.2) := by
  induction h generalizing s with
  | nil => exact ⟨rfl, rfl⟩
  | cons p h ih =>
    obtain ⟨e, o⟩ := p
    cases hp : isPeek o
    · have := ih (step cfg e s o).1
      simp only [List.filter_cons, hp, Bool.not_false, if_true, run, List.zip_cons_cons, List.map_cons, this, and_self]
    · have hs : (step cfg e s o).1 = s := by cases o <;> first | rfl | cases hp
      have := ih s
      simp only [List.filter_cons, hp, Bool.not_true, Bool.false_eq_true, if_false, run, List.zip_cons_cons, hs, this, and_self]

/-- C03, and what `get_if_exists` says is what the other lookups would say: in every
reachable state, `get_if_exists` returns a value exactly when `get` (without
asynchronous resolver) or `get_or_emplace` would return the same stored value. -/
theorem C03_get_if_exists_agrees_with_get (hc : cfg.Ok) (h : Hist K V E) (hok : HistOk cfg St.init h) (env : Env V) (k : K) (v u : V) (r : Res V E) :
    ((outAt cfg h env (.getIfExists k)).ret = .val v ↔
      (outAt cfg h env (.getOrEmplace k u .none)).ret = .val v ∧ (outAt cfg h env (.getOrEmplace k u .none)).made = false) ∧
    (cfg.resolver ≠ .async → ((outAt cfg h env (.getIfExists k)).ret = .val v ↔
      (outAt cfg h env (.get k r)).ret = .val v ∧ (outAt cfg h env (.get k r)).calls = [])) := by
  have g := good_any hc h hok env
  constructor
  · rw [show (outAt cfg h env (.getIfExists k)).ret = (getIfExists cfg env (stateAfter cfg h) k).ret from rfl,
      ← get__peek hc g.wf1 g.wf2 env k true v]
    simp only [outAt, step, getOrEmplace]
    generalize hgg : get_ cfg env (stateAfter cfg h) k true = gg
    obtain ⟨s1, l⟩ := gg
    cases l <;> simp
    simp [tryLink]
  · intro hr
    rw [show (outAt cfg h env (.getIfExists k)).ret = (getIfExists cfg env (stateAfter cfg h) k).ret from rfl,
      ← get__peek hc g.wf1 g.wf2 env k false v]
    have hcases := (get__ok hc g k false (.inr hr)).2.2
    simp only [outAt, step, get]
    generalize hgg : get_ cfg env (stateAfter cfg h) k false = gg at hcases
    obtain ⟨s1, l⟩ := gg
    simp only at hcases
    rcases hcases with ⟨u, rfl, _⟩ | ⟨_, hf, _⟩ | ⟨rfl, _⟩
    · cases cfg.resolver <;> simp [syncRet]
    · cases hf
    · cases cfg.resolver <;> simp

/-- A reachable state where both sides hold. -/
example : HistOk full St.init fullHist ∧ (outAt full fullHist (at_ 5) (.getIfExists 3)).ret = .val 30 := by decide

/-! ## C05 -/

/-- C05, first half.  After `erase(k)` every value that a lookup of a key equal to
`k` returns from the store was written after the erase. -/
theorem C05_erase_removes (hc : cfg.Ok) (h1 h2 : Hist K V E) (e1 : Env V) (k a : K) (hka : cfg.eqv a k = true)
    (hok : HistOk cfg St.init (h1 ++ (e1, .erase k) :: h2)) (env : Env V) (o : Op K V E)
    (ho : o.ok cfg (stateAfter cfg (h1 ++ (e1, .erase k) :: h2))) (v : V) (ha : StoredAnswer cfg a v (h1 ++ (e1, .erase k) :: h2) env o) :
    ∃ h3 e3 o3 h4, h2 = h3 ++ (e3, o3) :: h4 ∧ WritesAt cfg a v (h1 ++ (e1, .erase k) :: h3) e3 o3 := by
  have hv := stored_valid hc (good_any hc _ hok env) (fun h => h) ho ha.1 ha.2.1 ha.2.2
  exact write_after (show ChangesAt cfg a h1 e1 (.erase k) from hka) (fun h => h) hv.1

/-- C05: and if that write is the completion of a lookup, the lookup was started
after the erase. -/
theorem C05_late_completion_stays_out (h1 h2 : Hist K V E) (e1 : Env V) (k a : K) (hka : cfg.eqv a k = true)
    (env : Env V) (v : V) (tok : Nat) (r : Res V E) (hw : WritesAt cfg a v (h1 ++ (e1, .erase k) :: h2) env (.complete tok r)) :
    ∃ h3 e3 o3 h4, h2 = h3 ++ (e3, o3) :: h4 ∧ StartsAt cfg a tok (h1 ++ (e1, .erase k) :: h3) e3 o3 :=
  start_after (show ChangesAt cfg a h1 e1 (.erase k) from hka) (fun h => h) hw.1

/-- A key is erased, looked up again and the new lookup delivers. -/
example := C05_late_completion_stays_out (cfg := { plain with resolver := .async })
  ([(at_ 0, .asyncGet 3 7 .later)] : Hist Nat Nat Nat) [(at_ 2, .asyncGet 3 8 .later)] (at_ 1) 3 3 rfl (at_ 3) 30 1 (.ok 30) (by decide)

/-- C05, second half.  In every reachable state of every cache, erasing `k` does not change the
answer for any other key, now or later. -/
theorem C05_erase_keeps_others (hc : cfg.Ok) (h : Hist K V E) (hok : HistOk cfg St.init h) (env env' : Env V) (hle : env.le env')
    (k a : K) (hka : cfg.eqv a k = false) :
    outAt cfg (h ++ [(env, .erase k)]) env' (.getIfExists a) = outAt cfg h env' (.getIfExists a) := by
  simp only [outAt, stateAfter_snoc, step]
  exact erase_others hc (good_any hc h hok env) hle hka

/-- Both halves apply to a state with colliding keys; the erased key is really gone. -/
example : HistOk full St.init fullHist ∧ full.eqv 3 1 = false ∧
    (outAt full (fullHist ++ [(at_ 5, .erase 1)]) (at_ 5) (.getIfExists 3)).ret = .val 30 ∧
    (outAt full (fullHist ++ [(at_ 5, .erase 1)]) (at_ 5) (.getIfExists 1)).ret = .miss := by decide

/-- C05: a history in which the first half says something: erased, then written again. -/
example : HistOk full St.init (fullHist ++ (at_ 5, .erase 1) :: [(at_ 6, .emplace 1 12 .none)]) ∧
    StoredAnswer full 1 12 (fullHist ++ (at_ 5, .erase 1) :: [(at_ 6, .emplace 1 12 .none)]) (at_ 7) (.getIfExists 1) := by
  exact ⟨by decide, by decide, by decide, by decide⟩

/-! ## C06 -/

/-- C06.  After `clear()`, every value returned from the store was written after
the clear. -/
theorem C06_clear_removes_everything (hc : cfg.Ok) (h1 h2 : Hist K V E) (e1 : Env V) (a : K)
    (hok : HistOk cfg St.init (h1 ++ (e1, .clear) :: h2)) (env : Env V) (o : Op K V E)
    (ho : o.ok cfg (stateAfter cfg (h1 ++ (e1, .clear) :: h2))) (v : V) (ha : StoredAnswer cfg a v (h1 ++ (e1, .clear) :: h2) env o) :
    ∃ h3 e3 o3 h4, h2 = h3 ++ (e3, o3) :: h4 ∧ WritesAt cfg a v (h1 ++ (e1, .clear) :: h3) e3 o3 := by
  have hv := stored_valid hc (good_any hc _ hok env) (fun h => h) ho ha.1 ha.2.1 ha.2.2
  exact write_after (show ChangesAt cfg a h1 e1 .clear from trivial) (fun h => h) hv.1

/-- A key is stored, removed with everything else, stored again and found. -/
example := C06_clear_removes_everything (cfg := plain) (nat_ok rfl (by intro d i h; cases h)) ([(at_ 0, .emplace 3 1 .none)] : Hist Nat Nat Nat)
  [(at_ 2, .emplace 7 2 .none), (at_ 2, .emplace 3 5 .none)] (at_ 1) 3 (by decide) (at_ 3) (.getIfExists 3) (by decide) 5 (by decide)

/-- C06: a lookup that was in flight at the clear does not write. -/
theorem C06_late_completion_stays_out (h1 h2 : Hist K V E) (e1 : Env V) (a : K)
    (env : Env V) (v : V) (tok : Nat) (r : Res V E) (hw : WritesAt cfg a v (h1 ++ (e1, .clear) :: h2) env (.complete tok r)) :
    ∃ h3 e3 o3 h4, h2 = h3 ++ (e3, o3) :: h4 ∧ StartsAt cfg a tok (h1 ++ (e1, .clear) :: h3) e3 o3 :=
  start_after (show ChangesAt cfg a h1 e1 .clear from trivial) (fun h => h) hw.1

/-- Everything is removed, and a lookup started afterwards delivers. -/
example := C06_late_completion_stays_out (cfg := { plain with resolver := .async })
  ([(at_ 0, .asyncGet 3 7 .later)] : Hist Nat Nat Nat) [(at_ 2, .asyncGet 3 8 .later)] (at_ 1) 3 (at_ 3) 30 1 (.ok 30) (by decide)

/-- C06: right after the clear there is no live entry, at any time. -/
theorem C06_count_is_zero (cfg : Cfg K) (h : Hist K V E) (e1 env : Env V) :
    (outAt cfg (h ++ [(e1, .clear)]) env .count).ret = .num 0 := by
  simp only [outAt, stateAfter_snoc, step, count, clear_ents]
  congr 1
  rw [List.length_eq_zero_iff, List.filter_eq_nil_iff]
  intro e he
  obtain ⟨e0, h0, rfl⟩ := List.mem_map.1 he
  have hp := (List.mem_filter.1 h0).2
  cases hm : e0.mapped <;> simp_all [Entry.isPending, Mapped.isPending, Entry.upd, Mapped.markExpired, Entry.expired, Mapped.expired]

/-- A lookup in flight at the clear completes afterwards: waiters are told, nothing is stored. -/
example : HistOk full St.init ([(at_ 0, .asyncGet 3 7 .later), (at_ 1, .clear), (at_ 2, .complete 0 (.ok 5))] : Hist Nat Nat Nat) ∧
    (outAt full ([(at_ 0, .asyncGet 3 7 .later), (at_ 1, .clear)] : Hist Nat Nat Nat) (at_ 2) (.complete 0 (.ok 5))).fired = [(7, .ok 5)] ∧
    (outAt full ([(at_ 0, .asyncGet 3 7 .later), (at_ 1, .clear), (at_ 2, .complete 0 (.ok 5))] : Hist Nat Nat Nat) (at_ 3) (.getIfExists 3)).ret = .miss ∧
    (outAt full ([(at_ 0, .asyncGet 3 7 .later)] : Hist Nat Nat Nat) (at_ 1) .count).ret = .num 1 := by decide

/-! ## C07 -/

/-- C07.  In every reachable state, `get_or_emplace(k, v)` (when memory suffices):
* returns the stored value, and makes no new one, when a lookup would find one;
* otherwise either returns `v`, made from the arguments, or throws;
* it throws only if a lookup of `k` is in flight;
* and after it returns, `k` has the value returned. -/
theorem C07_get_or_emplace (hc : cfg.Ok) (h : Hist K V E) (hok : HistOk cfg St.init h) (env : Env V) (k : K) (v : V)
    (hup : (stateAfter cfg h).destroyed = false) :
    let out := outAt cfg h env (.getOrEmplace k v .none)
    (∀ u, (outAt cfg h env (.getIfExists k)).ret = .val u → out.ret = .val u ∧ out.made = false ∧
      (ledgerAfter cfg (h ++ [(env, .getOrEmplace k v .none)])).cur k = some u) ∧
    ((outAt cfg h env (.getIfExists k)).ret = .miss →
      (out.ret = .val v ∧ out.made = true ∧ (ledgerAfter cfg (h ++ [(env, .getOrEmplace k v .none)])).cur k = some v) ∨
      (out.ret = .throws ∧ out.made = false ∧ ∃ tok, (ledgerAfter cfg h).valid k = some tok)) := by
  have g := good_any hc h hok env
  have hagree := fun u => (C03_get_if_exists_agrees_with_get hc h hok env k u v (.ok v)).1
  simp only [ledgerAfter_snoc]
  rcases (getOrEmplace_ok hc g hup k v .none (fun h => h.elim)).2 with ⟨u, h1, h2, h3⟩ | ⟨h1, h2, h3⟩ | ⟨⟨h1, h2⟩, h3⟩
  · have hp := (hagree u).2 ⟨h1, h3⟩
    refine ⟨fun u' hu' => ?_, fun hm => by rw [hp] at hm; cases hm⟩
    rw [hp] at hu'; cases hu'
    refine ⟨h1, h3, ?_⟩
    have h1' : (outAt cfg h env (.getOrEmplace k v .none)).ret = .val u := h1
    have h3' : (outAt cfg h env (.getOrEmplace k v .none)).made = false := h3
    simp only [Ledger.after, h3', h1', Bool.false_eq_true, if_false]
    exact h2.1
  · refine ⟨fun u hu => ?_, fun _ => .inr ⟨h1, h2, (h3 rfl).1⟩⟩
    have := ((hagree u).1 hu).1
    rw [show (outAt cfg h env (.getOrEmplace k v .none)).ret = .throws from h1] at this; cases this
  · have h1' : (outAt cfg h env (.getOrEmplace k v .none)).made = true := h1
    refine ⟨fun u hu => ?_, fun _ => .inl ⟨h2, h1, ?_⟩⟩
    · have := ((hagree u).1 hu).2
      rw [h1'] at this; cases this
    · simp [Ledger.after, h1', Ledger.write, Ledger.put, hc.refl]

/-- C07: when nothing was evicted, it throws exactly when a lookup of `k` is in
flight and no value is found. -/
theorem C07_throws_exactly (hc : cfg.Ok) (h : Hist K V E) (hok : HistOk cfg St.init h) (env : Env V) (k : K) (v : V)
    (hup : (stateAfter cfg h).destroyed = false) (hm : Mono (h.map (·.1) ++ [env]))
    (hx : NoEvictH cfg St.init (h ++ [(env, .getOrEmplace k v .none)])) :
    (outAt cfg h env (.getOrEmplace k v .none)).ret = .throws ↔
      (outAt cfg h env (.getIfExists k)).ret = .miss ∧ ∃ tok, (ledgerAfter cfg h).valid k = some tok := by
  have hx := NoEvictH_append.1 hx
  have g := good_exact hc h hok env hm hx.1
  have hagree := fun u => (C03_get_if_exists_agrees_with_get hc h hok env k u v (.ok v)).1
  have hmiss : (∀ u, (outAt cfg h env (.getIfExists k)).ret ≠ .val u) → (outAt cfg h env (.getIfExists k)).ret = .miss := by
    intro hh
    rcases optRet_cases (peekWalk cfg env k ((stateAfter cfg h).bucket ((stateAfter cfg h).bucketFor (cfg.hash k)))) with h1 | ⟨u, h1⟩
    · exact h1
    · exact absurd h1 (hh u)
  rcases (getOrEmplace_ok hc g hup k v .none (fun _ => hx.2.2)).2 with ⟨u, h1, h2, h3⟩ | ⟨h1, h2, h3⟩ | ⟨⟨h1, h2⟩, h3⟩
  · have hp := (hagree u).2 ⟨h1, h3⟩
    rw [show (outAt cfg h env (.getOrEmplace k v .none)).ret = .val u from h1, hp]; simp
  · refine ⟨fun _ => ⟨hmiss ?_, (h3 rfl).1⟩, fun _ => h1⟩
    intro u hu
    have := ((hagree u).1 hu).1
    rw [show (outAt cfg h env (.getOrEmplace k v .none)).ret = .throws from h1] at this; cases this
  · rw [show (outAt cfg h env (.getOrEmplace k v .none)).ret = .val v from h2, (h3 trivial).1]; simp

/-- With a size limit that is not reached, and a lookup in flight: the call throws. -/
example := C07_throws_exactly (cfg := full) (nat_ok rfl (by intro d i h; cases h)) (fullHist ++ [(at_ 5, .asyncGet 7 1 .later)] : Hist Nat Nat Nat) (by decide) (at_ 5) 7 99 (by decide)
  (by exact mono_at [0, 1, 2, 3, 4, 5, 5] (by decide)) (by decide)

/-- All three outcomes occur: present, absent, in flight. -/
example : HistOk full St.init fullHist ∧ (stateAfter full fullHist).destroyed = false ∧
    (outAt full fullHist (at_ 5) (.getOrEmplace 5 99 .none)).ret = .val 50 ∧
    (outAt full fullHist (at_ 5) (.getOrEmplace 7 99 .none)).ret = .val 99 ∧
    (outAt full (fullHist ++ [(at_ 5, .asyncGet 7 1 .later)]) (at_ 5) (.getOrEmplace 7 99 .none)).ret = .throws := by decide

/-! ## C08 -/

/-- C08.  On a cache without size limit, an operation that is not about `a` (and does
not remove everything) does not change what `get_if_exists(a)` says, now or
later.  All policies but the size limit, all operations including completions
and refreshes, all hash functions. -/
theorem C08_operations_do_not_disturb_other_keys (hc : cfg.Ok) (hs : cfg.maxSize = none) (h : Hist K V E)
    (env : Env V) (o : Op K V E) (hok : HistOk cfg St.init (h ++ [(env, o)])) (env' : Env V)
    (hm : Mono (h.map (·.1) ++ [env, env'])) (a : K)
    (hna : ¬ (ledgerAfter cfg h).Concerns cfg.eqv a o (outAt cfg h env o)) :
    (outAt cfg (h ++ [(env, o)]) env' (.getIfExists a)).ret = (outAt cfg h env' (.getIfExists a)).ret := by
  have hne : ∀ (h : Hist K V E) (s : St K V E), NoEvictH cfg s h := by
    intro h; induction h with
    | nil => intro s; exact sim_noEvict hs s
    | cons p h ih => intro s; exact ⟨sim_noEvict hs s, ih _⟩
  have hm' : Mono (h.map (·.1) ++ [env']) := by
    refine hm.sublist ?_
    exact List.Sublist.append_left (List.sublist_cons_self _ _) _
  have g := good_exact hc h (HistOk_append.1 hok).1 env' hm' (hne _ _)
  have g' := good_exact hc (h ++ [(env, o)]) hok env' (by simpa using hm) (hne _ _)
  have h1 := peek_exact hc g trivial hs a
  have h2 := peek_exact hc g' trivial hs a
  obtain ⟨c1, c2, c3, _⟩ := after_same (kind := cfg.resolver) (now := env.now) hna
  refine Eq.trans h2 (Eq.trans ?_ h1.symm)
  rw [ledgerAfter_snoc]
  simp only [Ledger.ageLimit, Ledger.idleLimit, c1, c2, c3]
  rfl

/-- C08 over whole histories.  Without size limit, refresh and asynchronous resolver, what is visible of the calls
about `a` does not depend on the calls about other keys: leaving those out of
the history gives the same results. -/
theorem C08_other_keys_can_be_left_out (hc : cfg.Ok) (hs : cfg.maxSize = none) (hr : cfg.refresh = none) (hk : cfg.resolver ≠ .async)
    (a : K) (os : List (Env V × MapOp K V E)) (hm : Mono (os.map (·.1))) :
    outsAbout cfg.eqv a os (run cfg St.init (os.map (fun p => (p.1, p.2.toOp)))).2 =
    (run cfg St.init ((os.filter (fun p => about cfg.eqv a p.2)).map (fun p => (p.1, p.2.toOp)))).2.map visible := by
  cases os with
  | nil => rfl
  | cons p os =>
    refine nonint_run hc hs hr hk a (p :: os) (env := p.1) (good_init ..) (good_init ..) (fun _ => rfl) (fun _ => rfl) rfl rfl ⟨rfl, rfl⟩ ?_
    refine List.pairwise_cons.2 ⟨?_, hm⟩
    intro b hb
    rcases List.mem_cons.1 hb with rfl | hb
    · exact .refl _
    · exact (List.pairwise_cons.1 hm).1 b hb

/-- An unrelated insertion that makes the table grow and purges a dead neighbour. -/
example : ({ plain with maxAge := some 5 } : Cfg Nat).Ok ∧ Mono ([0, 1, 2, 3, 6, 6].map at_) ∧
    HistOk { plain with maxAge := some 5 } St.init
      ([(at_ 0, .emplace 0 1 .none), (at_ 1, .emplace 4 2 .none), (at_ 2, .emplace 8 3 .none), (at_ 3, .emplace 1 4 .none)] ++
        [(at_ 6, .emplace 5 5 .none)] : Hist Nat Nat Nat) ∧
    (outAt { plain with maxAge := some 5 }
      ([(at_ 0, .emplace 0 1 .none), (at_ 1, .emplace 4 2 .none), (at_ 2, .emplace 8 3 .none), (at_ 3, .emplace 1 4 .none)] ++
        [(at_ 6, .emplace 5 5 .none)] : Hist Nat Nat Nat) (at_ 6) (.getIfExists 8)).ret = .val 3 :=
  ⟨nat_ok rfl (by intro d i h; cases h), mono_at _ (by decide), by decide, by decide⟩

end Hoard.Props
