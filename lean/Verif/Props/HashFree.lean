import Verif.HashFree
import Verif.Props.Clocks
import Verif.Props.Resolver
/-! # The hash table is invisible -/
namespace Hoard.Props
open Hoard Spec Demo
variable {K V E : Type}

/-! ## C86 -/

/-- C86, the part that holds.  Replace the hash function (by any that gives equal keys equal hash codes), the load factor and the maximal
number of buckets.  Every call then shows exactly what it shows without, including `count`; only the callbacks that the destructor
drops may be dropped in another order.
The parts that are missing are those for which the claim is false (see below): a size limit that is exceeded, or pointers weakened by it;
rounds of the refresh worker; clocks that go back, if there are time limits; and allocations of a bucket array that fail, which happen only if
one is needed. -/
theorem C86_hash_table_is_invisible_partial (cfg : Cfg K) (hash : K → Nat) (over : Nat → Nat → Bool) (maxBuckets : Nat) (hc : cfg.Ok) (hc' : (cfg.retable hash over maxBuckets).Ok)
    (hs : cfg.NoWeak) (h : Hist K V E) (hok : HistOk cfg St.init h) (hm : Mono (h.map (·.1)) ∨ cfg.Untimed)
    (ht : ∀ p ∈ h, isTick p.2 = false) (hg : ∀ p ∈ h, growFails p.2 = false)
    (hn : NoEvictH cfg St.init h) (hn' : NoEvictH (cfg.retable hash over maxBuckets) St.init h) :
    HistOk (cfg.retable hash over maxBuckets) St.init h ∧ SameOuts (outsOf cfg h) (outsOf (cfg.retable hash over maxBuckets) h) ∧
    ((∀ p ∈ h, p.2 ≠ .destroy) → outsOf cfg h = outsOf (cfg.retable hash over maxBuckets) h) := by
  cases h with
  | nil => exact ⟨trivial, trivial, fun _ => rfl⟩
  | cons p h =>
    have r : SameTo cfg (cfg.retable hash over maxBuckets) (Mono ((p :: h).map (·.1))) p.1 (St.init : St K V E) St.init {} :=
      ⟨good_init .., good_init .., rfl, rfl, rfl, fun _ => rfl⟩
    refine r.run hc hc' hs hm (p :: h) (fun hm => ?_) hok (fun q hq => ⟨ht q hq, hg q hq⟩) hn hn'
    simp only [Mono, List.map_cons, List.pairwise_cons] at hm ⊢
    refine ⟨fun a ha => ?_, hm⟩
    rcases List.mem_cons.1 ha with rfl | ha
    · exact .refl _
    · exact hm.1 a ha

theorem noEvictH_none {cfg : Cfg K} (hs : cfg.maxSize = none) : ∀ (h : Hist K V E) (s : St K V E), NoEvictH cfg s h
  | [], s => sim_noEvict hs s
  | _ :: h, s => ⟨sim_noEvict hs s, noEvictH_none hs h _⟩

/-- In particular, for every cache without size limit and refreshing, and all histories in which clocks do not go back, no bucket array
is missing and the cache is not destroyed. -/
theorem C86_without_size_limit (cfg : Cfg K) (hash : K → Nat) (over : Nat → Nat → Bool) (maxBuckets : Nat) (hc : cfg.Ok) (hc' : (cfg.retable hash over maxBuckets).Ok)
    (hs : cfg.maxSize = none) (hr : cfg.refresh = none) (h : Hist K V E) (hok : HistOk cfg St.init h) (hm : Mono (h.map (·.1)))
    (hg : ∀ p ∈ h, growFails p.2 = false) (hd : ∀ p ∈ h, p.2 ≠ .destroy) :
    outsOf (cfg.retable hash over maxBuckets) h = outsOf cfg h := by
  have ht : ∀ p ∈ h, isTick p.2 = false := by
    have key : ∀ (h : Hist K V E) (s : St K V E), HistOk cfg s h → ∀ p ∈ h, isTick p.2 = false := by
      intro h
      induction h with
      | nil => intro s _ p hp; cases hp
      | cons q h ih =>
        intro s hok p hp
        rcases List.mem_cons.1 hp with rfl | hp
        · obtain ⟨e, o⟩ := p
          cases o <;> first | rfl | (have := hok.1.2.1; rw [hr] at this; cases this)
        · exact ih _ hok.2 p hp
    exact key h _ hok
  exact ((C86_hash_table_is_invisible_partial cfg hash over maxBuckets hc hc' (.inr (.inr hs)) h hok (.inl hm) ht hg
    (noEvictH_none hs h _) (noEvictH_none (cfg := cfg.retable hash over maxBuckets) hs h _)).2.2 hd).symm

/-- A cache with an age limit and an asynchronous resolver. -/
def agedAsync : Cfg Nat := { aged with resolver := .async }

/-- Lookups, values that grow too old, a table that grows. -/
def mixedDay : Hist Nat Nat Nat :=
  [(at_ 0, .asyncGet 1 70 .later), (at_ 0, .emplace 2 20 .none), (at_ 1, .emplace 6 60 .alloc), (at_ 1, .getOrEmplace 3 30 .none), (at_ 2, .getOrEmplace 1 11 .none),
   (at_ 3, .emplace 4 40 .none), (at_ 3, .emplace 5 50 .none), (at_ 4, .asyncGet 1 71 .later), (at_ 5, .complete 0 (.ok 10)), (at_ 5, .count),
   (at_ 7, .asyncGet 2 72 (.now (.ok 21))), (at_ 7, .asyncGet 3 73 .drop), (at_ 8, .count), (at_ 9, .erase 1), (at_ 9, .asyncGet 1 74 .later), (at_ 9, .drop 9),
   (at_ 9, .count)]

/-- The conditions are met, and this is what is seen: with the hash codes modulo 4 as with all hash codes 7. -/
example : agedAsync.Ok ∧ (agedAsync.retable (fun _ => 7) (fun n b => decide (n > 3 * b)) 40).Ok ∧ HistOk agedAsync St.init mixedDay ∧ Mono (mixedDay.map (·.1)) ∧
    (∀ p ∈ mixedDay, growFails p.2 = false ∧ isTick p.2 = false) ∧
    (outsOf agedAsync mixedDay).map (·.fired) = [[], [], [], [], [], [], [], [], [(70, .ok 10), (71, .ok 10)], [], [(72, .ok 21)], [], [], [], [], [], []] ∧
    (outsOf agedAsync mixedDay).map (·.ret) = [.unit, .unit, .throws, .val 30, .throws, .unit, .unit, .unit, .bool true, .num 4, .unit, .unit, .num 2, .unit, .unit, .bool false, .num 2] ∧
    (outsOf agedAsync mixedDay).map (·.calls) = [[(1, 0)], [], [], [], [], [], [], [], [], [], [(2, 5)], [(3, 6)], [], [], [(1, 7)], [], []] ∧
    (stateAfter agedAsync mixedDay).ents.length = 4 ∧
    (stateAfter (agedAsync.retable (fun _ => 7) (fun n b => decide (n > 3 * b)) 40) mixedDay).ents.length = 3 :=
  ⟨nat_ok rfl (by intro d i h; cases h), nat_ok rfl (by intro d i h; cases h), by decide,
    mono_at [0, 0, 1, 1, 2, 3, 3, 4, 5, 5, 7, 7, 8, 9, 9, 9, 9] (by decide), by decide, by decide, by decide, by decide, by decide, by decide⟩

/-! C86 is false in the other cases. -/

/-- At most two entries, none older than 5. -/
def lru : Cfg Nat := { plain with maxSize := some 2, maxAge := some 5 }

/-- With a size limit the hash function decides who is evicted: if the third value happens to be in the bucket of the value that is too
old, that one is removed in passing, and there is room; otherwise a value is evicted that would still be good. -/
theorem C86_size_limit_shows_the_hash_table :
    let h : Hist Nat Nat Nat := [(at_ 0, .emplace 1 10 .none), (at_ 3, .emplace 2 20 .none), (at_ 4, .get 1 (.err 0)), (at_ 6, .emplace 3 30 .none), (at_ 6, .getIfExists 2)]
    HistOk lru St.init h ∧ Mono (h.map (·.1)) ∧
    (outsOf lru h).map (·.ret) = [.unit, .unit, .val 10, .unit, .miss] ∧
    (outsOf (lru.retable (fun _ => 0) lru.over lru.maxBuckets) h).map (·.ret) = [.unit, .unit, .val 10, .unit, .val 20] := by
  exact ⟨by decide, mono_at [0, 3, 4, 6, 6] (by decide), by decide, by decide⟩

/-- At most three entries, no other limit. -/
def lru3 : Cfg Nat := { plain with maxSize := some 3, hash := fun k => k }

set_option maxRecDepth 4000 in
/-- Time limits are not needed for that: entries that were evicted before are removed in passing as well, and count until then. -/
theorem C86_size_limit_alone_shows_the_hash_table :
    let h : Hist Nat Nat Nat := ([2, 1, 2, 3, 5, 1, 4, 4].map fun k => (at_ 0, .emplace k (10 * k) .none)) ++ ([1, 2, 3, 4, 5].map fun k => (at_ 0, .getIfExists k))
    HistOk lru3 St.init h ∧ lru3.Untimed ∧
    ((outsOf lru3 h).map (·.ret)).drop 8 = [.miss, .miss, .val 30, .val 40, .val 50] ∧
    ((outsOf (lru3.retable (fun _ => 0) lru3.over lru3.maxBuckets) h).map (·.ret)).drop 8 = [.val 10, .miss, .val 30, .val 40, .miss] := by
  exact ⟨by decide, ⟨rfl, rfl, .inr (.inl rfl)⟩, by decide, by decide⟩

/-- With refreshing, a value that is too old and was not removed in passing takes up a round of the worker. -/
theorem C86_refresh_shows_the_hash_table :
    let h : Hist Nat Nat Nat := [(at_ 0, .emplace 1 10 .none), (at_ 3, .emplace 2 20 .none), (at_ 6, .erase 3), (at_ 6, .tick (.ok 21) .later)]
    let cfg : Cfg Nat := { aged with refresh := some (3, 0), resolver := .sync }
    HistOk cfg St.init h ∧ Mono (h.map (·.1)) ∧
    (outsOf cfg h).map (·.calls) = [[], [], [], []] ∧
    (outsOf (cfg.retable (fun _ => 0) cfg.over cfg.maxBuckets) h).map (·.calls) = [[], [], [], [(2, 2)]] := by
  exact ⟨by decide, mono_at [0, 3, 6, 6] (by decide), by decide, by decide⟩

/-- When the clock is set back, a value that was too old is there again, unless it was removed in passing. -/
theorem C86_clocks_show_the_hash_table :
    let h : Hist Nat Nat Nat := [(at_ 0, .emplace 1 10 .none), (at_ 6, .erase 3), (at_ 4, .getIfExists 1)]
    HistOk aged St.init h ∧ (outsOf aged h).map (·.ret) = [.unit, .unit, .val 10] ∧
    (outsOf (aged.retable (fun _ => 0) aged.over aged.maxBuckets) h).map (·.ret) = [.unit, .unit, .miss] := by
  exact ⟨by decide, by decide, by decide⟩

/-- Whether a bucket array is needed depends on the load factor; and the destructor goes through the table in its order. -/
theorem C86_growth_and_order_show_the_hash_table :
    (let h : Hist Nat Nat Nat := [(at_ 0, .emplace 1 10 .none), (at_ 1, .emplace 2 20 .none), (at_ 2, .emplace 3 30 .none), (at_ 3, .emplace 4 40 .none), (at_ 4, .emplace 5 50 .grow)]
     HistOk plain St.init h ∧ (outsOf plain h).map (·.ret) = [.unit, .unit, .unit, .unit, .throws] ∧
     (outsOf (plain.retable plain.hash (fun _ _ => false) plain.maxBuckets) h).map (·.ret) = [.unit, .unit, .unit, .unit, .unit]) ∧
    (let h : Hist Nat Nat Nat := [(at_ 0, .asyncGet 1 70 .later), (at_ 0, .asyncGet 2 71 .later), (at_ 1, .destroy)]
     HistOk asyncC St.init h ∧ (outsOf asyncC h).map (·.broken) = [[], [], [70, 71]] ∧
     (outsOf (asyncC.retable (fun k => 3 - k) asyncC.over asyncC.maxBuckets) h).map (·.broken) = [[], [], [71, 70]]) := by
  exact ⟨⟨by decide, by decide, by decide⟩, by decide, by decide, by decide⟩

end Hoard.Props
