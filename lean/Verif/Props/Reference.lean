import Verif.RefLemmas
import Verif.Props.HashFree
/-! # The cache is a small cache -/
namespace Hoard.Props
open Hoard Spec Demo
variable {K V E : Type}

/-! ## C87 -/

theorem no_ticks {cfg : Cfg K} (hr : cfg.refresh = none) : ∀ (h : Hist K V E) (s : St K V E), HistOk cfg s h → ∀ p ∈ h, isTick p.2 = false
  | [], _, _, p, hp => by cases hp
  | (e, o) :: h, s, hok, p, hp => by
    rcases List.mem_cons.1 hp with rfl | hp
    · cases o <;> first | rfl | (have := hok.1.2.1; rw [hr] at this; cases this)
    · exact no_ticks hr h _ hok.2 p hp

/-- C87: for every cache that does not refresh, with any resolver, any age limits and a size limit that is not exceeded, and for every
history in which the clocks do not go back (unless there is no time limit) and no bucket array is missing: every call shows exactly what it shows
on the small cache of `Verif.Spec.Reference`, including the calls of the resolver, who is told which result, and `count`.  Only the callbacks that
the destructor drops may be dropped in another order. -/
theorem C87_cache_is_the_small_cache (cfg : Cfg K) (hc : cfg.Ok) (hs : cfg.NoWeak) (hr : cfg.refresh = none) (h : Hist K V E) (hok : HistOk cfg St.init h)
    (hm : Mono (h.map (·.1)) ∨ cfg.Untimed) (hg : ∀ p ∈ h, growFails p.2 = false) (hn : NoEvictH cfg St.init h) :
    SameOuts (outsOf cfg h) (refOuts cfg {} h) ∧ ((∀ p ∈ h, p.2 ≠ .destroy) → outsOf cfg h = refOuts cfg {} h) := by
  cases h with
  | nil => exact ⟨trivial, fun _ => rfl⟩
  | cons p h =>
    have r : RefTo cfg (Mono ((p :: h).map (·.1))) p.1 ({} : Ref K V) (St.init : St K V E) {} :=
      ⟨good_init .., rfl, rfl, rfl, .nil, fun a => ⟨rfl, dead_of hr hm (.inl rfl)⟩, (fun _ q hq => by cases hq), (fun h => by cases h), (fun h => by cases h),
        fun _ => rfl⟩
    refine r.run hc hs hr hm (p :: h) (fun hm => ?_) hok (fun q hq => ⟨no_ticks hr _ _ hok q hq, hg q hq⟩) hn
    simp only [Mono, List.map_cons, List.pairwise_cons] at hm ⊢
    refine ⟨fun a ha => ?_, hm⟩
    rcases List.mem_cons.1 ha with rfl | ha
    · exact .refl _
    · exact hm.1 a ha

/-- In particular for all caches without size limit. -/
theorem C87_without_size_limit (cfg : Cfg K) (hc : cfg.Ok) (hs : cfg.maxSize = none) (hr : cfg.refresh = none) (h : Hist K V E) (hok : HistOk cfg St.init h)
    (hm : Mono (h.map (·.1))) (hg : ∀ p ∈ h, growFails p.2 = false) (hd : ∀ p ∈ h, p.2 ≠ .destroy) :
    outsOf cfg h = refOuts cfg {} h :=
  (C87_cache_is_the_small_cache cfg hc (.inr (.inr hs)) hr h hok (.inl hm) hg (noEvictH_none hs h _)).2 hd

/-- Without a time limit, the clocks may do anything. -/
theorem C87_without_limits (cfg : Cfg K) (hc : cfg.Ok) (hs : cfg.maxSize = none) (ha : cfg.maxAge = none) (hr : cfg.refresh = none) (h : Hist K V E) (hok : HistOk cfg St.init h)
    (hg : ∀ p ∈ h, growFails p.2 = false) (hd : ∀ p ∈ h, p.2 ≠ .destroy) :
    outsOf cfg h = refOuts cfg {} h :=
  (C87_cache_is_the_small_cache cfg hc (.inr (.inr hs)) hr h hok (.inr ⟨ha, hr, .inl hs⟩) hg (noEvictH_none hs h _)).2 hd

/-- The same day, and the cache is destroyed in the evening. -/
def mixedEnd : Hist Nat Nat Nat := mixedDay ++ [(at_ 9, .destroy), (at_ 9, .complete 7 (.ok 1))]

/-- The conditions are met, with a destructor at the end; this is what the small cache shows. -/
example : agedAsync.Ok ∧ agedAsync.NoWeak ∧ agedAsync.refresh = none ∧ HistOk agedAsync St.init mixedEnd ∧
    Mono (mixedEnd.map (·.1)) ∧
    (refOuts agedAsync {} mixedDay).map (·.fired) = [[], [], [], [], [], [], [], [], [(70, .ok 10), (71, .ok 10)], [], [(72, .ok 21)], [], [], [], [], [], []] ∧
    (refOuts agedAsync {} mixedDay).map (·.ret) = [.unit, .unit, .throws, .val 30, .throws, .unit, .unit, .unit, .bool true, .num 4, .unit, .unit, .num 2, .unit, .unit, .bool false, .num 2] ∧
    (refOuts agedAsync {} mixedEnd).drop 17 = [{ broken := [74, 73] }, { ret := .bool false }] ∧
    (outsOf agedAsync mixedEnd).drop 17 = [{ broken := [74, 73] }, { ret := .bool false }] :=
  ⟨nat_ok rfl (by intro d i h; cases h), .inl rfl, rfl, by decide,
    mono_at [0, 0, 1, 1, 2, 3, 3, 4, 5, 5, 7, 7, 8, 9, 9, 9, 9, 9, 9] (by decide), by decide, by decide, by rfl, by rfl⟩

/-- A size limit that is not exceeded. -/
example : let cfg : Cfg Nat := { plain with maxSize := some 2, resolver := .sync }
    let h : Hist Nat Nat Nat := [(at_ 0, .get 1 (.ok 10)), (at_ 0, .get 2 (.err 5)), (at_ 1, .get 2 (.ok 20)), (at_ 1, .get 1 (.ok 99)), (at_ 2, .count)]
    cfg.Ok ∧ cfg.NoWeak ∧ HistOk cfg St.init h ∧ NoEvictH cfg St.init h ∧
    refOuts cfg {} h = [{ ret := .val 10, calls := [(1, 0)] }, { ret := .err 5, calls := [(2, 1)] }, { ret := .val 20, calls := [(2, 2)] }, { ret := .val 10 }, { ret := .num 2 }] := by
  refine ⟨nat_ok rfl (by intro d i h; cases h), .inl rfl, by decide, ?_, by rfl⟩
  simp only [NoEvictH]
  refine ⟨?_, ?_, ?_, ?_, ?_, ?_⟩ <;> exact (by intro c hc; cases hc; decide)

end Hoard.Props
