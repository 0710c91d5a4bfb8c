import Verif.MachineTimeLemmas
import Verif.Demo
/-! # Times of 64 bits: C103 -/
namespace Hoard.Props
open Hoard Demo MachineTime
variable {K V E : Type}

/-- C103, in range.  As long as the limits can be added to the times that the clocks show during a history, no addition overflows, and the cache does
what it would do if times were unbounded. -/
theorem C103_as_if_unbounded_partial (lim : Limits) (base : Cfg K) (h : Hist K V E) (hr : ∀ p ∈ h, InRange lim base.wall p.1.now) :
    MachineTime.run lim (lim.cfg base) {} h = some (Hoard.run (lim.cfg base) {} h) := by
  rcases run_agree (lim := lim) (base := base) {} h with h1 | ⟨_, h2⟩
  · exact h1
  · exact absurd hr h2

/-- C103, out of range.  An addition that overflows is undefined; if there is none, the results are right, whatever the limits. -/
theorem C103_right_unless_overflow (lim : Limits) (base : Cfg K) (h : Hist K V E) (x : St K V E × List (Out K V E))
    (hx : MachineTime.run lim (lim.cfg base) {} h = some x) : x = Hoard.run (lim.cfg base) {} h := by
  rcases run_agree (lim := lim) (base := base) {} h with h1 | ⟨h1, _⟩
  · rw [h1] at hx; exact (Option.some.inj hx).symm
  · rw [h1] at hx; cases hx

/-- C103, limits of up to 146 years, with clocks that count nanoseconds and show a time between their epoch and 146 years later (until 2116, for
`system_clock`), are in range. -/
theorem C103_146_years (lim : Limits) (wall : Bool) (now : Time) (ht : lim.ticks = 1000000) (hs : 0 ≤ now.steady ∧ now.steady < 2 ^ 62)
    (hw : 0 ≤ now.wall ∧ now.wall < 2 ^ 62) (ha : ∀ ms, lim.maxAge = some ms ∨ lim.errAge = some ms → 0 ≤ ms ∧ ms ≤ 146 * 365 * 24 * 60 * 60 * 1000)
    (hd : ∀ d i, lim.refresh = some (d, i) → 0 ≤ d ∧ d ≤ 2 ^ 62 ∧ 0 ≤ i ∧ i ≤ 2 ^ 62) : InRange lim wall now := by
  have key : ∀ ms, (lim.maxAge = some ms ∨ lim.errAge = some ms) → AgeInRange lim.ticks wall now ms := by
    intro ms h
    have := ha ms h
    unfold AgeInRange Fits
    rw [ht]
    omega
  refine ⟨fun ms h => key ms (.inl h), fun ms h => key ms (.inr h), fun d i h => ?_, fun d i h _ => ?_⟩
  · have := hd d i h; unfold Fits; omega
  · have := hd d i h; unfold Fits; omega

/-- An age limit of a day, to be refreshed every hour, and a time in 2023. -/
example : InRange { maxAge := some 86400000, refresh := some (3600000000000, 0) } true ⟨5000000000000, 1700000000000000000⟩ :=
  C103_146_years _ _ _ rfl (by decide) (by decide) (by rintro ms (h | h) <;> simp at h; omega) (by rintro d i h; simp at h; omega)

/-- A history in range, in which the value is too old at the end (a day is 86400000000000 nanoseconds). -/
example :
    let lim : Limits := { maxAge := some 86400000 }
    let h : Hist Nat Nat Nat := [(at_ 5, .emplace 1 7 .none), (at_ 86400000000004, .getIfExists 1), (at_ 86400000000005, .getIfExists 1)]
    (∀ p ∈ h, InRange lim plain.wall p.1.now) ∧ ((MachineTime.run lim (lim.cfg plain) {} h).map (fun x => x.2.map (·.ret))) = some [.unit, .val 7, .miss] := by
  intro lim h
  refine ⟨?_, ?_⟩
  · intro p hp
    simp only [h, List.mem_cons, List.not_mem_nil, or_false] at hp
    refine C103_146_years _ _ _ rfl ?_ ?_ (by rintro ms (h | h) <;> simp [lim] at h; omega) (by rintro d i h; simp [lim] at h)
    all_goals rcases hp with rfl | rfl | rfl <;> decide
  · decide +kernel

/-- C103, which stores overflow: exactly those at which an addition is out of range. -/
theorem C103_store_overflows_exactly (lim : Limits) (base : Cfg K) (env : Env V) (s : St K V E) (k : K) (v : V) :
    MachineTime.step lim (lim.cfg base) env s (.emplace k v .none) = none ↔ ¬ ValueInRange lim base.wall env.now := by
  show MachineTime.emplace lim (lim.cfg base) env s k v .none = none ↔ _
  unfold MachineTime.emplace MachineTime.tryLink MachineTime.link
  simp only [newEntry, Entry.isPending, Mapped.isPending, Bool.false_eq_true, if_false, Mapped.holdsValue]
  rw [← onAssign_none (base := base) (E := E) (env := env)]
  generalize MachineTime.onAssign lim (lim.cfg base) env _ _ true = m
  cases m <;> simp

/-- C103, which deliveries overflow. -/
theorem C103_delivery_overflows_exactly (lim : Limits) (base : Cfg K) (env : Env V) (s : St K V E) (tok : Nat) (v : V) (ho : tok ∈ s.opens) (hd : s.destroyed = false) :
    MachineTime.step lim (lim.cfg base) env s (.complete tok (.ok v)) = none ↔ ¬ ValueInRange lim base.wall env.now := by
  show MachineTime.complete lim (lim.cfg base) env s tok (.ok v) = none ↔ _
  unfold MachineTime.complete
  rw [if_pos ⟨ho, hd⟩, Option.map_eq_none_iff]
  exact onAssign_none

/-- C103, which hits overflow: if a value is shown for the key, a get overflows exactly if the idle timer cannot be added. -/
theorem C103_hit_overflows_exactly (lim : Limits) (base : Cfg K) (hc : (lim.cfg base).Ok) (env : Env V) (s : St K V E) (k : K) (r : Res V E) (v : V)
    (hv : (Hoard.step (lim.cfg base) env s (.getIfExists k)).2.ret = .val v) :
    MachineTime.step lim (lim.cfg base) env s (.get k r) = none ↔ ∃ d i, lim.refresh = some (d, i) ∧ i ≠ 0 ∧ ¬ Fits (env.now.steady + i) := by
  have hw := getWalk_hit hc env k false (s.bucket (s.bucketFor ((lim.cfg base).hash k)))
  simp only [Hoard.step, getIfExists, peekWalk_eq hc] at hv
  cases hf : (s.bucket (s.bucketFor ((lim.cfg base).hash k))).find? (isHit (lim.cfg base) env k false) with
  | none => rw [hf] at hv; cases hv
  | some e =>
    rw [hf] at hv hw
    simp only [Option.map_some, Option.getD_some] at hv hw
    have hg : e.mapped.get env false = .val v := by
      cases h : e.mapped.get env false <;> rw [h] at hv <;> simp [optRet] at hv
      rw [hv]
    rw [hg] at hw
    rw [← get__none (lim := lim) (base := base) hw]
    show MachineTime.get lim (lim.cfg base) env s k r = none ↔ _
    unfold MachineTime.get
    cases h : MachineTime.get_ lim (lim.cfg base) env s k false with
    | none => simp
    | some x =>
      have hx : x.2 = .val v := by
        unfold MachineTime.get_ at h
        simp only [hw, Option.map_eq_some_iff] at h
        obtain ⟨_, _, rfl⟩ := h
        rfl
      obtain ⟨s1, l⟩ := x
      simp only at hx
      subst hx
      cases hk : (lim.cfg base).resolver <;> simp

/-- C103, which lookups overflow: if no value is shown, a get with a synchronous resolver that returns a value overflows exactly if storing it does. -/
theorem C103_lookup_overflows_exactly (lim : Limits) (base : Cfg K) (hc : (lim.cfg base).Ok) (hk : base.resolver = .sync) (env : Env V) (s : St K V E) (k : K) (v : V)
    (hv : (Hoard.step (lim.cfg base) env s (.getIfExists k)).2.ret = .miss) :
    MachineTime.step lim (lim.cfg base) env s (.get k (.ok v)) = none ↔ ¬ ValueInRange lim base.wall env.now := by
  have hw := getWalk_hit hc env k false (s.bucket (s.bucketFor ((lim.cfg base).hash k)))
  simp only [Hoard.step, getIfExists, peekWalk_eq hc] at hv
  cases hf : (s.bucket (s.bucketFor ((lim.cfg base).hash k))).find? (isHit (lim.cfg base) env k false) with
  | some e =>
    exfalso
    rw [hf] at hv
    simp only [Option.map_some, Option.getD_some] at hv
    have hh := List.find?_some hf
    simp only [isHit, Bool.and_eq_true] at hh
    cases hm : e.mapped <;> simp_all [Mapped.get, optRet, Entry.expired, Mapped.holdsError]
    rename_i w
    cases ha : env.alive w <;> simp_all
  | none =>
    rw [hf] at hw
    simp only [Option.map_none] at hw
    show MachineTime.get lim (lim.cfg base) env s k (.ok v) = none ↔ _
    unfold MachineTime.get MachineTime.get_
    simp only [hw]
    have hk' : (lim.cfg base).resolver = .sync := hk
    rw [hk', ← onAssign_none (base := base) (E := E) (env := env)]
    show (MachineTime.resolveSync lim (lim.cfg base) env _ k (.ok v)).bind _ = none ↔ _
    unfold MachineTime.resolveSync MachineTime.link
    simp only [newEntry, syncMapped, Entry.isPending, Mapped.isPending, Bool.false_eq_true, if_false, Mapped.holdsValue]
    generalize MachineTime.onAssign lim (lim.cfg base) env _ _ true = m
    cases m <;> simp

/-- C103, `get_or_emplace`: if it stores the value, it overflows exactly if storing does; if it shows one, exactly if the idle timer cannot be
added. -/
theorem C103_get_or_emplace_overflows_exactly (lim : Limits) (base : Cfg K) (env : Env V) (s : St K V E) (k : K) (v : V) (f : Fail) :
    ((Hoard.step (lim.cfg base) env s (.getOrEmplace k v f)).2.made = true →
      (MachineTime.step lim (lim.cfg base) env s (.getOrEmplace k v f) = none ↔ ¬ ValueInRange lim base.wall env.now)) ∧
    (∀ u, (Hoard.step (lim.cfg base) env s (.getOrEmplace k v f)).2.made = false → (Hoard.step (lim.cfg base) env s (.getOrEmplace k v f)).2.ret = .val u →
      (MachineTime.step lim (lim.cfg base) env s (.getOrEmplace k v f) = none ↔ ∃ d i, lim.refresh = some (d, i) ∧ i ≠ 0 ∧ ¬ Fits (env.now.steady + i))) := by
  show ((Hoard.getOrEmplace (lim.cfg base) env s k v f).2.made = true → (MachineTime.getOrEmplace lim (lim.cfg base) env s k v f = none ↔ _)) ∧
    ∀ u, (Hoard.getOrEmplace (lim.cfg base) env s k v f).2.made = false → (Hoard.getOrEmplace (lim.cfg base) env s k v f).2.ret = .val u →
      (MachineTime.getOrEmplace lim (lim.cfg base) env s k v f = none ↔ _)
  cases hh : (getWalk (lim.cfg base) env k true (s.bucket (s.bucketFor ((lim.cfg base).hash k)))).hit with
  | none =>
    have e1 : ∃ s1, Hoard.get_ (lim.cfg base) env s k true = (s1, .none) ∧ MachineTime.get_ lim (lim.cfg base) env s k true = some (s1, .none) :=
      ⟨_, by unfold Hoard.get_; simp only [hh]; rfl, by unfold MachineTime.get_; simp only [hh]⟩
    obtain ⟨s1, e1, e2⟩ := e1
    unfold Hoard.getOrEmplace MachineTime.getOrEmplace
    rw [e1, e2]
    simp only [bind, Option.bind_some]
    have hn := tryLink_none (lim := lim) (base := base) (env := env) s1 k v f
    cases hok : (Hoard.tryLink (lim.cfg base) env s1 (newEntry s1 k (.value v)) f).2 with
    | true =>
      simp only [if_true, reduceCtorEq, false_implies, implies_true, and_true]
      intro _
      rw [← hn hok]
      cases MachineTime.tryLink lim (lim.cfg base) env s1 (newEntry s1 k (.value v)) f <;> simp
    | false => simp
  | some x =>
    obtain ⟨i, l⟩ := x
    have e1 : ∃ s1, Hoard.get_ (lim.cfg base) env s k true = (s1, l) := ⟨_, by unfold Hoard.get_; simp only [hh]; rfl⟩
    obtain ⟨s1, e1⟩ := e1
    unfold Hoard.getOrEmplace MachineTime.getOrEmplace
    rw [e1]
    cases l with
    | none => exact absurd rfl (getWalk_hit_ne hh)
    | val u =>
      refine ⟨by simp, fun _ _ _ => ?_⟩
      rw [← get__none (lim := lim) (base := base) hh]
      cases h : MachineTime.get_ lim (lim.cfg base) env s k true with
      | none => simp
      | some x =>
        unfold MachineTime.get_ at h
        simp only [hh, Option.map_eq_some_iff] at h
        obtain ⟨_, _, rfl⟩ := h
        simp
    | err u => simp
    | pend => simp

/-- C103, get with an asynchronous resolver: if the resolver is called and delivers a value at once, it overflows exactly if storing the value does;
if it is not called and the waiter gets a value, exactly if the idle timer cannot be added. -/
theorem C103_async_get_overflows_exactly (lim : Limits) (base : Cfg K) (env : Env V) (s : St K V E) (hd : s.destroyed = false) (k : K) (w : Nat) (b : Beh V E) :
    (∀ v, (Hoard.step (lim.cfg base) env s (.asyncGet k w b)).2.calls ≠ [] → b = .now (.ok v) →
      (MachineTime.step lim (lim.cfg base) env s (.asyncGet k w b) = none ↔ ¬ ValueInRange lim base.wall env.now)) ∧
    (∀ v, (Hoard.step (lim.cfg base) env s (.asyncGet k w b)).2.calls = [] → (Hoard.step (lim.cfg base) env s (.asyncGet k w b)).2.fired = [(w, .ok v)] →
      (MachineTime.step lim (lim.cfg base) env s (.asyncGet k w b) = none ↔ ∃ d i, lim.refresh = some (d, i) ∧ i ≠ 0 ∧ ¬ Fits (env.now.steady + i))) := by
  show (∀ v, (Hoard.asyncGet (lim.cfg base) env s k w b).2.calls ≠ [] → _ → (MachineTime.asyncGet lim (lim.cfg base) env s k w b = none ↔ _)) ∧
    ∀ v, (Hoard.asyncGet (lim.cfg base) env s k w b).2.calls = [] → (Hoard.asyncGet (lim.cfg base) env s k w b).2.fired = _ →
      (MachineTime.asyncGet lim (lim.cfg base) env s k w b = none ↔ _)
  unfold Hoard.asyncGet MachineTime.asyncGet
  simp only
  cases hh : (getWalk (lim.cfg base) env k true (s.bucket (s.bucketFor ((lim.cfg base).hash k)))).hit with
  | none =>
    refine ⟨fun v _ hb => ?_, fun v h => by simp at h⟩
    have e2 : MachineTime.get_ lim (lim.cfg base) env s k true = some (Hoard.get_ (lim.cfg base) env s k true) := by
      unfold MachineTime.get_ Hoard.get_; simp only [hh]
    rw [e2, hb]
    have hd' : (Hoard.get_ (lim.cfg base) env s k true).1.destroyed = false := by rw [get__des]; exact hd
    simp only [bind, Option.bind_some]
    rw [← resolveAsync_none (lim := lim) (base := base) (env := env) (Hoard.get_ (lim.cfg base) env s k true).1 hd' k v]
    cases MachineTime.resolveAsync lim (lim.cfg base) env (Hoard.get_ (lim.cfg base) env s k true).1 k (.now (.ok v)) <;> simp
  | some x =>
    obtain ⟨i, l⟩ := x
    have ha : ∀ (s : St K V E) v, (answer s i w l).2.fired = [(w, .ok v)] → l = .val v := by
      intro s v h
      cases l <;> simp [answer] at h
      rw [h]
    refine ⟨fun v h => ?_, fun v _ h => ?_⟩
    · cases l <;> simp [answer] at h
    · cases ha _ _ h
      rw [← get__none (lim := lim) (base := base) hh]
      cases MachineTime.get_ lim (lim.cfg base) env s k true <;> simp

/-- C103, refreshing: a refresh that calls a synchronous resolver, which returns a value, overflows exactly if storing the value does. -/
theorem C103_refresh_overflows_exactly (lim : Limits) (base : Cfg K) (hk : base.resolver = .sync) (env : Env V) (s : St K V E) (v : V) (b : Beh V E)
    (hc : (Hoard.step (lim.cfg base) env s (.tick (.ok v) b)).2.calls ≠ []) :
    MachineTime.step lim (lim.cfg base) env s (.tick (.ok v) b) = none ↔ ¬ ValueInRange lim base.wall env.now := by
  change (Hoard.tick (lim.cfg base) env s (.ok v) b).2.calls ≠ [] at hc
  show MachineTime.tick lim (lim.cfg base) env s (.ok v) b = none ↔ _
  unfold Hoard.tick at hc
  unfold MachineTime.tick
  cases hq : s.delayQ with
  | nil => rw [hq] at hc; exact absurd rfl hc
  | cons i q =>
    rw [hq] at hc
    simp only at hc ⊢
    cases hf : s.find i with
    | none => rw [hf] at hc; exact absurd rfl hc
    | some e =>
      rw [hf] at hc
      simp only at hc ⊢
      split at hc
      · rename_i hr
        rw [if_pos hr]
        unfold Hoard.refresh at hc
        unfold MachineTime.refresh
        split at hc
        · exact absurd rfl hc
        · rename_i hx
          rw [if_neg hx]
          have hk' : ¬ (lim.cfg base).resolver = .async := by show ¬ base.resolver = .async; rw [hk]; decide
          unfold MachineTime.resolve
          rw [if_neg hk', ← resolveSync_none (lim := lim) (base := base) (E := E) (env := env) { s with delayQ := q } e.key v]
          cases MachineTime.resolveSync lim (lim.cfg base) env { s with delayQ := q } e.key (.ok v) with
          | none => simp
          | some x =>
            simp only [bind, Option.bind_some]
            split <;> (try split) <;> simp
      · exact absurd rfl hc

/-- The hypotheses hold, at a time at which a limit of a day cannot be added any more, and one hour before. -/
example :
    let day : Limits := { maxAge := some 86400000, refresh := some (10, 0) }
    let sync : Cfg Nat := { plain with resolver := .sync }
    let async : Cfg Nat := { plain with resolver := .async }
    let now : Env Nat := at_ (2 ^ 63 - 86400000000000)
    let early : Env Nat := at_ (2 ^ 63 - 90000000000000)
    let s := (Hoard.run (day.cfg sync) ({} : St Nat Nat Nat) [(early, .emplace 1 7 .none)]).1
    (Hoard.step (day.cfg plain) now s (.getOrEmplace 2 8 .none)).2.made = true ∧ (Hoard.step (day.cfg plain) now s (.getOrEmplace 1 8 .none)).2.ret = .val 7 ∧
    (MachineTime.step day (day.cfg plain) now s (.getOrEmplace 2 8 .none)).isNone = true ∧
    (MachineTime.step day (day.cfg plain) early s (.getOrEmplace 2 8 .none)).isSome = true ∧
    (Hoard.step (day.cfg async) now s (.asyncGet 2 0 (.now (.ok 8)))).2.calls ≠ [] ∧ (Hoard.step (day.cfg async) now s (.asyncGet 1 0 .later)).2.fired = [(0, .ok 7)] ∧
    (MachineTime.step day (day.cfg async) now s (.asyncGet 2 0 (.now (.ok 8)))).isNone = true ∧
    (Hoard.step (day.cfg sync) now s (.tick (.ok 8) .later)).2.calls ≠ [] ∧ (MachineTime.step day (day.cfg sync) now s (.tick (.ok 8) .later)).isNone = true := by
  decide +kernel

/-- The hypotheses hold, and both outcomes occur: an idle timer of 100 ticks is added to a time 50 and 150 ticks before the last one; a value is looked
up with a limit of a day at these times. -/
example :
    let lim : Limits := { refresh := some (0, 100) }
    let day : Limits := { maxAge := some 86400000 }
    let sync : Cfg Nat := { plain with resolver := .sync }
    let s := (Hoard.run (lim.cfg plain) ({} : St Nat Nat Nat) [(at_ 5, .emplace 1 7 .none)]).1
    let late : Env Nat := at_ (2 ^ 63 - 51)
    let soon : Env Nat := at_ (2 ^ 63 - 151)
    (Hoard.step (lim.cfg plain) (at_ 50) s (.getIfExists 1)).2.ret = .val 7 ∧
    (MachineTime.step lim (lim.cfg plain) (at_ 50) s (.get 1 (.ok 8))).isSome = true ∧
    (Hoard.step (day.cfg sync) late ({} : St Nat Nat Nat) (.getIfExists 1)).2.ret = .miss ∧
    (MachineTime.step day (day.cfg sync) late ({} : St Nat Nat Nat) (.get 1 (.ok 7))).isNone = true ∧
    (MachineTime.step day (day.cfg sync) (at_ 5) ({} : St Nat Nat Nat) (.get 1 (.ok 7))).isSome = true ∧
    (Hoard.step (lim.cfg plain) late (Hoard.run (lim.cfg plain) ({} : St Nat Nat Nat) [(soon, .emplace 1 7 .none)]).1 (.getIfExists 1)).2.ret = .miss ∧
    (let s := (Hoard.run (lim.cfg plain) ({} : St Nat Nat Nat) [(soon, .emplace 1 7 .none)]).1
     (Hoard.step (lim.cfg plain) (at_ (2 ^ 63 - 99)) s (.getIfExists 1)).2.ret = .val 7 ∧
     (MachineTime.step lim (lim.cfg plain) (at_ (2 ^ 63 - 99)) s (.get 1 (.ok 8))).isNone = true) := by
  decide +kernel

/-- C103, "for ever".  With an age limit of `milliseconds::max()`, storing a value is undefined, always. -/
theorem C103_age_limit_for_ever (lim : Limits) (base : Cfg K) (ht : lim.ticks = 1000000) (hm : lim.maxAge = some (2 ^ 63 - 1)) (env : Env V) (s : St K V E) (k : K) (v : V) :
    MachineTime.step lim (lim.cfg base) env s (.emplace k v .none) = none := by
  rw [C103_store_overflows_exactly lim base env s k v]
  intro h
  have := (h.age _ hm).1
  unfold Fits at this
  rw [ht] at this
  omega

/-- C103, "for ever".  With an idle timer of `duration::max()`, storing a value is undefined, unless the clock shows its epoch or earlier. -/
theorem C103_idle_timer_for_ever (lim : Limits) (base : Cfg K) (d : Int) (hr : lim.refresh = some (d, 2 ^ 63 - 1)) (env : Env V) (hn : 0 < env.now.steady) (s : St K V E) (k : K) (v : V) :
    MachineTime.step lim (lim.cfg base) env s (.emplace k v .none) = none := by
  rw [C103_store_overflows_exactly lim base env s k v]
  intro h
  have := h.idle _ _ hr (by decide)
  unfold Fits at this
  omega

/-- C103, what wrapping hardware makes of these limits: the deadline is a millisecond ago, or centuries ago, so that the value counts as expired at once. -/
theorem C103_for_ever_is_now (now : Int) (hn : 0 < now ∧ now < 2 ^ 63) :
    wrap (now + wrap ((2 ^ 63 - 1) * 1000000)) = now - 1000000 ∧ reached now (some (wrap (now + wrap ((2 ^ 63 - 1) * 1000000)))) = true ∧
    reached now (some (wrap (now + (2 ^ 63 - 1)))) = true := by
  have h1 : wrap ((2 ^ 63 - 1) * 1000000) = -1000000 := by decide
  rw [h1]
  have h2 : wrap (now + -1000000) = now - 1000000 := by unfold wrap; omega
  have h3 : wrap (now + (2 ^ 63 - 1)) = now - 2 ^ 63 - 1 := by unfold wrap; omega
  rw [h2, h3]
  refine ⟨rfl, ?_, ?_⟩ <;> simp only [reached, decide_eq_true_eq]
  · omega
  · omega

/-- The hypotheses hold for an empty cache, and a cache of plain values; a limit of a year is fine. -/
example :
    let lim : Limits := { maxAge := some (2 ^ 63 - 1) }
    let idle : Limits := { refresh := some (10, 2 ^ 63 - 1) }
    let year : Limits := { maxAge := some 31536000000 }
    lim.ticks = 1000000 ∧ 0 < (at_ 5 : Env Nat).now.steady ∧
    (MachineTime.step lim (lim.cfg plain) (at_ 5) ({} : St Nat Nat Nat) (.emplace 1 7 .none)).isNone = true ∧
    (MachineTime.step idle (idle.cfg plain) (at_ 5) ({} : St Nat Nat Nat) (.emplace 1 7 .none)).isNone = true ∧
    (MachineTime.step year (year.cfg plain) (at_ 5) ({} : St Nat Nat Nat) (.emplace 1 7 .none)).isNone = false := by decide +kernel

end Hoard.Props
