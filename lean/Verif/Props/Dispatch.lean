import Verif.Spec.Dispatch
import Verif.DispatchTimes
import Verif.DispatchPerm
/-! # Events and policies: C96, C97, C98 -/
namespace Hoard.Props
open Hoard Hoard.Dispatch
open Hoard.Meta (Pol Clock Cls allPolicies lib valueBases valueBase keepsErrors Required Needs libDeps World)
variable {K V E : Type}

/-! ## C96 -/

/-- C96: the order in which policies are named does not matter.  Whatever events there are and at whatever times, what the policies
keep, and whether an entry is expired, is the same. -/
theorem C96_order_of_policies (user user' : List Pol) (h : user.Perm user') (a : Args V) (d : Data V E) (es : List (PEnv V × Ev)) :
    events user a d es = events user' a d es ∧
    ∀ pe i, expired user pe (events user a d es) i = expired user' pe (events user' a d es) i := by
  have h1 : ∀ (es : List (PEnv V × Ev)) (d : Data V E), events user a d es = events user' a d es := by
    intro es
    induction es with
    | nil => intro d; rfl
    | cons e es ih =>
      intro d
      show events user a (event user a e.1 d e.2) es = events user' a (event user' a e.1 d e.2) es
      rw [ih, event_perm h]
  refine ⟨h1 es d, fun pe i => ?_⟩
  rw [h1 es d]
  have hk : keepsErrors user = keepsErrors user' := by rw [C19_errors_are_never_kept, C19_errors_are_never_kept]
  simp only [expired, hk]
  exact (bases_perm h).foldl_eq' (fun b _ c _ x => by (repeat' split) <;> rfl) _

/-- C96: the cache of `Verif.Cache`, about which the other properties are, does at each event what its policies do one after the other,
in whatever order they are named; and the entries it takes for expired are those for which one of the bases says so. -/
theorem C96_cache_does_what_the_policies_do [DecidableEq K] (cfg : Cfg K) (user : List Pol) (a : Args V) (c : Clock) (f : Fits cfg user a c)
    (env : Env V) (pe : PEnv V) (t : SameTime c env pe) (s : St K V E) (d : Data V E) (h : Sees user c s d) :
    (∀ i, Sees user c (Hoard.onCreate cfg env s i) (event user a pe d (.create i))) ∧
    (∀ i value, Sees user c (Hoard.onAssign cfg env s i value) (event user a pe d (.assign i value))) ∧
    (∀ i, Sees user c (Hoard.onHit cfg env s i) (event user a pe d (.hit i))) ∧
    (∀ e : Entry K V E, SeesEntry user c e d → (∀ e' ∈ s.ents ++ s.limbo, e'.id ≠ e.id) →
      Sees user c (disposeOne cfg s e) (event user a pe { d with mapped := set1 d.mapped e.id (d.mapped e.id).cancel } (.unlink e.id))) ∧
    Sees user c (Hoard.maintenance cfg s) (event user a pe d (.maintain s.size)) ∧
    ∀ e ∈ s.ents ++ s.limbo, e.expired env = expired user pe d e.id :=
  ⟨fun i => create_sim f t h i, fun i v => assign_sim f t h i v, fun i => hit_sim f t h i, fun e he hne => unlink_sim f h e he hne,
    maintain_sim f h, fun e he => expired_sim f t (h.entry e he)⟩

/-! ## C97 -/

/-- C97: when a value expires, with any policies and any number of clocks.  Entry `i` is given a value when the clocks show `pe0`; after that there may be
events of all kinds, but it is given nothing else.  At `pe` it is expired exactly if the value itself is gone (evicted, or a weak pointer to an object
that is no more), or one of the age limits has passed since `pe0`, or one of the idle timers since it was last used. -/
theorem C97_when_a_value_expires (user : List Pol) (a : Args V) (pe0 : PEnv V) (d : Data V E) (i : Nat) (v : V) (hv : d.mapped i = .value v)
    (hexp : ∀ c, d.exp i c = none) (hcan : ∀ p, d.can i p = none) (es : List (PEnv V × Ev)) (hl : ∀ x ∈ es, x.2.leaves i)
    (hh : HitsAlive user a i (event user a pe0 d (.assign i true)) es) (pe : PEnv V) :
    expired user pe (events user a (event user a pe0 d (.assign i true)) es) i = true ↔
      ((events user a (event user a pe0 d (.assign i true)) es).mapped i).expired pe.env = true ∨
      TooOld user a pe0 pe ∨ Idle user a (lastUse i pe0 es) pe :=
  times_expired i pe0 _ pe _ (times_run i pe0 pe0 es _ (times_assign i pe0 d v hv hexp hcan) hl hh)

/-- C97: a refresh is not a use.  When `old` is refreshed by `new`, the new entry expires when it would have expired by itself, and
also when the old one would have been idle for too long. -/
theorem C97_refresh_is_not_a_use (user : List Pol) (a : Args V) (pe0 : PEnv V) (d : Data V E) (old new : Nat) (hne : new ≠ old) (v : V)
    (hv : d.mapped old = .value v) (hexp : ∀ c, d.exp old c = none) (hcan : ∀ p, d.can old p = none) (es : List (PEnv V × Ev))
    (hl : ∀ x ∈ es, x.2.leaves old) (hh : HitsAlive user a old (event user a pe0 d (.assign old true)) es) (pe2 pe : PEnv V) :
    expired user pe (events user a (event user a pe0 d (.assign old true)) (es ++ [(pe2, .refreshed new old)])) new = true ↔
      expired user pe (events user a (event user a pe0 d (.assign old true)) es) new = true ∨ Idle user a (lastUse old pe0 es) pe := by
  have := refresh_expired new old hne pe0 _ pe2 pe _ (times_run old pe0 pe0 es _ (times_assign old pe0 d v hv hexp hcan) hl hh)
  simpa [events] using this

/-! ## C98 -/

/-- C98: when a refresh is due.  Entry `i` is given a value when the clocks show `pe0`.  Whatever happens then, short of its removal and of giving it something
else, each refresh policy that is named has it due at the time that was fixed then, and `refresh_policy` has it in its list. -/
theorem C98_when_a_refresh_is_due (user : List Pol) (a : Args V) (pe0 : PEnv V) (d : Data V E) (i : Nat) (v : V) (hv : d.mapped i = .value v)
    (es : List (PEnv V × Ev)) (hl : ∀ x ∈ es, x.2.leaves i ∧ x.2 ≠ .unlink i) :
    (∀ p ∈ user, ∀ t, DueAt a pe0 v p = some t → (events user a (event user a pe0 d (.assign i true)) es).refT i p = some t) ∧
    (∀ c, .refresh c ∈ user → i ∈ (events user a (event user a pe0 d (.assign i true)) es).dq (.refresh c)) := by
  constructor
  · intro p hp t ht
    rw [(due_run i es _ hl p).1]
    simp only [event, invoke]
    rw [(assign_due _ i d v hv p).1, if_pos, ht]
    obtain ⟨added, h⟩ := C39_named_policies_kept (W := lib) user
    exact ⟨by rw [h]; simp [hp], by simp [ht]⟩
  · intro c hc
    refine (due_run i es _ hl _).2 ((assign_due _ i d v hv _).2 rfl (.inl ((mem_user user trivial).2 hc)))

/-- C98: an entry that was removed is due nowhere: no timer runs for it, and it has left the list of each `refresh_policy` in which it was once. -/
theorem C98_not_due_after_removal (user : List Pol) (hu : user.Nodup) (a : Args V) (pe : PEnv V) (d : Data V E) (i : Nat) :
    (∀ c n, (.asioRefresh c n ∈ user → (event user a pe d (.unlink i)).refT i (.asioRefresh c n) = none) ∧
      (.asioRefreshFn c n ∈ user → (event user a pe d (.unlink i)).refT i (.asioRefreshFn c n) = none)) ∧
    (∀ c, .refresh c ∈ user → (d.dq (.refresh c)).Nodup → i ∉ (event user a pe d (.unlink i)).dq (.refresh c)) := by
  have hn := C39_library_no_policy_twice user hu
  refine ⟨fun c n => ⟨fun h => ?_, fun h => ?_⟩, fun c h hd => ?_⟩
  · exact (unlink_due _ hn i d _ ((mem_user user trivial).2 h)).1 ⟨c, n, .inl rfl⟩
  · exact (unlink_due _ hn i d _ ((mem_user user trivial).2 h)).1 ⟨c, n, .inr rfl⟩
  · have := (unlink_due _ hn i d _ ((mem_user user trivial).2 h)).2 rfl
    simp only [event, invoke]
    rw [this]
    exact fun g => (List.Nodup.mem_erase_iff hd).1 g |>.1 rfl

/-- C98: an error is not refreshed, and starts no idle timer. -/
theorem C98_errors_are_not_due (user : List Pol) (a : Args V) (pe : PEnv V) (d : Data V E) (i : Nat) :
    (event user a pe d (.assign i false)).refT = d.refT ∧ (event user a pe d (.assign i false)).can = d.can ∧ (event user a pe d (.assign i false)).dq = d.dq :=
  assign_due_error _ i d

/-! ## Cases that meet the hypotheses -/

/-- Two age limits, on a clock that can be set and on the steady clock, an idle timer and a bound. -/
def manyPolicies : List Pol := [.maxSize, .maxAge .system, .maxAge .steady, .refresh .steady]
def manyArgs : Args Nat := { size := 2, age := fun c => if c = .steady then 50 else 100, delay := fun _ => 20, idle := fun _ => 30 }
def bothClocks (t w : Int) : PEnv Nat := ⟨fun c => if c = .steady then t else w, fun _ => true⟩
def oneValue : Data Nat Nat := ⟨fun _ => .value 7, fun _ _ => none, fun _ _ => none, fun _ _ => none, fun _ => [], {}⟩
def someEvents : List (PEnv Nat × Ev) := [(bothClocks 20 5, .hit 0), (bothClocks 25 5, .create 1), (bothClocks 26 5, .assign 1 true), (bothClocks 27 5, .maintain 2)]

theorem manyPolicies_all : allPolicies lib manyPolicies =
    [.allocator 0, .equal 0, .hash 0, .error 0, .queue, .expireAt .system, .expireAt .steady, .refreshImpl, .threadSafe] ++ manyPolicies := by
  simp only [manyPolicies, allPolicies, Meta.extraMutex, Meta.extraError, Meta.hasLock, Meta.policyDependencies, lib_dependent]; decide

theorem manyPolicies_bases : valueBases manyPolicies = [.queueBase, .expireAtBase .system, .expireAtBase .steady, .refreshImplBase, .refreshBase .steady] := by
  simp only [valueBases, manyPolicies, allPolicies, Meta.extraMutex, Meta.extraError, Meta.hasLock, Meta.policyDependencies, lib_dependent]; decide

theorem manyPolicies_alive : HitsAlive manyPolicies manyArgs 0 (event manyPolicies manyArgs (bothClocks 0 0) oneValue (.assign 0 true)) someEvents := by
  simp only [someEvents, HitsAlive, expired, event, manyPolicies_all, manyPolicies_bases, C19_errors_are_never_kept]
  decide

/-- `C96_order_of_policies`: two orders. -/
example : manyPolicies.Perm [.refresh .steady, .maxAge .steady, .maxSize, .maxAge .system] ∧
    manyPolicies ≠ [.refresh .steady, .maxAge .steady, .maxSize, .maxAge .system] := by
  exact ⟨List.isPerm_iff.1 (by decide), by decide⟩

/-- `C96_cache_does_what_the_policies_do`: a cache that is bounded, limits the age on the clock that can be set, and refreshes. -/
example : Fits (K := Nat) { Demo.plain with maxSize := some 2, maxAge := some 100, wall := true, refresh := some (20, 30) }
      [.refresh .steady, .maxAge .system, .maxSize] manyArgs .system ∧
    Sees [.refresh .steady, .maxAge .system, .maxSize] .system (St.init : St Nat Nat Nat) oneValue ∧
    SameTime .system (⟨⟨3, 4⟩, fun _ => true⟩ : Env Nat) (bothClocks 3 4) := by
  refine ⟨⟨.inr rfl, by decide, by decide, by decide, by decide, by decide, by decide, by decide, ?_, ?_, by simp, by decide, by decide⟩,
    ⟨by simp [St.init, St.ents], rfl, rfl, by simp [St.init]⟩, ⟨by decide, by decide, rfl⟩⟩
  · intro c; simp
  · intro c; simp

/-- `C97_when_a_value_expires`: the value given at 0 and used at 20 is there at 49, and at 50 it is too old and idle for too long; if the other clock is set
to 100 it is too old at 30. -/
example : let d := events manyPolicies manyArgs (event manyPolicies manyArgs (bothClocks 0 0) oneValue (.assign 0 true)) someEvents
    expired manyPolicies (bothClocks 49 5) d 0 = false ∧ expired manyPolicies (bothClocks 50 5) d 0 = true ∧
    expired manyPolicies (bothClocks 30 100) d 0 = true ∧ TooOld manyPolicies manyArgs (bothClocks 0 0) (bothClocks 30 100) ∧
    ¬ Idle manyPolicies manyArgs (lastUse 0 (bothClocks 0 0) someEvents) (bothClocks 30 100) := by
  have h := C97_when_a_value_expires manyPolicies manyArgs (bothClocks 0 0) oneValue 0 7 rfl (fun _ => rfl) (fun _ => rfl) someEvents (by simp [someEvents, Ev.leaves])
    manyPolicies_alive
  have old : TooOld manyPolicies manyArgs (bothClocks 0 0) (bothClocks 30 100) := ⟨.system, by decide, .inl (by decide)⟩
  refine ⟨?_, (h _).2 (.inr (.inl ⟨.steady, by decide, .inl (by decide)⟩)), (h _).2 (.inr (.inl old)), old, ?_⟩
  · simp only [events, someEvents, List.foldl_cons, List.foldl_nil, expired, event, manyPolicies_all, manyPolicies_bases, C19_errors_are_never_kept]
    decide
  · rintro ⟨p, hp, c, hr, _, g⟩
    have hp' := (refreshes_iff p c).1 hr
    simp only [manyPolicies, List.mem_cons, List.not_mem_nil, or_false] at hp
    rcases hp with rfl | rfl | rfl | rfl <;> simp [refreshClock] at hp'
    subst hp'
    revert g; decide

/-- `C97_refresh_is_not_a_use`: the value given at 0, used at 20 and refreshed at 40 by an entry that is given its value then, and is not hit, is expired at 50. -/
example : expired manyPolicies (bothClocks 50 5)
    (events manyPolicies manyArgs (event manyPolicies manyArgs (bothClocks 0 0) oneValue (.assign 0 true))
      (someEvents ++ [(bothClocks 40 5, .assign 2 true)] ++ [(bothClocks 40 5, .refreshed 2 0)])) 2 = true := by
  refine (C97_refresh_is_not_a_use manyPolicies manyArgs (bothClocks 0 0) oneValue 0 2 (by decide) 7 rfl (fun _ => rfl) (fun _ => rfl)
    (someEvents ++ [(bothClocks 40 5, .assign 2 true)]) (by simp [someEvents, Ev.leaves]) ?_ _ (bothClocks 50 5)).2 (.inr ⟨.refresh .steady, by decide, .steady, .inl rfl, by decide, by decide⟩)
  simp only [someEvents, List.cons_append, List.nil_append, HitsAlive, expired, event, manyPolicies_all, manyPolicies_bases, C19_errors_are_never_kept]
  decide

/-- `C98_when_a_refresh_is_due`: with a delay of 20 a value given at 0 is due at 20, although it is used meanwhile. -/
example : let d := events manyPolicies manyArgs (event manyPolicies manyArgs (bothClocks 0 0) oneValue (.assign 0 true)) someEvents
    d.refT 0 (.refresh .steady) = some 20 ∧ 0 ∈ d.dq (.refresh .steady) := by
  have h := C98_when_a_refresh_is_due manyPolicies manyArgs (bothClocks 0 0) oneValue 0 7 rfl someEvents (by simp [someEvents, Ev.leaves])
  exact ⟨h.1 (.refresh .steady) (by decide) 20 (by decide), h.2 .steady (by decide)⟩

/-- `C98_not_due_after_removal`: timers of both kinds that run, and lists the entry is in; `C98_errors_are_not_due`: an error that is given to it. -/
example : [Pol.refresh .steady, .asioRefresh .steady 1, .asioRefreshFn .system 2].Nodup ∧
    (let d : Data Nat Nat := { oneValue with refT := fun _ _ => some 20, dq := fun _ => [4, 0, 5], can := fun _ _ => some 30 }
      ∀ a pe, (d.dq (.refresh .steady)).Nodup ∧
        (event [.refresh .steady, .asioRefresh .steady 1, .asioRefreshFn .system 2] a pe d (.unlink 0)).refT 0 (.asioRefreshFn .system 2) = none ∧
        0 ∉ (event [.refresh .steady, .asioRefresh .steady 1, .asioRefreshFn .system 2] a pe d (.unlink 0)).dq (.refresh .steady) ∧
        (event [.refresh .steady, .asioRefresh .steady 1, .asioRefreshFn .system 2] a pe d (.assign 0 false)).refT 0 (.refresh .steady) = some 20) := by
  refine ⟨by decide, fun a pe => ?_⟩
  have h := C98_not_due_after_removal [.refresh .steady, .asioRefresh .steady 1, .asioRefreshFn .system 2] (by decide) a pe
    ({ oneValue with refT := fun _ _ => some 20, dq := fun _ => [4, 0, 5], can := fun _ _ => some 30 } : Data Nat Nat) 0
  exact ⟨by decide, (h.1 _ _).2 (by decide), h.2 _ (by decide) (by decide), by rw [(C98_errors_are_not_due _ a pe _ 0).1]⟩

end Hoard.Props
