import Verif.SetEntry
import Verif.Props.Dispatch
/-! # C111: entries of sets

`acts ptr (new v) as` is the variant of an entry made with the value `v`, after the calls `as`; `f` is the function with which the
table looks for keys. -/
namespace Hoard.SetEntry
open Hoard.Dispatch
open Hoard.Meta (Pol Cls)
variable {V E : Type}

/-- Holds the value `v`, a weak pointer to it, or nothing any more. -/
def Of (v : V) (m : Mapped V E) : Prop := m = .value v ∨ m = .weak v ∨ m = .gone

theorem Of.markExpired {v : V} {m : Mapped V E} (h : Of v m) : Of v m.markExpired := by
  rcases h with rfl | rfl | rfl <;> exact .inr (.inr rfl)

theorem Of.weaken {v : V} {m : Mapped V E} (h : Of v m) (ptr : Bool) : Of v (m.weaken ptr) := by
  rcases h with rfl | rfl | rfl <;> cases ptr <;> simp [Mapped.weaken, Of]

theorem Of.strengthen {v : V} {m : Mapped V E} (h : Of v m) (env : Env V) : Of v (m.strengthen env) := by
  rcases h with rfl | rfl | rfl <;> simp [Mapped.strengthen, Of]
  cases env.alive v <;> simp

theorem Of.acts {v : V} {m : Mapped V E} (h : Of v m) (ptr : Bool) (as : List (Env V × Act)) : Of v (SetEntry.acts ptr m as) := by
  induction as generalizing m with
  | nil => exact h
  | cons a as ih =>
    obtain ⟨env, a⟩ := a
    refine ih ?_
    cases a with
    | markExpired => exact h.markExpired
    | weaken => exact h.weaken ptr
    | strengthen => exact h.strengthen env
    | cancel => rcases h with rfl | rfl | rfl <;> simp [act, Mapped.cancel, Of]

theorem Of.set {v : V} {d : Data V E} {i j : Nat} {m : Mapped V E} (h : Of v (d.mapped i)) (hm : j = i → Of v m) : Of v (set1 d.mapped j m i) := by
  unfold set1
  split
  · rename_i e; exact hm e.symm
  · exact h

theorem foldl_of {α : Type} {v : V} {i : Nat} (g : Data V E → α → Data V E) (hg : ∀ d x, Of v (d.mapped i) → Of v ((g d x).mapped i)) (l : List α) (d : Data V E)
    (h : Of v (d.mapped i)) : Of v ((l.foldl g d).mapped i) := by
  induction l generalizing d with
  | nil => exact h
  | cons x l ih => exact ih _ (hg d x h)

theorem event_of (user : List Pol) (a : Args V) (pe : PEnv V) (d : Data V E) (i : Nat) (v : V) (h : Of v (d.mapped i)) (e : Ev) :
    Of v ((event user a pe d e).mapped i) := by
  cases e with
  | create j =>
    refine foldl_of _ (fun d p h => ?_) _ d h
    cases p <;> try exact h
    simp only [Dispatch.onCreate]
    split
    · exact h
    · exact h.set fun e => by subst e; exact h.strengthen _
  | assign j b => simp only [event, Dispatch.invoke]; rw [assign_mapped]; exact h
  | hit j =>
    refine foldl_of _ (fun d p h => ?_) _ d h
    cases p <;> try exact h
    · exact h.set fun e => by subst e; exact h.strengthen _
    all_goals
      simp only [Dispatch.onHit, Dispatch.moveIdle]
      split <;> exact h
  | unlink j =>
    refine foldl_of _ (fun d p h => ?_) _ d h
    cases p <;> exact h
  | maintain n =>
    simp only [event, Dispatch.maintain]
    split
    · refine foldl_of _ (fun d j h => ?_) _ d h
      refine h.set fun e => ?_
      subst e
      split
      · exact h.weaken _
      · exact h.markExpired
    · exact h
  | refreshed new old =>
    refine foldl_of _ (fun d p h => ?_) _ d h
    cases p <;> exact h

theorem events_of (user : List Pol) (a : Args V) (d : Data V E) (i : Nat) (v : V) (h : Of v (d.mapped i)) (es : List (PEnv V × Ev)) :
    Of v ((events user a d es).mapped i) :=
  foldl_of (fun d (e : PEnv V × Ev) => event user a e.1 d e.2) (fun d e h => event_of user a e.1 d i v h e.2) es d h

theorem get_of {v : V} {m : Mapped V E} (h : Of v m) (env : Env V) (f : V → Bool) : setGet env m f = mapGet env v m f := by
  rcases h with rfl | rfl | rfl <;> simp only [setGet, mapGet, Mapped.get] <;> cases f v <;> simp

end Hoard.SetEntry

namespace Hoard.Props
open Hoard.Dispatch Hoard.SetEntry
open Hoard.Meta (Pol)
variable {V E : Type}

/-- C111.  A lookup gets from the entry of a set what it would get from the entry of a map that has the same value, and this value as its key:
whatever was done to the two, whatever it looks for. -/
theorem C111_value_is_the_key (ptr : Bool) (v : V) (as : List (Env V × Act)) (env : Env V) (f : V → Bool) :
    setGet env (acts ptr (new v : Mapped V E) as) f = mapGet env v (acts ptr (new v) as) f :=
  get_of (Of.acts (.inl rfl) ptr as) env f

/-- C111.  Asked whether it matches, the entry of a set says yes exactly if the function accepts its value and it still has the value. -/
theorem C111_matches (ptr : Bool) (v : V) (as : List (Env V × Act)) (env : Env V) (f : V → Bool) :
    setMatches env (acts ptr (new v : Mapped V E) as) f = true ↔ f v = true ∧ (acts ptr (new v : Mapped V E) as).holdsValue env = true := by
  rcases Of.acts (E := E) (.inl rfl : Of v (new v)) ptr as with h | h | h <;> rw [h] <;> simp [setMatches, Mapped.holdsValue]
  · cases env.alive v <;> simp

/-- C111 is false for entries that were erased or evicted: they match nothing, whatever happens later, while the entry of a map goes on to match its key. -/
theorem C111_erased_matches_nothing (ptr : Bool) (v : V) (as as' : List (Env V × Act)) (env env' : Env V) (f : V → Bool) (hf : f v = true) :
    setMatches env (acts ptr (new v : Mapped V E) (as ++ (env', .markExpired) :: as')) f = false ∧ mapMatches v f = true := by
  refine ⟨?_, hf⟩
  have h1 : ∀ (as : List (Env V × Act)) (m : Mapped V E), acts ptr m (as ++ (env', .markExpired) :: as') = acts ptr (acts ptr m as).markExpired as' := by
    intro as
    induction as with
    | nil => intro m; rfl
    | cons a as ih => intro m; obtain ⟨e, a⟩ := a; exact ih _
  have h2 : ∀ as' : List (Env V × Act), acts ptr (.gone : Mapped V E) as' = .gone := by
    intro as'
    induction as' with
    | nil => rfl
    | cons a as ih => obtain ⟨e, a⟩ := a; cases a <;> exact ih
  rw [h1]
  rcases Of.acts (E := E) (.inl rfl : Of v (new v)) ptr as with h | h | h <;> rw [h] <;> simp only [Mapped.markExpired, h2, setMatches]

/-- C111, with the policies.  An entry is given the value `v`; after any events that give it nothing else, a lookup in the entry of a set finds the same as in that of a
map, exactly as long as no age limit has passed and no idle timer has run out; afterwards the map's entry is not found, and that of the set is found as if there were no
such policies. -/
theorem C111_lookups_partial (user : List Pol) (a : Args V) (pe0 : PEnv V) (d : Data V E) (i : Nat) (v : V) (hv : d.mapped i = .value v)
    (hexp : ∀ c, d.exp i c = none) (hcan : ∀ p, d.can i p = none) (es : List (PEnv V × Ev)) (hl : ∀ x ∈ es, x.2.leaves i)
    (hh : HitsAlive user a i (event user a pe0 d (.assign i true)) es) (pe : PEnv V) (f : V → Bool) :
    let d' := events user a (event user a pe0 d (.assign i true)) es
    (¬ (TooOld user a pe0 pe ∨ Idle user a (lastUse i pe0 es) pe) → setFinds pe d' i f = mapFinds user pe d' i v f) ∧
    (TooOld user a pe0 pe ∨ Idle user a (lastUse i pe0 es) pe → mapFinds user pe d' i v f = none) ∧
    setFinds pe d' i f = if f v && (d'.mapped i).holdsValue pe.env then some v else none := by
  intro d'
  have ho : Of v (d'.mapped i) := events_of user a _ i v (event_of user a pe0 d i v (.inl hv) _) es
  have hx := C97_when_a_value_expires user a pe0 d i v hv hexp hcan es hl hh pe
  change expired user pe d' i = true ↔ (d'.mapped i).expired pe.env = true ∨ _ at hx
  refine ⟨fun hn => ?_, fun hy => ?_, ?_⟩
  · have : expired user pe d' i = (d'.mapped i).expired pe.env := by
      rw [Bool.eq_iff_iff, hx]
      exact ⟨fun h => h.resolve_right hn, .inl⟩
    unfold setFinds mapFinds setExpired
    rw [this, get_of ho]
  · unfold mapFinds
    rw [hx.2 (.inr hy)]
    unfold take
    split <;> rfl
  · unfold setFinds setExpired
    rcases ho with h | h | h <;> rw [h] <;> simp only [setGet, take, Mapped.expired, Mapped.holdsValue]
    · cases f v <;> simp
    · by_cases ha : pe.env.alive v = true <;> by_cases hf : f v = true <;> simp [ha, hf]
    · simp

/-- C111 is false with an age limit: a value of a set never becomes too old.  The value 7 is given at 0, with a limit of 50; at every later time it is found. -/
theorem C111_age_limit_ignored (t w : Int) (h : 50 ≤ t) :
    let d' := event [.maxAge .steady] ({ age := fun _ => 50 } : Args Nat) (bothClocks 0 0) oneValue (.assign 0 true)
    setFinds (bothClocks t w) d' 0 (· == 7) = some 7 ∧ mapFinds [.maxAge .steady] (bothClocks t w) d' 0 7 (· == 7) = none := by
  intro d'
  have hc := C111_lookups_partial [.maxAge .steady] ({ age := fun _ => 50 } : Args Nat) (bothClocks 0 0) oneValue 0 7 rfl (fun _ => rfl) (fun _ => rfl) []
    (by simp) trivial (bothClocks t w) (· == 7)
  refine ⟨hc.2.2.trans ?_, hc.2.1 (.inl ⟨.steady, by simp, .inl ?_⟩)⟩
  · have : d'.mapped 0 = .value 7 := by
      show (event _ _ _ _ _).mapped 0 = _
      simp only [event, Dispatch.invoke]; rw [assign_mapped]; rfl
    change (if ((7 : Nat) == 7) && (d'.mapped 0).holdsValue _ then some 7 else none) = some 7
    rw [this]; rfl
  · show (0 : Int) + 50 ≤ t
    omega

/-- The calls on an entry: a pointer that is weakened, and strengthened while its object is there. -/
example : setGet (Demo.at_ 0) (acts true (new 7 : Mapped Nat Nat) [(Demo.at_ 0, .weaken), (Demo.at_ 0, .strengthen), (Demo.at_ 0, .weaken)]) (· == 7) = .val 7 ∧
    setMatches (Demo.at_ 0) (acts true (new 7 : Mapped Nat Nat) [(Demo.at_ 0, .weaken)]) (· == 7) = true ∧
    setMatches (Demo.at_ 0) (acts false (new 7 : Mapped Nat Nat) [(Demo.at_ 0, .weaken)]) (· == 7) = false := ⟨rfl, rfl, rfl⟩

/-- `C111_lookups_partial` for policies and events that do something: at 50 the entry of a map is not found any more. -/
example (f : Nat → Bool) :
    let d' := events manyPolicies manyArgs (event manyPolicies manyArgs (bothClocks 0 0) oneValue (.assign 0 true)) someEvents
    mapFinds manyPolicies (bothClocks 50 5) d' 0 7 f = none :=
  (C111_lookups_partial manyPolicies manyArgs (bothClocks 0 0) oneValue 0 7 rfl (fun _ => rfl) (fun _ => rfl) someEvents (by simp [someEvents, Ev.leaves])
    manyPolicies_alive (bothClocks 50 5) f).2.1 (.inl ⟨.steady, by decide, .inl (by decide)⟩)

end Hoard.Props
