import Verif.SymmetryLemmas
import Verif.Props.Clocks
/-! # What the cache does not look at -/
namespace Hoard.Props
open Hoard Spec Demo
variable {K V E K' V' E' : Type}

/-- C81 to C84 at once: rewrite a history in any of these ways; what is seen of it is what was seen before, rewritten.  The history
rewritten is possible if the history is. -/
theorem outs_rename (σ : Renaming K V E K' V' E') {cfg : Cfg K} {cfg' : Cfg K'} (hk : KeysOk cfg cfg' σ.key) {h : Hist K V E} {h' : Hist K' V' E'}
    (hh : σ.HistOf h h') : (HistOk cfg' St.init h' ↔ HistOk cfg St.init h) ∧ outsOf cfg' h' = (outsOf cfg h).map σ.out := by
  have h1 := Renaming.run_rename hk hh St.init
  have h2 := Renaming.histOk_rename hk hh St.init
  rw [Renaming.st_init] at h1 h2
  exact ⟨h2, congrArg Prod.snd h1⟩

theorem keysOk_id (cfg : Cfg K) : KeysOk cfg cfg id := ⟨rfl, fun _ => rfl, fun _ _ => rfl⟩

/-! ## C81 -/

/-- C81.  Values and errors are not looked at.  Replace all values and all errors in a history by others, in any way (different values may
become the same one), such that a pointer is replaced by one whose object lives as long.  Then every call does the same, with the
replaced values and errors in the place of the old ones: the same hits and misses, the same calls of the resolver, the
same waiters told, in the same order. -/
theorem C81_values_are_opaque (cfg : Cfg K) (f : V → V') (g : E → E') (h : Hist K V E) (h' : Hist K V' E')
    (hh : Renaming.HistOf { key := id, val := f, err := g } h h') :
    (HistOk cfg St.init h' ↔ HistOk cfg St.init h) ∧
    outsOf cfg h' = (outsOf cfg h).map (Renaming.out { key := id, val := f, err := g }) :=
  outs_rename _ (keysOk_id cfg) hh

/-- C81, for a cache of wrapped values: store something made from the value (`wrap`), and read the value out of what is found.  If
reading out undoes wrapping, nobody can tell. -/
theorem C81_wrapped_values (cfg : Cfg K) (wrap : V → V') (unwrap : V' → V) (hw : ∀ v, unwrap (wrap v) = v) (h : Hist K V E) (h' : Hist K V' E)
    (hh : Renaming.HistOf { key := id, val := wrap, err := id } h h') :
    (outsOf cfg h').map (Renaming.out { key := id, val := unwrap, err := id }) = outsOf cfg h := by
  rw [(C81_values_are_opaque cfg wrap id h h' hh).2, List.map_map]
  refine (List.map_congr_left (g := id) (fun o _ => ?_)).trans (List.map_id _)
  obtain ⟨ret, fired, broken, calls, made⟩ := o
  have h1 : ∀ r : Res V E, Renaming.res { key := (id : K → K), val := unwrap, err := id } (Renaming.res { key := (id : K → K), val := wrap, err := id } r) = r := by
    intro r
    cases r with
    | ok v => exact congrArg Res.ok (hw v)
    | err e => rfl
  have h2 : ∀ r : Ret V E, Renaming.ret { key := (id : K → K), val := unwrap, err := id } (Renaming.ret { key := (id : K → K), val := wrap, err := id } r) = r := by
    intro r
    cases r with
    | val v => exact congrArg Ret.val (hw v)
    | _ => rfl
  simp [Renaming.out, h1, h2, Function.comp_def]

/-! ## C82 -/

/-- C82.  Of keys only the hash code and equality matter.  Replace the type of keys by another, with any hash and equality functions, and
every key in a history by one with the same hash code, such that keys are equal exactly if they were.  Then every call does
the same, and the resolver is called with the replaced keys. -/
theorem C82_keys_are_only_hashed_and_compared (cfg : Cfg K) (cfg' : Cfg K') (f : K → K') (hk : KeysOk cfg cfg' f) (h : Hist K V E) (h' : Hist K' V E)
    (hh : Renaming.HistOf { key := f, val := id, err := id } h h') :
    (HistOk cfg' St.init h' ↔ HistOk cfg St.init h) ∧
    outsOf cfg' h' = (outsOf cfg h).map (Renaming.out { key := f, val := id, err := id }) :=
  outs_rename _ hk hh

/-- The outputs of a history, with other names for the waiters and nothing else changed. -/
def renamed (w : Nat → Nat) (o : Out K V E) : Out K V E :=
  { o with fired := o.fired.map (fun p => (w p.1, p.2)), broken := o.broken.map w }

/-- An operation, with other names for the waiters. -/
def opCalledBy (w : Nat → Nat) : Op K V E → Op K V E
  | .asyncGet k x b => .asyncGet k (w x) b
  | o => o

theorem out_waiter (w : Nat → Nat) (a b : Int) (o : Out K V E) : Renaming.out { key := id, val := id, err := id, waiter := w, steady := a, wall := b } o = renamed w o := by
  have h1 : ∀ r : Res V E, Renaming.res { key := (id : K → K), val := id, err := id, waiter := w, steady := a, wall := b } r = r := by intro r; cases r <;> rfl
  have h2 : ∀ r : Ret V E, Renaming.ret { key := (id : K → K), val := id, err := id, waiter := w, steady := a, wall := b } r = r := by intro r; cases r <;> rfl
  simp [Renaming.out, renamed, h1, h2]

theorem op_waiter (w : Nat → Nat) (a b : Int) (o : Op K V E) : Renaming.op { key := id, val := id, err := id, waiter := w, steady := a, wall := b } o = opCalledBy w o := by
  have h1 : ∀ r : Res V E, Renaming.res { key := (id : K → K), val := id, err := id, waiter := w, steady := a, wall := b } r = r := by intro r; cases r <;> rfl
  have h2 : ∀ r : Beh V E, Renaming.beh { key := (id : K → K), val := id, err := id, waiter := w, steady := a, wall := b } r = r := by
    intro r
    cases r <;> simp [Renaming.beh, h1]
  cases o <;> simp [Renaming.op, opCalledBy, h1, h2]

/-! ## C83 -/

/-- Set both clocks differently, for the whole history. -/
def shifted (a b : Int) (h : Hist K V E) : Hist K V E :=
  h.map (fun p => ({ p.1 with now := ⟨p.1.now.steady + a, p.1.now.wall + b⟩ }, p.2))

theorem shifted_of (a b : Int) : ∀ h : Hist K V E, Renaming.HistOf { key := id, val := id, err := id, steady := a, wall := b } h (shifted a b h)
  | [] => .nil
  | (env, o) :: h => by
    have h1 := op_waiter (K := K) (V := V) (E := E) id a b o
    rw [show opCalledBy id o = o by cases o <;> rfl] at h1
    have h3 := Renaming.HistOf.cons (σ := { key := id, val := id, err := id, steady := a, wall := b }) (env := env) (o := o)
      (env' := { env with now := ⟨env.now.steady + a, env.now.wall + b⟩ }) ⟨rfl, fun _ => rfl⟩ (shifted_of a b h)
    rw [h1] at h3
    exact h3

/-- C83.  Only differences between times matter.  Whatever the two clocks showed when the program started: add the same amount to all
readings of one, and another amount to all readings of the other.  Every call does exactly the same. -/
theorem C83_only_time_differences_matter (cfg : Cfg K) (a b : Int) (h : Hist K V E) : outsOf cfg (shifted a b h) = outsOf cfg h := by
  rw [(outs_rename _ (keysOk_id cfg) (shifted_of a b h)).2]
  refine (List.map_congr_left (g := id) (fun o _ => ?_)).trans (List.map_id _)
  rw [out_waiter]
  simp [renamed]

/-! ## C84 -/

/-- Call the waiters by other names, for the whole history. -/
def calledBy (w : Nat → Nat) (h : Hist K V E) : Hist K V E :=
  h.map (fun p => (p.1, opCalledBy w p.2))

theorem calledBy_of (w : Nat → Nat) : ∀ h : Hist K V E, Renaming.HistOf { key := id, val := id, err := id, waiter := w } h (calledBy w h)
  | [] => .nil
  | (env, o) :: h => by
    have h1 := op_waiter (K := K) (V := V) (E := E) w 0 0 o
    have h3 := Renaming.HistOf.cons (σ := { key := id, val := id, err := id, waiter := w }) (env := env) (o := o)
      (env' := env) ⟨by simp [Renaming.time], fun _ => rfl⟩ (calledBy_of w h)
    rw [h1] at h3
    exact h3

/-- C84.  Who waits makes no difference.  Give the callbacks of asynchronous gets other names, in any way; also two callbacks may become the
same one, as if a callback were passed twice.  The same happens at the same places, to the callbacks under their new names: nothing is
decided by who asks, and a callback passed twice is invoked for each time it was passed. -/
theorem C84_who_waits_makes_no_difference (cfg : Cfg K) (w : Nat → Nat) (h : Hist K V E) : outsOf cfg (calledBy w h) = (outsOf cfg h).map (renamed w) := by
  rw [(outs_rename _ (keysOk_id cfg) (calledBy_of w h)).2]
  exact List.map_congr_left (fun o _ => out_waiter w 0 0 o)

/-! ## A case -/

/-- Pointers, at most two entries, an age limit on a clock that can be set, refreshing, an asynchronous resolver. -/
def everything : Cfg Nat :=
  { plain with ptr := true, weaken := true, maxSize := some 2, maxAge := some 20, wall := true, refresh := some (3, 9), resolver := .async }

/-- A busy history of such a cache.  The numbers are pointers; from time 7 on the object 12 is gone. -/
def longDay : Hist Nat Nat Nat :=
  [(clocks 0 100, .asyncGet 1 70 .later), (clocks 0 100, .asyncGet 1 71 .later), (clocks 1 101, .complete 0 (.ok 11)),
   (clocks 2 102, .emplace 5 12 .none), (clocks 2 102, .emplace 9 13 .none), (clocks 2 102, .asyncGet 1 72 .later),
   (clocks 5 105, .tick (.err 0) .later), (clocks 5 105, .complete 3 (.ok 14)), (clocks 6 106, .asyncGet 1 73 .later),
   (⟨⟨7, 107⟩, fun v => v != 12⟩, .asyncGet 5 74 (.now (.err 40))), (⟨⟨8, 108⟩, fun v => v != 12⟩, .count)]

/-- What is seen of it. -/
example : HistOk everything St.init longDay ∧ (outsOf everything longDay).map (·.fired) =
    [[], [], [(70, .ok 11), (71, .ok 11)], [], [], [(72, .ok 11)], [], [], [(73, .ok 14)], [(74, .err 40)], []] ∧
    (outsOf everything longDay).map (·.calls) = [[(1, 0)], [], [], [], [], [], [(1, 3)], [], [], [(5, 4)], []] :=
  ⟨by decide, by decide, by decide⟩

/-- C81: values become optional values, errors forget which they were. -/
example : ∃ h', Renaming.HistOf ({ key := id, val := fun v : Nat => some v, err := fun _ : Nat => () } : Renaming Nat Nat Nat Nat (Option Nat) Unit) longDay h' :=
  ⟨longDay.map (fun p => (⟨p.1.now, fun v => v.any p.1.alive⟩, Renaming.op { key := id, val := some, err := fun _ => () } p.2)), by
    have : ∀ h : Hist Nat Nat Nat, Renaming.HistOf ({ key := id, val := fun v : Nat => some v, err := fun _ : Nat => () } : Renaming Nat Nat Nat Nat (Option Nat) Unit) h
        (h.map (fun p => (⟨p.1.now, fun v => v.any p.1.alive⟩, Renaming.op { key := id, val := some, err := fun _ => () } p.2))) := by
      intro h
      induction h with
      | nil => exact .nil
      | cons p h ih => exact .cons ⟨by simp [Renaming.time], fun v => by simp⟩ ih
    exact this longDay⟩

/-- C82: keys become pairs of numbers; only the first counts, and the hash code is computed differently. -/
example : KeysOk everything (everything.rekey (fun k : Nat × Nat => (k.1 + 4 * k.2) % 4) (fun a b => a.1 == b.1)) (fun k => (k, k + 3)) :=
  ⟨rfl, fun k => by simp [everything, plain, Cfg.rekey], fun a b => by simp [everything, plain, Cfg.rekey]⟩

/-- C83 and C84: the same day much later, on clocks that disagree even more; and with everybody waiting under the same name. -/
example : (shifted 1000 (-5000) longDay).map (fun p => (p.1.now.steady, p.1.now.wall)) = [(1000, -4900), (1000, -4900), (1001, -4899), (1002, -4898), (1002, -4898),
      (1002, -4898), (1005, -4895), (1005, -4895), (1006, -4894), (1007, -4893), (1008, -4892)] ∧
    (outsOf everything (calledBy (fun _ => 7) longDay)).map (·.fired) =
      [[], [], [(7, .ok 11), (7, .ok 11)], [], [], [(7, .ok 11)], [], [], [(7, .ok 14)], [(7, .err 40)], []] :=
  ⟨by decide, by decide⟩

end Hoard.Props
