import Verif.Spec.Member
/-! # Member pointers -/
namespace Hoard.Props
open Hoard Member
variable {V M E : Type}

/-- The entry without member pointers that stands for one with. -/
def Held.plain (c : Conv V M) : Held V M E → Mapped V E
  | .pending p => .pending p
  | .member m => .value (c.back m)
  | .weak v => .weak v
  | .gone => .gone
  | .error e => .error e

/-- All pointers in the entry have been stored and read back at least once. -/
def Held.Rounded (c : Conv V M) : Held V M E → Prop
  | .member m => ∃ v, m = c.wrap v
  | .weak v => ∃ u, v = c.round u
  | _ => True

theorem alike (c : Conv V M) (h : Held V M E) : Alike c h (Held.plain c h) := by
  cases h <;> exact ⟨fun _ _ => rfl, fun _ => rfl, fun _ => rfl, rfl, rfl⟩

theorem act_plain (c : Conv V M) (hr : ∀ v, c.round (c.round v) = c.round v) (env : Env V) (h : Held V M E) (hh : Held.Rounded c h) (a : Act V E) :
    (act c env h a).map (fun p => (Held.plain c p.1, p.2)) = plainAct env (Held.plain c h) (a.on c.round) ∧
    ∀ p, act c env h a = some p → Held.Rounded c p.1 := by
  cases a with
  | markExpired => cases h <;> exact ⟨rfl, fun p hp => by cases hp; trivial⟩
  | weaken =>
    cases h with
    | member m =>
      obtain ⟨v, rfl⟩ := hh
      exact ⟨rfl, fun p hp => by cases hp; exact ⟨v, rfl⟩⟩
    | weak v => exact ⟨rfl, fun p hp => by cases hp; exact hh⟩
    | _ => exact ⟨rfl, fun p hp => by cases hp; trivial⟩
  | strengthen =>
    cases h with
    | pending p =>
      constructor
      · simp only [act, Held.strengthen, Held.plain, Act.on, plainAct, Mapped.strengthen]
        split <;> rfl
      · intro q hq
        cases hq
        simp only [Held.strengthen]
        split <;> trivial
    | weak v =>
      obtain ⟨u, rfl⟩ := hh
      constructor
      · simp only [act, Held.strengthen, Held.plain, Act.on, plainAct, Mapped.strengthen]
        split
        · exact congrArg (fun x => some (Mapped.value x, [])) (hr u)
        · rfl
      · intro q hq
        cases hq
        simp only [Held.strengthen]
        split
        · exact ⟨_, rfl⟩
        · exact ⟨u, rfl⟩
    | member m => exact ⟨rfl, fun p hp => by cases hp; exact hh⟩
    | _ => exact ⟨rfl, fun p hp => by cases hp; trivial⟩
  | cancel =>
    cases h with
    | member m => exact ⟨rfl, fun p hp => by cases hp; exact hh⟩
    | weak v => exact ⟨rfl, fun p hp => by cases hp; exact hh⟩
    | _ => exact ⟨rfl, fun p hp => by cases hp; trivial⟩
  | addCb cb =>
    cases h with
    | member m => exact ⟨rfl, fun p hp => by cases hp; exact hh⟩
    | weak v => exact ⟨rfl, fun p hp => by cases hp; exact hh⟩
    | _ => exact ⟨rfl, fun p hp => by cases hp; trivial⟩
  | assign v =>
    cases h with
    | pending p =>
      constructor
      · rcases p with ⟨cbs, ex, wk⟩
        cases ex <;> cases wk <;> rfl
      · intro q hq
        cases hq
        show Held.Rounded c (if p.expired then _ else _)
        split
        · trivial
        · split
          · exact ⟨v, rfl⟩
          · exact ⟨v, rfl⟩
    | _ => exact ⟨rfl, fun p hp => by cases hp⟩
  | assignError e =>
    cases h with
    | pending p =>
      constructor
      · rcases p with ⟨cbs, ex, wk⟩
        cases ex <;> cases wk <;> rfl
      · intro q hq
        cases hq
        show Held.Rounded c (if p.expired || p.weakened then _ else _)
        split <;> trivial
    | _ => exact ⟨rfl, fun p hp => by cases hp⟩

theorem acts_plain (c : Conv V M) (hr : ∀ v, c.round (c.round v) = c.round v) : ∀ (as : List (Env V × Act V E)) (h : Held V M E), Held.Rounded c h →
    (acts c h as).map (fun p => (Held.plain c p.1, p.2)) = plainActs (Held.plain c h) (as.map (fun p => (p.1, p.2.on c.round)))
  | [], _, _ => rfl
  | (env, a) :: as, h, hh => by
    obtain ⟨h1, h2⟩ := act_plain c hr env h hh a
    simp only [acts, List.map_cons, plainActs, ← h1]
    cases ha : act c env h a with
    | none => rfl
    | some p =>
      simp only [Option.map_some, ← acts_plain c hr as p.1 (h2 p ha)]
      cases acts c p.1 as <;> rfl

/-! ## C85 -/

/-- C85.  Member pointers are invisible.  Take a member pointer type and functor such that storing a pointer and reading it back a second
time changes nothing more.  Then an entry of the cache, however it came to be and whatever is done to it afterwards (weakening and
strengthening it, completing it, marking it expired, in any order and at any times), answers every question like an entry
that stores the pointer itself, or rather what reading back makes of it; its waiters are told the same; and a call throws if
it does there. -/
theorem C85_member_pointers_are_invisible_partial (c : Conv V M) (hr : ∀ v, c.round (c.round v) = c.round v) (start : Start V E) (as : List (Env V × Act V E)) :
    match acts c (start.held c) as, plainActs (start.on c.round).plain (as.map (fun p => (p.1, p.2.on c.round))) with
    | some (h, told), some (m, told') => Alike c h m ∧ told = told'
    | none, none => True
    | _, _ => False := by
  have hs : Held.Rounded c (start.held c) := by
    cases start with
    | value v => exact ⟨v, rfl⟩
    | error e => trivial
    | lookup => trivial
  have he : Held.plain c (start.held c) = (start.on c.round).plain := by cases start <;> rfl
  have h := acts_plain c hr as _ hs
  rw [he] at h
  rw [← h]
  cases acts c (start.held c) as with
  | none => trivial
  | some p => exact ⟨alike c p.1, rfl⟩

/-- In particular, if reading back gives the pointer that was stored, nothing tells the two apart. -/
theorem C85_exact_member_pointers (c : Conv V M) (hr : ∀ v, c.back (c.wrap v) = v) (start : Start V E) (as : List (Env V × Act V E)) :
    match acts c (start.held c) as, plainActs start.plain as with
    | some (h, told), some (m, told') => Alike c h m ∧ told = told'
    | none, none => True
    | _, _ => False := by
  have h := C85_member_pointers_are_invisible_partial c (fun v => by rw [show c.round v = v from hr v]; exact hr v) start as
  have h1 : start.on c.round = start := by
    cases start with
    | value v => exact congrArg Start.value (hr v)
    | _ => rfl
  have h2 : as.map (fun p => (p.1, p.2.on c.round)) = as := by
    refine (List.map_congr_left (g := id) (fun p _ => ?_)).trans (List.map_id as)
    obtain ⟨env, a⟩ := p
    cases a with
    | assign v => exact congrArg (fun x => (env, Act.assign x)) (hr v)
    | _ => rfl
  rwa [h1, h2] at h

/-- A member pointer with a tag; the tag is dropped when it is read back. -/
def tagged : Conv Nat (Nat × String) := ⟨fun v => (v, "mine"), Prod.fst⟩

/-- One that points at the even number below. -/
def evens : Conv Nat Nat := ⟨fun v => v / 2, fun m => 2 * m⟩

/-- A lookup with two waiters that is weakened, completed with 7, and found and so strengthened afterwards. -/
def busyEntry : List (Env Nat × Act Nat Nat) :=
  [(⟨⟨0, 0⟩, fun _ => true⟩, .addCb (.user 1)), (⟨⟨0, 0⟩, fun _ => true⟩, .addCb (.user 2)), (⟨⟨0, 0⟩, fun _ => true⟩, .weaken),
   (⟨⟨1, 1⟩, fun _ => true⟩, .assign 7), (⟨⟨2, 2⟩, fun _ => true⟩, .strengthen)]

example : (∀ v, tagged.back (tagged.wrap v) = v) ∧ (∀ v, evens.round (evens.round v) = evens.round v) ∧ evens.round 7 = 6 ∧
    acts tagged (Start.lookup.held tagged) busyEntry = some (.member (7, "mine"), [(.user 1, .ok 7), (.user 2, .ok 7)]) ∧
    acts evens (Start.lookup.held evens) busyEntry = some (.member 3, [(.user 1, .ok 6), (.user 2, .ok 6)]) ∧
    plainActs (Start.lookup : Start Nat Nat).plain busyEntry = some (.value 7, [(.user 1, .ok 7), (.user 2, .ok 7)]) :=
  ⟨fun _ => rfl, fun v => by simp [Conv.round, evens], rfl, rfl, rfl, rfl⟩

/-- C85 is false for other functors: every time an entry is weakened and found again, the functor is applied once more, to
what came out the time before.  After `n` times the pointer has been stored and read back `n + 1` times. -/
theorem C85_functor_is_applied_again (c : Conv V M) (v : V) (n : Nat) (env : Env V) (ha : ∀ u, env.alive u = true) :
    ∃ h, acts c ((Start.value v : Start V E).held c) (List.replicate n [(env, Act.weaken), (env, Act.strengthen)]).flatten = some (h, []) ∧
      h.get c env false = .val (c.rounds (n + 1) v) := by
  have key : ∀ (n : Nat) (u : V), acts c (.member (c.wrap u) : Held V M E) (List.replicate n [(env, Act.weaken), (env, Act.strengthen)]).flatten =
      some (.member (c.wrap (c.rounds n u)), []) := by
    intro n
    induction n with
    | zero => intro u; rfl
    | succ n ih =>
      intro u
      simp only [List.replicate_succ, List.flatten_cons, List.cons_append, List.nil_append, acts, act, Held.weaken, Held.strengthen, ha, if_true,
        show c.back (c.wrap u) = c.round u from rfl, ih, Option.map_some]
      rfl
  have comm : ∀ (n : Nat) (u : V), c.round (c.rounds n u) = c.rounds n (c.round u) := by
    intro n
    induction n with
    | zero => intro u; rfl
    | succ n ih => intro u; exact ih (c.round u)
  exact ⟨_, key n v, congrArg Look.val (comm n v)⟩

/-- A functor that adds one: the number stored is 5, and after two rounds 8 is found. -/
example : ∃ h, acts (⟨fun v => v + 1, id⟩ : Conv Nat Nat) ((Start.value 5 : Start Nat Nat).held ⟨fun v => v + 1, id⟩)
    (List.replicate 2 [(⟨⟨0, 0⟩, fun _ => true⟩, Act.weaken), (⟨⟨0, 0⟩, fun _ => true⟩, Act.strengthen)]).flatten = some (h, []) ∧
    h.get ⟨fun v => v + 1, id⟩ ⟨⟨0, 0⟩, fun _ => true⟩ false = .val 8 := ⟨_, rfl, rfl⟩

end Hoard.Props
