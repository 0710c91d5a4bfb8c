import Verif.Refcount
/-! # Specification: owners of counted objects

Who owns which object, independently of the counters. -/
namespace Hoard.Refcount

/-- Number of owners of an object: pointer variables that point to it and released references. -/
def owners (s : St) (o : Nat) : Nat := (s.vars.filter (fun v => v.2 == some o)).length + (s.raw.filter (fun r => r == o)).length

/-- Correct use of the operations: constructors make a new variable, other operations use existing
variables; a reference is adopted or disposed of only if it was released; `reset(ptr)` is given
an object that someone owns.

The last two parts exclude what is wrong in the code: `reset()` and `reset(ptr)` of a pointer to an
object that has other owners, and `reset(p.get())` of the pointer itself. -/
def Op.ok (s : St) : Op → Prop
  | .alloc x => ∀ p, (x, p) ∉ s.vars
  | .copy x y => (∀ p, (x, p) ∉ s.vars) ∧ ∃ p, (y, p) ∈ s.vars
  | .move x y => (∀ p, (x, p) ∉ s.vars) ∧ ∃ p, (y, p) ∈ s.vars
  | .dtor x => ∃ p, (x, p) ∈ s.vars
  | .copyAssign x y => (∃ p, (x, p) ∈ s.vars) ∧ ∃ p, (y, p) ∈ s.vars
  | .moveAssign x y => (∃ p, (x, p) ∈ s.vars) ∧ ∃ p, (y, p) ∈ s.vars
  | .adopt x o => (∃ p, (x, p) ∈ s.vars) ∧ o ∈ s.raw
  | .release x => ∃ p, (x, p) ∈ s.vars
  | .dispose o => o ∈ s.raw
  | .reset x => (x, none) ∈ s.vars ∨ ∃ o, (x, some o) ∈ s.vars ∧ owners s o = 1
  | .resetPtr x p => ((x, none) ∈ s.vars ∨ ∃ o, (x, some o) ∈ s.vars ∧ owners s o = 1 ∧ p ≠ some o) ∧ (∀ o, p = some o → 0 < owners s o)

/-- A program all of whose operations are used correctly. -/
def Prog.ok (s : St) : List Op → Prop
  | [] => True
  | o :: os => Op.ok s o ∧ ∀ s', step s o = some s' → Prog.ok s' os

end Hoard.Refcount
