import Verif.FnRef
/-!
# Specification for C112

What a reference stands for, told from how it was made, not from what is stored in it.
-/
namespace Hoard.FnRef
variable {S A : Type}

/-- Is the object there? -/
def alive (m : List (Obj S)) (a : Nat) : Bool :=
  match m[a]? with
  | some (.fn _) | some (.ref _ _ _) => true
  | _ => false

/-- What is known of an object when it is made. -/
structure Info where
  /-- the function object that it stands for; a function object stands for itself -/
  root : Nat
  /-- the objects it needs when called -/
  needs : List Nat
  /-- is the function called as a const object? -/
  cst : Bool
  /-- the object is a reference to a noexcept function -/
  nx : Bool
  /-- exceptions do not get through -/
  stops : Bool
deriving DecidableEq

/-- One operation: a function object needs nothing.  A reference to a function object needs this object.  A reference made from a reference of the same type
that is const, or that is moved from, is like that one; made from any other reference it needs, and calls, that one. -/
def note (t : List Info) : Op S A → List Info
  | .fn _ => t ++ [{ root := t.length, needs := [], cst := false, nx := false, stops := false }]
  | .make nx cat a =>
    match t[a]? with
    | some i =>
      if i.needs = [] then t ++ [{ root := a, needs := [a], cst := decide (cat = .constLvalue ∨ cat = .constRvalue), nx := nx, stops := nx }]
      else if i.nx = nx ∧ (cat = .constLvalue ∨ cat = .rvalue) then t ++ [i]
      else t ++ [{ i with needs := a :: i.needs, nx := nx, stops := nx || i.stops }]
    | none => t
  | _ => t

/-- All objects that a program makes, in order. -/
def notes (ops : List (Op S A)) : List Info := ops.foldl note []

/-- What a call should do, and the function object afterwards: one call of the function, with the same argument. -/
def once {R X : Type} (F : Code S A R X) (i : Info) (x : A) (s : S) : Res R X × S :=
  ((match (F.call i.cst x s).1 with
    | .ok r => .ret r
    | .error e => if i.stops then .ended else .threw e), (F.call i.cst x s).2)

/-- Objects are destroyed in the opposite order of their construction, as parameters and local variables are. -/
def nested {R X : Type} (F : Code S A R X) : List (Obj S) → List (Op S A) → Prop
  | _, [] => True
  | m, o :: os =>
    (∀ a, o = .destroy a → ∀ b, a < b → alive m b = false) ∧
    ∀ m' r, step F m o = some (m', r) → nested F m' os

end Hoard.FnRef
