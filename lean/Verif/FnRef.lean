/-!
# Function references

`function_ref` (`/repo/include/libhoard/detail/function_ref.h`, `function_ref.ii`): the cache passes the function that recognises a key, and the one that
removes dead entries before a table grows, as a pair of pointers, one to the function object and one to code that calls it.

Objects are numbered in the order of their construction; numbers are not used again.  A call that reaches an object that is gone is undefined behaviour.

Simplifications: the functions only change their own state; in particular they neither make nor destroy objects.  `volatile` is left out.  All references are to functions
with the same parameter and result type.
-/
namespace Hoard.FnRef

/-- The function objects: what a call with `operator()` or `operator() const` does to the object, and what it returns or throws. -/
structure Code (S A R X : Type) where
  call : Bool → A → S → Except X R × S

/-- An object: a function object with its state; a `function_ref<R(A)>` or (`nx`) a `function_ref<R(A) noexcept>`, with what its two members say (function_ref.h:37-38, 57-58):
the object referred to, and whether it is called as const (`remove_reference_t<Fn>`, function_ref.ii:15, 32); or an object that is gone. -/
inductive Obj (S : Type) where
  | fn (s : S)
  | ref (nx : Bool) (cst : Bool) (to : Nat)
  | gone
deriving DecidableEq

/-- How the argument of the constructor is given: `f`, `std::as_const(f)`, `std::move(f)`, `std::move(std::as_const(f))`. -/
inductive Cat where
  | lvalue | constLvalue | rvalue | constRvalue
deriving DecidableEq

/-- Is `std::remove_reference_t<Fn>` const? (function_ref.ii:15, 32) -/
def Cat.const : Cat → Bool
  | .lvalue | .rvalue => false
  | .constLvalue | .constRvalue => true

/-- Which constructor is selected if the argument has the type that is constructed: the implicit copy or move constructor, or the template (function_ref.h:33-34, 53-54)?
The template takes its argument without conversion, so it is the better match unless the other one takes exactly this too. -/
def Cat.implicit : Cat → Bool
  | .constLvalue | .rvalue => true
  | .lvalue | .constRvalue => false

/-- The constructors (function_ref.ii:10-19, 27-36, and the implicit ones): `nx`, the type constructed, from object `a`, given as `cat`. -/
def construct {S : Type} (m : List (Obj S)) (nx : Bool) (cat : Cat) (a : Nat) : Option (Obj S) :=
  match m[a]? with
  | some (.fn _) => some (.ref nx cat.const a)
  | some (.ref nx' cst to) => if nx' = nx ∧ cat.implicit = true then some (.ref nx' cst to) else some (.ref nx cat.const a)
  | _ => none

/-- What a call does. -/
inductive Res (R X : Type) where
  | ret (r : R)
  | threw (x : X)
  /-- `std::terminate`: an exception leaves a `noexcept` function -/
  | ended
  /-- undefined behaviour -/
  | ub
  /-- more calls than there are objects -/
  | loops
deriving DecidableEq

/-- `operator()` (function_ref.ii:13-17, 21-24, 30-34, 38-41): the code pointed to calls the object pointed to; in the noexcept version no exception gets out. -/
def call {S A R X : Type} (F : Code S A R X) (m : List (Obj S)) (x : A) : Nat → Bool → Nat → Res R X × List (Obj S)
  | 0, _, _ => (.loops, m)
  | n + 1, cst, a =>
    match m[a]? with
    | some (.fn s) =>
      match F.call cst x s with
      | (.ok r, s') => (.ret r, m.set a (.fn s'))
      | (.error e, s') => (.threw e, m.set a (.fn s'))
    | some (.ref nx c to) =>
      match call F m x n c to with
      | (.threw e, m') => (if nx then .ended else .threw e, m')
      | r => r
    | _ => (.ub, m)

/-- What a program does with function objects and references to them: objects are made, called and destroyed, like the parameters `matcher` and `before_rehash`
(hashtable.ii:488-540, 661-671, 713-719, basic_hashtable.ii:379-415, value_type.ii:81-96, 192-200). -/
inductive Op (S A : Type) where
  | fn (s : S)
  | make (nx : Bool) (cat : Cat) (a : Nat)
  | call (a : Nat) (x : A)
  | destroy (a : Nat)

/-- One step (function_ref.ii:10-41); `none`: undefined behaviour, an object is used that is gone or was never there, or the program ended. -/
def step {S A R X : Type} (F : Code S A R X) (m : List (Obj S)) : Op S A → Option (List (Obj S) × Option (Except X R))
  | .fn s => some (m ++ [.fn s], none)
  | .make nx cat a => (construct m nx cat a).map fun o => (m ++ [o], none)
  | .call a x =>
    match call F m x m.length false a with
    | (.ret r, m') => some (m', some (.ok r))
    | (.threw e, m') => some (m', some (.error e))
    | _ => none
  | .destroy a =>
    match m[a]? with
    | some (.fn _) | some (.ref _ _ _) => some (m.set a .gone, none)
    | _ => none

/-- A program (function_ref.ii:10-41): the objects after it. -/
def run {S A R X : Type} (F : Code S A R X) : List (Obj S) → List (Op S A) → Option (List (Obj S))
  | m, [] => some m
  | m, o :: os => match step F m o with
    | some (m', _) => run F m' os
    | none => none

end Hoard.FnRef
