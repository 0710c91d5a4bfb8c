import Verif.Meta
/-!
# Construction and destruction of the policies

After its bases have been constructed, a hash table calls `init` of every policy that has one, and its destructor calls `destroy`.  Of the
policies of the library only `refresh_policy` has them: it starts a thread, and joins it.  Starting a thread can fail
(`std::thread` throws `std::system_error`).
-/
namespace Hoard.Start
open Hoard.Meta (Pol allPolicies lib)

/-- The threads that run, in the order of their start, each named by the policy to which it belongs (`worker`, refresh_policy.h:68), and how
often starting one was tried.  The program outside of the cache is left out. -/
structure W where
  running : List Pol := []
  tried : Nat := 0
deriving DecidableEq, Repr

/-- How a function ends.  hashtable.ii:254-270. -/
inductive Ends where
  | ok (w : W)
  /-- with an exception -/
  | threw (w : W)
  /-- not at all: `std::terminate` -/
  | terminated
deriving DecidableEq, Repr

/-- `init` of a policy (refresh_policy.ii:78-82); the others have none.  `f n`: the attempt number `n` to start a thread fails. -/
def initOne (f : Nat → Bool) (w : W) : Pol → Ends
  | .refresh c => if f w.tried then .threw { w with tried := w.tried + 1 } else .ok ⟨w.running ++ [.refresh c], w.tried + 1⟩
  | _ => .ok w

/-- `destroy` of a policy (refresh_policy.ii:84-93): the worker is told to stop, and joined if there is one.  That it does stop is C56.
Simplified: locking the table does not fail. -/
def destroyOne (w : W) : Pol → Ends
  | .refresh c => .ok { w with running := w.running.filter (· ≠ .refresh c) }
  | _ => .ok w

/-- `maybe_apply_for_each_type` (meta.h:124-161): one policy after the other; an exception passes through. -/
def each (g : W → Pol → Ends) : W → List Pol → Ends
  | w, [] => .ok w
  | w, p :: ps => match g w p with
    | .ok w' => each g w' ps
    | r => r

/-- A function that is `noexcept`, if `ne`.  base_invoke_ (hashtable.ii:275-280) is. -/
def guarded (ne : Bool) : Ends → Ends
  | .threw w => if ne then .terminated else .threw w
  | r => r

/-- `init` of the table (hashtable.ii:254-268): on an exception, `destroy` is called, and the exception thrown again.  `ne`: `base_invoke_` is
`noexcept`, which it is (hashtable.h:179); with `false` it is another program. -/
def initAll (ne : Bool) (f : Nat → Bool) (ps : List Pol) : Ends :=
  match guarded ne (each (initOne f) {} ps) with
  | .threw w => match guarded ne (each destroyOne w ps) with
    | .ok w' => .threw w'
    | r => r
  | r => r

/-- The constructors of the table (hashtable.ii:451-469), when the constructors of the bases have succeeded. -/
def construct (ne : Bool) (f : Nat → Bool) (user : List Pol) : Ends := initAll ne f (allPolicies lib user)

/-- The destructor (hashtable.ii:211-214, 270-273). -/
def destruct (ne : Bool) (w : W) (user : List Pol) : Ends := guarded ne (each destroyOne w (allPolicies lib user))

end Hoard.Start
