import Verif.Construct
import Verif.Cache
/-!
# Model: several cache objects, copied, moved, assigned and destroyed

A `cache` is a `std::shared_ptr` to a table (cache.h:92); the compiler adds copy
and move constructors, assignment and destructor.  The table is destroyed when the
last cache that refers to it lets go.  A moved from cache has no table, and using it
is undefined.  Handles of lookups and the refresh worker refer to a table without
keeping it.

One thread; what happens on a table is a step of `Verif.Cache`.
-/
namespace Hoard.Objects
open Construct
variable {K V E τ α : Type}

/-- The type of the caches: its policies, how a table is configured by what its
constructor was given, and what a cache is as an argument.  The template arguments of cache.h:18-19.
-/
structure Lib (K τ α : Type) where
  types : Types τ α
  policies : List τ
  conf : Table τ α → Cfg K
  asArg : Arg τ α

/-- Something happened on a table.  A call on `*impl_` (cache.h:41, 53, 60, 67, 74, 81, 88), or of
the rest of `Op`. -/
structure Event (K V E : Type) where
  table : Nat
  env : Env V
  op : Op K V E
  out : Out K V E

/-- The tables ever built, the cache variables that are alive, each with the table
it refers to (`none`: moved from), and what happened.  `impl_` of the caches (cache.h:92). -/
structure World (K V E : Type) where
  tabs : List (Cfg K × St K V E) := []
  vars : List (Nat × Option Nat) := []
  log : List (Event K V E) := []

namespace World
variable (w : World K V E)

/-- The variable, if it is alive.  `impl_` (cache.h:92). -/
def var (x : Nat) : Option (Option Nat) := w.vars.lookup x

/-- The variable is gone.  The implicit destructor of `cache` (cache.h:19, 92). -/
def unset (x : Nat) : World K V E := { w with vars := w.vars.filter (fun p => p.1 ≠ x) }

/-- The variable refers to a table, or to none.  Initialising or assigning `impl_` (cache.h:32, 92).
-/
def set (x : Nat) (t : Option Nat) : World K V E := { w with vars := (x, t) :: w.vars.filter (fun p => p.1 ≠ x) }

/-- Some cache refers to the table: its use count is not zero.  The use count of `impl_`
(cache.h:92). -/
def used (t : Nat) : Bool := w.vars.any (fun p => p.2 = some t)

/-- An operation on a table.  A call on `*impl_` (cache.h:41, 53, 60, 67, 74, 81, 88). -/
def act (env : Env V) (t : Nat) (o : Op K V E) : World K V E :=
  match w.tabs[t]? with
  | none => w
  | some (cfg, s) =>
    let r := step cfg env s o
    { w with tabs := w.tabs.set t (cfg, r.1), log := w.log ++ [⟨t, env, o, r.2⟩] }

/-- `~shared_ptr`, after the reference is gone.  The last one runs hashtable.ii:477-480. -/
def release (env : Env V) : Option Nat → World K V E
  | none => w
  | some t => if w.used t then w else w.act env t .destroy

/-- `std::make_shared<hashtable>` (cache.h:32) for the variable `x`. -/
def build (x : Nat) (cfg : Cfg K) : World K V E := { w with tabs := w.tabs ++ [(cfg, St.init)] }.set x (some w.tabs.length)

end World

/-- What a program may do.  The constructor cache.h:30-33, the implicit members of `cache`
(cache.h:92) and the calls of cache.h:35-89. -/
inductive Cmd (K V E τ α : Type) where
  /-- `cache x(args...);` -/
  | build (x : Nat) (args : List (Arg τ α))
  /-- `cache x` made from the cache `y` -/
  | make (how : From) (x y : Nat)
  /-- `x = y;` -/
  | assign (x y : Nat)
  /-- `x = std::move(y);` -/
  | moveAssign (x y : Nat)
  /-- the destructor of `x` -/
  | destroy (x : Nat)
  /-- a member function of `x` -/
  | call (x : Nat) (o : Op K V E)
  /-- a handle of a lookup of table `t` is used, or the refresh worker of the table gets to run -/
  | other (t : Nat) (o : Op K V E)

/-- The member function exists for the policies of the cache (cache.h:35-89, detail/cache_get.h:55-59).  The count of the
entries is a member of the table (hashtable.ii:892-895), which the cache does not pass on. -/
def member (cfg : Cfg K) : Op K V E → Bool
  | .getIfExists _ | .emplace _ _ _ | .getOrEmplace _ _ _ | .erase _ | .clear => true
  | .get _ _ => cfg.resolver != .async
  | .asyncGet _ _ _ => cfg.resolver == .async
  | .count | .complete _ _ | .drop _ | .tick _ _ | .destroy => false

/-- What happens on a table otherwise: completions of lookups, and refreshes while
the table exists (~hashtable ends the worker).  async_resolver_callback.h:25-73,
refresh_policy.ii:96-123. -/
def external (cfg : Cfg K) (s : St K V E) : Op K V E → Bool
  | .complete _ _ | .drop _ => true
  | .tick _ _ => cfg.resolver != .none && cfg.refresh.isSome && !s.destroyed
  | _ => false

variable [DecidableEq τ]

/-- One step of a program.  `none`: it does not compile, a variable is used that is
not alive (or built although it is), or a member function of a moved from cache is
called, which dereferences a null pointer.  cache.h:30-92. -/
def exec (lib : Lib K τ α) (env : Env V) (w : World K V E) : Cmd K V E τ α → Option (World K V E)
  | .build x args =>
    match w.var x, table lib.types lib.policies args with
    | none, some t => some (w.build x (lib.conf t))
    | _, _ => none
  | .make how x y =>
    match w.var x, w.var y, make lib.types lib.policies lib.asArg how with
    | none, some v, some .shares => some (w.set x v)
    | none, some v, some .takes => some ((w.set y none).set x v)
    | none, some _, some (.anew t) => some (w.build x (lib.conf t))
    | _, _, _ => none
  | .assign x y =>
    -- shared_ptr::operator=: the new table is taken before the old one is let go
    match w.var x, w.var y with
    | some u, some v => some ((w.set x v).release env u)
    | _, _ => none
  | .moveAssign x y =>
    match w.var x, w.var y with
    | some u, some v => some (if x = y then w else ((w.set y none).set x v).release env u)
    | _, _ => none
  | .destroy x =>
    match w.var x with
    | some u => some ((w.unset x).release env u)
    | none => none
  | .call x o =>
    match w.var x with
    | some (some t) =>
      match w.tabs[t]? with
      | some (cfg, _) => if member cfg o then some (w.act env t o) else none
      | none => none
    | _ => none
  | .other t o =>
    match w.tabs[t]? with
    | some (cfg, s) => if external cfg s o then some (w.act env t o) else none
    | none => none

/-- A program.  Statements one after the other, using cache.h:30-92. -/
def execs (lib : Lib K τ α) : World K V E → List (Env V × Cmd K V E τ α) → Option (World K V E)
  | w, [] => some w
  | w, (env, c) :: cs =>
    match exec lib env w c with
    | some w' => execs lib w' cs
    | none => none

end Hoard.Objects
