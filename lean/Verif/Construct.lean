/-!
# Model: the constructors of a cache

Which of the arguments of a constructor configures what is decided at compile time.

* `cache.h` lines 30-33: `cache(Args&&...)`, and the copy and move constructors the
  compiler adds (the class declares none),
* `detail/hashtable.ii` lines 7-32: `policy_selector_`,
* `detail/hashtable.ii` lines 205-209: every policy picks its argument,
* `detail/hashtable.ii` lines 451-475: the constructors of the table,
* `detail/meta.h` lines 215-223: `select_single_element`.

A type is a name, an argument is the name of its type without `const` and
references (`std::decay_t`) together with a value.  "Does not compile" is `none`.
Which overload C++ picks is taken from the language rules and written down at each
definition.  Simplified: a policy object is a value; the policies do not look at
anything else (in the code a policy may be built from a policy object only).
-/
namespace Hoard.Construct
variable {τ α : Type} [DecidableEq τ]

/-- An argument of a constructor.  One of `Args&&... args` (cache.h:31, hashtable.ii:207, 453, 463,
473). -/
structure Arg (τ α : Type) where
  ty : τ
  val : α
deriving DecidableEq, Repr

/-- The types that matter to overload resolution, and which policies can be made
without an argument.  The parameter types of hashtable.ii:453, 463, cache.h:31, and
`std::is_default_constructible_v` in hashtable.ii:20-31. -/
structure Types (τ α : Type) where
  /-- `std::allocator_arg_t` -/
  allocArg : τ
  /-- `hashtable::allocator_type`: the allocator of the cache, for its internal entries -/
  alloc : τ
  float : τ
  /-- the cache itself -/
  cache : τ
  /-- `Policy()` if `std::is_default_constructible_v<Policy>` -/
  dflt : τ → Option α

/-- `policy_selector_<Policy>::get` (hashtable.ii:20-31).  The result type is the one
matching argument type, or `Policy` if none matches (14-18); with two matching
arguments `select_single_element` has no `type` (meta.h:215-223). -/
def select (W : Types τ α) (p : τ) : List (Arg τ α) → Option α
  | [] => W.dflt p
  | a :: as =>
    if 1 < ((a :: as).filter (fun a => p = a.ty)).length then none
    else if p = a.ty then some a.val
    else select W p as

/-- `hashtable_policy_container` (hashtable.ii:205-209): each policy selects from all the arguments. -/
def container (W : Types τ α) : List τ → List (Arg τ α) → Option (List (τ × α))
  | [], _ => some []
  | p :: ps, args =>
    match select W p args, container W ps args with
    | some v, some r => some ((p, v) :: r)
    | _, _ => none

/-- What a table is built with; `none` for the allocator and the load factor: the default.  The
members initialised by hashtable.ii:454-456, 465-466. -/
structure Table (τ α : Type) where
  alloc : Option α
  load : Option α
  policies : List (τ × α)
deriving DecidableEq, Repr

/-- `hashtable(std::allocator_arg_t, allocator_type, Args&&...)` and the same with a
`float` after the allocator (hashtable.ii:451-469).  Both take any argument in that
place; the second is more specialised and wins if the argument is a `float`.  For any
other type, also `double`, the first wins, as it needs no conversion. -/
def withAlloc (W : Types τ α) (ps : List τ) (al : Option α) (args : List (Arg τ α)) : Option (Table τ α) :=
  match args with
  | [] => (container W ps []).map (⟨al, none, ·⟩)
  | f :: rest =>
    if f.ty = W.float then (container W ps rest).map (⟨al, some f.val, ·⟩)
    else (container W ps (f :: rest)).map (⟨al, none, ·⟩)

/-- `std::make_shared<hashtable>(args...)` (cache.h:32).  The constructors with
`allocator_arg` win over `hashtable(Args&&...)` (hashtable.ii:471-475) if the second
argument has the very type `allocator_type`.  An allocator for another element type
would have to be converted, so `hashtable(Args&&...)` wins, which adds a default
allocator in front and passes everything on. -/
def table (W : Types τ α) (ps : List τ) (args : List (Arg τ α)) : Option (Table τ α) :=
  match args with
  | a :: b :: rest =>
    if a.ty = W.allocArg ∧ b.ty = W.alloc then withAlloc W ps (some b.val) rest
    else withAlloc W ps none (a :: b :: rest)
  | args => withAlloc W ps none args

/-- How a cache is made from a cache `y`.  The implicit copy and move constructors of `cache`
compete with cache.h:30-33. -/
inductive From where
  /-- `cache x = y;`, also passing by value and returning -/
  | copyInit
  /-- `cache x(y);` or `cache x{y};`, `y` not `const` -/
  | direct
  /-- the same, `y` is `const` -/
  | directConst
  /-- `cache x(std::move(y));` or `cache x = std::move(y);`, `y` not `const` -/
  | move
deriving DecidableEq, Repr

/-- What becomes of it.  The member `impl_` (cache.h:92) afterwards. -/
inductive Made (τ α : Type) where
  /-- the copy constructor: `x` and `y` have the same table -/
  | shares
  /-- the move constructor: `x` has the table of `y`, `y` has none -/
  | takes
  /-- `cache(Args&&...)`: a new table -/
  | anew (t : Table τ α)
deriving DecidableEq, Repr

/-- Which constructor of `cache` runs (cache.h:30-33).  The template is `explicit`, so
`cache x = y` does not see it.  For an lvalue that is not `const` it needs no
conversion, where the copy constructor adds `const`: the template wins, with `y` as
argument.  Where both fit equally well the one that is not a template wins. -/
def make (W : Types τ α) (ps : List τ) (y : Arg τ α) : From → Option (Made τ α)
  | .copyInit => some .shares
  | .directConst => some .shares
  | .move => some .takes
  | .direct => (table W ps [y]).map .anew

end Hoard.Construct
