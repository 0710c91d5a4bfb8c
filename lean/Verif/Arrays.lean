import Verif.Grow
/-!
# Who owns the bucket arrays

The calls that `basic_hashtable` (`/repo/include/libhoard/detail/basic_hashtable.ii`) makes to its
allocator, and the filling of arrays, on top of the arithmetic of `Verif.Grow`.  An allocation may
fail; the exception then leaves the call.

Simplification: the allocator never gives the same address twice (in `Verif.Spec.Arrays` an address that was
given back may be used again, nothing there depends on this).
-/
namespace Hoard.Arrays

/-- What can be seen from outside: `allocate` (basic_hashtable.ii:369, 425), `deallocate`
(basic_hashtable.ii:340, 375, 427), and `std::fill_n` over an array (basic_hashtable.ii:53, 67, 193). -/
inductive Ev where
  | alloc (a n : Nat)
  | dealloc (a : Option Nat) (n : Nat)
  | fill (n : Nat)
deriving DecidableEq, Repr

/-- The table: numbers of entries and of buckets, load factor limit (`Verif.Grow`), `buckets_` (basic_hashtable.h:113),
the addresses used, and what has happened.  `gone`: after the destructor. -/
structure St where
  tab : Grow.Tab
  arr : Option Nat := none
  next : Nat := 0
  log : List Ev := []
  gone : Bool := false
deriving DecidableEq

/-- `rehash_` of basic_hashtable_algorithms (basic_hashtable.ii:192-209) with a new array of `n` elements, and the
new state of the table.  The old array and its size are returned. -/
def St.swap (s : St) (tab' : Grow.Tab) (n : Nat) : St × Option Nat × Nat :=
  ({ s with tab := tab', arr := some s.next, next := s.next + 1, log := s.log ++ [.alloc s.next n, .fill n] }, s.arr, s.tab.b)

/-- `rehash_` (basic_hashtable.ii:417-428): the old array is given back whether or not there is one. -/
def St.rehash (s : St) (tab' : Grow.Tab) (n : Nat) : St :=
  let (s', a, m) := s.swap tab' n
  { s' with log := s'.log ++ [.dealloc a m] }

/-- `link` (basic_hashtable.ii:378-382, 402-415).  `dead`: as in `Grow.Tab.link`.  `fails`: an allocation fails, if there is one.
The result says whether the call returned. -/
def St.link (s : St) (dead : Nat) (fails : Bool) : St × Bool :=
  let t' := s.tab.link dead
  if t'.b = s.tab.b then ({ s with tab := t' }, true)
  else if fails then ({ s with tab := { s.tab with n := s.tab.left dead } }, false)
  else (s.rehash t' t'.b, true)

/-- `reserve` (basic_hashtable.ii:384-400). -/
def St.reserve (s : St) (m dead : Nat) (fails : Bool) : St × Bool :=
  let t' := s.tab.reserve m dead
  if t'.b = s.tab.b then ({ s with tab := t' }, true)
  else if fails then ({ s with tab := { s.tab with n := s.tab.n - dead } }, false)
  else (s.rehash t' t'.b, true)

/-- `max_load_factor(float)` (basic_hashtable.ii:355-376).  Here the old array is given back only if there is one. -/
def St.setMax (s : St) (p q : Nat) (fails : Bool) : St × Bool :=
  let t' := s.tab.setMax p q
  if t'.b = s.tab.b then ({ s with tab := t' }, true)
  else if fails then (s, false)
  else
    let (s', a, m) := s.swap t' t'.b
    match a with
    | none => (s', true)
    | some a => ({ s' with log := s'.log ++ [.dealloc (some a) m] }, true)

/-- `clear` and `clear_and_dispose` with a disposer that does not throw (basic_hashtable.ii:51-66). -/
def St.clear (s : St) : St := { s with tab := { s.tab with n := 0 }, log := s.log ++ [.fill s.tab.b] }

/-- The destructor (basic_hashtable.ii:331-341), with `release_buckets_` (basic_hashtable.ii:211-213). -/
def St.destroy (s : St) : St :=
  let s' := { s with tab := { s.tab with b := 0 }, arr := none, gone := true }
  match s.arr with
  | none => s'
  | some a => { s' with log := s'.log ++ [.dealloc (some a) s.tab.b] }

/-- Calls (basic_hashtable.h:63-72, 229-232).  `fails`: see `St.link`. -/
inductive Op where
  | link (dead : Nat) (fails : Bool)
  | unlink
  | reserve (m dead : Nat) (fails : Bool)
  | setMax (p q : Nat) (fails : Bool)
  | clear
  | destroy

/-- One call (basic_hashtable.ii:51-66, 223-233, 331-415).  Nothing happens after the destructor. -/
def St.step (s : St) (o : Op) : St :=
  if s.gone then s else
  match o with
  | .link d f => (s.link d f).1
  | .unlink => { s with tab := s.tab.unlink }
  | .reserve m d f => (s.reserve m d f).1
  | .setMax p q f => (s.setMax p q f).1
  | .clear => s.clear
  | .destroy => s.destroy

/-- Calls in sequence (basic_hashtable.h:229-232). -/
def St.run (s : St) (os : List Op) : St := os.foldl St.step s

/-- Constructor (basic_hashtable.ii:320-329). -/
def St.init (p q mx : Nat) : St := { tab := Grow.Tab.init p q mx }

end Hoard.Arrays
