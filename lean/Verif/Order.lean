/-!
# Reference counts and memory order

An entry of the cache is shared by threads: the table has a pointer, which is guarded by the lock of the table, and callback objects have others, which
are not.  `Verif.Refcount` counts; here is the question in what order, in the sense of the C++ memory model, accesses to the entry and its
destruction are.  An execution is a sequence of actions of threads: the order of the accesses to the counter in it is their modification order, that of
the operations on the lock their total order.  Nothing else of the order counts: what happens before what is `Spec.HB`.

Simplified: one object; the lock is not recursive; nothing but the lock and the counter synchronises.
-/
namespace Hoard.Order

/-- What a thread does.  `use`: reads or writes the object.  `inc`: copies a pointer (refcount.ii:6-8).  `dec`: destroys a pointer (refcount.ii:10-12,
195-206).  `lock`, `unlock`: of the table (thread_safe_policy.ii:10-20).  `put`, `take`: moves a pointer of its own into the table, or out of it (hashtable.ii:713-719, 944-953). -/
inductive Act where
  | use | inc | dec | lock | unlock | put | take
deriving DecidableEq, Repr

/-- Who does it.  refcount.ii:6-12. -/
structure Ev where
  thr : Nat
  act : Act
deriving DecidableEq, Repr

/-- The counter (`n_`, refcount.h:39), the pointers, each by the thread that has it, those in the table, and the owner of the lock
(thread_safe_policy.h:29).  `dead`: the object has been destroyed. -/
structure S where
  count : Nat
  held : List Nat
  shared : Nat := 0
  owner : Option Nat := none
  dead : Bool := false
deriving DecidableEq, Repr

/-- `allocate_refcount` by thread 0 (refcount.ii:14-37). -/
def start : S := { count := 1, held := [0] }

/-- The thread has a pointer, or may use the one in the table.  refcount.ii:195-206. -/
def can (s : S) (t : Nat) : Bool := s.held.contains t || (s.owner == some t && 0 < s.shared)

/-- One action, if it is possible: refcount.ii:6-12, 195-206; thread_safe_policy.ii:10-20. -/
def next (s : S) (e : Ev) : Option S :=
  match e.act with
  | .use => if can s e.thr then some s else none
  | .inc => if can s e.thr then some { s with count := s.count + 1, held := e.thr :: s.held } else none
  | .dec => if s.held.contains e.thr then some { s with count := s.count - 1, held := s.held.erase e.thr, dead := s.dead || s.count == 1 } else none
  | .lock => if s.owner = none then some { s with owner := some e.thr } else none
  | .unlock => if s.owner = some e.thr then some { s with owner := none } else none
  | .put => if s.owner = some e.thr ∧ s.held.contains e.thr then some { s with held := s.held.erase e.thr, shared := s.shared + 1 } else none
  | .take => if s.owner = some e.thr ∧ 0 < s.shared then some { s with held := e.thr :: s.held, shared := s.shared - 1 } else none

/-- One action after the other.  refcount.ii:6-12. -/
def exec (s : S) : List Ev → Option S
  | [] => some s
  | e :: l => match next s e with
    | some s' => exec s' l
    | none => none

end Hoard.Order
