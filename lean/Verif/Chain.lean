/-!
# Hash chain

Pointer-level model of `basic_hashtable_algorithms`
(`/repo/include/libhoard/detail/basic_hashtable.ii` and `.h`).

All elements of the table are in one singly linked chain.  The bucket array
holds, for each bucket, the address of the successor field of the last element
of that bucket (or of the table's `head_`).

Elements are named by numbers.  `Slot` is the type `successor_ptr`
(`element**`): the address of some table's `head_` or of an element's
`successor_`.  Functions return `none` on undefined behaviour (null or dangling
dereference, index outside the bucket array).
-/
namespace Hoard.Chain

/-- `successor_ptr` (basic_hashtable.h:42-43): the address of the `head_` of the
table that lives at address `t`, or of `successor_` of element `e`. -/
inductive Slot where
  | head (t : Nat)
  | node (e : Nat)
deriving DecidableEq, Repr

/-- Data members of `basic_hashtable_algorithms` (basic_hashtable.h:112-115)
and of its elements (basic_hashtable.h:136-137).  `own` is the address of the
table itself.  `next e = none` models a null `successor_`.
The bucket array and `bucket_count_` are one list. -/
structure Tab where
  own : Nat
  head : Option Nat
  next : Nat → Option Nat
  hash : Nat → Nat
  slots : List Slot
  size : Nat

/-- Default constructor (basic_hashtable.ii:17): no buckets, no elements. -/
def Tab.init (own : Nat) (next : Nat → Option Nat) (hash : Nat → Nat) : Tab :=
  { own, head := none, next, hash, slots := [], size := 0 }

/-- Read `*s`.  The head of another table is dangling here.  Dereferencing a `successor_ptr`
(basic_hashtable.h:43; basic_hashtable.ii:183, 202, 224). -/
def Tab.rd (c : Tab) : Slot → Option (Option Nat)
  | .head t => if t = c.own then some c.head else none
  | .node e => some (c.next e)

/-- Write `*s = v`.  Assignment through a `successor_ptr` (basic_hashtable.ii:184, 203, 226). -/
def Tab.wr (c : Tab) (s : Slot) (v : Option Nat) : Option Tab :=
  match s with
  | .head t => if t = c.own then some { c with head := v } else none
  | .node e => some { c with next := fun x => if x = e then v else c.next x }

/-- `bucket_for(hash)` (basic_hashtable.ii:215-217). -/
def Tab.bucketFor (c : Tab) (h : Nat) : Nat :=
  if c.slots.length = 0 then 0 else h % c.slots.length

/-- The loops at basic_hashtable.ii:185-186, 204-205 and 228-229, on the part
of the bucket array from `bucket_idx` on: replace `old` by `new` as long as the
entries equal `old`. -/
def repoint (old new : Slot) : List Slot → List Slot
  | [] => []
  | s :: ss => if s = old then new :: repoint old new ss else s :: ss

/-- The same on the whole array, starting at index `i`.  The loops of basic_hashtable.ii:185-186,
204-205, 228-229. -/
def repointFrom (i : Nat) (old new : Slot) (ss : List Slot) : List Slot :=
  ss.take i ++ repoint old new (ss.drop i)

/-- The common body of `link_` and of the loop in `rehash_`
(basic_hashtable.ii:182-186 and 201-205): append `e` to bucket `i`. -/
def Tab.append (c : Tab) (i e : Nat) : Option Tab :=
  match c.slots[i]? with
  | none => none
  | some last =>
    match c.rd last with
    | none => none
    | some nx =>
      -- elem->successor_ = *bucket_last; *bucket_last = elem;
      match (c.wr (.node e) nx).bind (fun c' => c'.wr last (some e)) with
      | none => none
      | some c' => some { c' with slots := repointFrom i last (.node e) c'.slots }

/-- `link_` (basic_hashtable.ii:178-190).  The returned iterator is not
modelled (only used by callers to reach the new element). -/
def Tab.link (c : Tab) (h e : Nat) : Option Tab :=
  let c1 := { c with hash := fun x => if x = e then h else c.hash x }
  (c1.append (c1.bucketFor h) e).map (fun c' => { c' with size := c'.size + 1 })

/-- `unlink_` (basic_hashtable.ii:223-233): removes the element after `p`. -/
def Tab.unlink (c : Tab) (p : Slot) : Option (Tab × Nat) :=
  match c.rd p with
  | none => none
  | some none => none
  | some (some e) =>
    let i := c.bucketFor (c.hash e)
    let nx := c.next e
    -- *pred_ptr = std::exchange(unlinked_elem->successor_, nullptr);
    match (c.wr (.node e) none).bind (fun c' => c'.wr p nx) with
    | none => none
    | some c' => some ({ c' with slots := repointFrom i (.node e) p c'.slots, size := c'.size - 1 }, e)

/-- The `while (pending != nullptr)` loop of `rehash_`
(basic_hashtable.ii:197-206).  `fuel` bounds the number of iterations; running
out of it is reported as `none` and is proved not to happen. -/
def Tab.rehashLoop : Nat → Tab → Option Nat → Option Tab
  | _, c, none => some c
  | 0, _, some _ => none
  | fuel + 1, c, some e =>
    let rest := c.next e
    match c.append (c.bucketFor (c.hash e)) e with
    | none => none
    | some c' => rehashLoop fuel c' rest

/-- `rehash_` (basic_hashtable.ii:192-209), `n` new buckets. -/
def Tab.rehash (c : Tab) (n : Nat) : Option Tab :=
  Tab.rehashLoop c.size { c with head := none, slots := List.replicate n (.head c.own) } c.head

/-- `clear` (basic_hashtable.ii:51-55): does not touch the elements. -/
def Tab.clear (c : Tab) : Tab :=
  { c with head := none, slots := List.replicate c.slots.length (.head c.own), size := 0 }

/-- The loop of `clear_and_dispose` for a non-throwing callback
(basic_hashtable.ii:60-64); returns the disposed elements in order. -/
def Tab.disposeLoop : Nat → Tab → Option (Tab × List Nat)
  | fuel, c =>
    match c.head with
    | none => some (c, [])
    | some e =>
      match fuel with
      | 0 => none
      | fuel + 1 =>
        let c' := { c with head := c.next e, next := fun x => if x = e then none else c.next x }
        (disposeLoop fuel c').map (fun r => (r.1, e :: r.2))

/-- `clear_and_dispose`, non-throwing callback (basic_hashtable.ii:59-66). -/
def Tab.clearDispose (c : Tab) : Option (Tab × List Nat) :=
  (Tab.disposeLoop c.size c).map (fun r => (r.1.clear, r.2))

/-- `clear_and_dispose`, callback that may throw, when it does not
(basic_hashtable.ii:67-70): unlink the first element until empty. -/
def Tab.clearDisposeSlow : Nat → Tab → Option (Tab × List Nat)
  | fuel, c =>
    match c.head with
    | none => some (c, [])
    | some _ =>
      match fuel with
      | 0 => none
      | fuel + 1 =>
        match c.unlink (.head c.own) with
        | none => none
        | some (c', e) => (clearDisposeSlow fuel c').map (fun r => (r.1, e :: r.2))

/-- Move constructor (basic_hashtable.ii:19-29): (new table at address `own'`,
moved-from table). -/
def Tab.move (c : Tab) (own' : Nat) : Tab × Tab :=
  ({ c with own := own', slots := c.slots.map (fun s => if s = .head c.own then .head own' else s) },
   { c with head := none, slots := [], size := 0 })

/-- `is_hashtable_linked` (basic_hashtable.ii:31-33). -/
def Tab.isLinked (c : Tab) (e : Nat) : Bool := (c.next e).isSome

/-- `before_begin()` (basic_hashtable.ii:106-108). -/
def Tab.beforeBegin (c : Tab) : Slot := .head c.own

/-- `before_end()` (basic_hashtable.ii:110-112). -/
def Tab.beforeEnd (c : Tab) : Option Slot :=
  if c.slots.length = 0 then some (.head c.own) else c.slots[c.slots.length - 1]?

/-- `before_begin(bucket_idx)` (basic_hashtable.ii:154-156). -/
def Tab.beforeBeginB (c : Tab) (i : Nat) : Option Slot :=
  if i = 0 then some (.head c.own) else c.slots[i - 1]?

/-- `before_end(bucket_idx)` (basic_hashtable.ii:158-160). -/
def Tab.beforeEndB (c : Tab) (i : Nat) : Option Slot :=
  if c.slots.length = 0 then some (.head c.own) else c.slots[i]?

/-- `iterator::operator++` (basic_hashtable.ii:240-243).  An iterator is the
address of a successor field or null; it denotes the element that owns the
field (`operator*`, basic_hashtable.ii:251-253). -/
def Tab.incr (c : Tab) (s : Slot) : Option (Option Slot) :=
  (c.rd s).map (fun o => o.map .node)

/-- `for (; i != e; ++i) visit(*i);` Iterating as in hashtable.ii:489, 894 with `operator++`
(basic_hashtable.ii:240-243). -/
def Tab.visit : Nat → Tab → Option Slot → Option Slot → Option (List Nat)
  | fuel, c, i, e =>
    if i = e then some [] else
    match fuel, i with
    | _, none => none
    | _, some (.head _) => none
    | 0, _ => none
    | fuel + 1, some (.node x) =>
      match c.incr (.node x) with
      | none => none
      | some j => (visit fuel c j e).map (x :: ·)

/-- Visit the whole table, `begin()` to `end()` (basic_hashtable.ii:82-88). -/
def Tab.visitAll (c : Tab) : Option (List Nat) :=
  (c.incr c.beforeBegin).bind (fun b => c.visit c.size b none)

/-- Visit one bucket, `begin(i)` to `end(i)` (basic_hashtable.ii:130-136). -/
def Tab.visitBucket (c : Tab) (i : Nat) : Option (List Nat) :=
  match (c.beforeBeginB i).bind c.incr, (c.beforeEndB i).bind c.incr with
  | some b, some e => c.visit c.size b e
  | _, _ => none

/-- Find the predecessor of `e`, starting at `s`: the walks with a trailing
`prev` iterator in hashtable.ii:487-565 and 660-688. -/
def Tab.findPred : Nat → Tab → Slot → Nat → Option Slot
  | fuel, c, s, e =>
    match c.rd s with
    | none => none
    | some none => none
    | some (some x) =>
      if x = e then some s else
      match fuel with
      | 0 => none
      | fuel + 1 => findPred fuel c (.node x) e

/-- Remove a given element the way the cache does: walk its bucket from
`before_begin(bucket_for(hash))`, then unlink after the predecessor.  The walk is the one of
hashtable.ii:521-561 and 662-687, the removal basic_hashtable.ii:223-233. -/
def Tab.unlinkElem (c : Tab) (e : Nat) : Option (Tab × Nat) :=
  (c.beforeBeginB (c.bucketFor (c.hash e))).bind
    (fun s => (Tab.findPred c.size c s e).bind c.unlink)

end Hoard.Chain
