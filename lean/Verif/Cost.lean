import Verif.Chain
import Verif.Grow
import Verif.Spec.ChainSpec
/-!
# Cost of changing the hash table

Counts how often the bodies of the loops over the bucket array run in `link_`, `rehash_` and
`unlink_` (`/repo/include/libhoard/detail/basic_hashtable.ii:185-186, 204-205, 228-229`), for the
functions of `Verif.Chain`.  Nothing else is counted: in particular not the allocation and the
filling of a new bucket array (lines 193 and 417-427), whose cost is the number of new buckets.
-/
namespace Hoard.Chain

/-- How often the body of the loop runs: as long as the entries equal `old`
(basic_hashtable.ii:185-186, 204-205 and 228-229; compare `repoint`). -/
def loops (old : Slot) : List Slot → Nat
  | [] => 0
  | s :: ss => if s = old then loops old ss + 1 else 0

/-- The loop of `link_` and of `rehash_` (basic_hashtable.ii:182-186, 201-205; compare
`Tab.append`). -/
def Tab.appendCost (c : Tab) (i : Nat) : Nat :=
  match c.slots[i]? with
  | none => 0
  | some last => loops last (c.slots.drop i)

/-- The loop of `link_` (basic_hashtable.ii:178-190; compare `Tab.link`). -/
def Tab.linkCost (c : Tab) (h : Nat) : Nat := c.appendCost (c.bucketFor h)

/-- The loop of `unlink_` (basic_hashtable.ii:223-233; compare `Tab.unlink`). -/
def Tab.unlinkCost (c : Tab) (p : Slot) : Nat :=
  match c.rd p with
  | none => 0
  | some none => 0
  | some (some e) => loops (.node e) (c.slots.drop (c.bucketFor (c.hash e)))

/-- All runs of the inner loop of `rehash_` (basic_hashtable.ii:197-206; compare
`Tab.rehashLoop`). -/
def Tab.rehashLoopCost : Nat → Tab → Option Nat → Nat
  | _, _, none => 0
  | 0, _, some _ => 0
  | fuel + 1, c, some e =>
    let i := c.bucketFor (c.hash e)
    match c.append i e with
    | none => 0
    | some c' => c.appendCost i + rehashLoopCost fuel c' (c.next e)

/-- `rehash_` (basic_hashtable.ii:192-209; compare `Tab.rehash`). -/
def Tab.rehashCost (c : Tab) (n : Nat) : Nat :=
  Tab.rehashLoopCost c.size { c with head := none, slots := List.replicate n (.head c.own) } c.head

/-- The removal of a given element (basic_hashtable.ii:223-233; compare `Tab.unlinkElem`). -/
def Tab.unlinkElemCost (c : Tab) (e : Nat) : Nat :=
  match (c.beforeBeginB (c.bucketFor (c.hash e))).bind (fun s => Tab.findPred c.size c s e) with
  | none => 0
  | some p => c.unlinkCost p

/-- What a call costs.  Clearing (basic_hashtable.ii:51-71) and moving (basic_hashtable.ii:19-29)
are not counted. -/
def cost (c : Tab) : COp → Nat
  | .link h _ => c.linkCost h
  | .unlink e => c.unlinkElemCost e
  | .grow n => c.rehashCost n
  | _ => 0

/-- `basic_hashtable::link` (basic_hashtable.ii:378-382): the calls made on
`basic_hashtable_algorithms`, when no entry has expired.  `t` says how many entries and buckets
there are. -/
def linkCalls (t : Grow.Tab) (h e : Nat) : List COp :=
  if (t.link 0).b = t.b then [.link h e] else [.grow (t.link 0).b, .link h e]

/-- The calls when entries numbered from `e` on, with the hash codes given, are inserted
(basic_hashtable.ii:378-382, one call for each). -/
def fillCalls (t : Grow.Tab) (e : Nat) : List Nat → List COp
  | [] => []
  | h :: hs => linkCalls t h e ++ fillCalls (t.link 0) (e + 1) hs

end Hoard.Chain
