/-! Specification of the hash table container (C26, C29): a list of
(element, hash) pairs in order of insertion. -/
namespace Hoard.Chain

/-- Calls on the table. -/
inductive COp where
  /-- insert element `e` with hash `h` -/
  | link (h e : Nat)
  /-- remove element `e` -/
  | unlink (e : Nat)
  /-- change the bucket count -/
  | grow (n : Nat)
  /-- remove everything -/
  | clear
  /-- remove everything, one at a time -/
  | clearSlow
  /-- move-construct a new table at address `own` and continue with it -/
  | move (own : Nat)

/-- Contents in insertion order, and the bucket count. -/
structure Contents where
  ents : List (Nat × Nat)
  nb : Nat

def COp.apply (a : Contents) : COp → Contents
  | .link h e => { a with ents := a.ents ++ [(e, h)] }
  | .unlink e => { a with ents := a.ents.filter (fun p => p.1 != e) }
  | .grow n => { a with nb := n }
  | .clear => { a with ents := [] }
  | .clearSlow => { a with ents := [] }
  | .move _ => a

/-- Preconditions: an inserted element is not already in the table and there
are buckets; a removed one is in it; the bucket count is positive. -/
def COp.ok (a : Contents) : COp → Prop
  | .link _ e => e ∉ a.ents.map (·.1) ∧ 0 < a.nb
  | .unlink e => e ∈ a.ents.map (·.1)
  | .grow n => 0 < n
  | .clear => True
  | .clearSlow => True
  | .move _ => True

def COk : Contents → List COp → Prop
  | _, [] => True
  | a, o :: os => o.ok a ∧ COk (o.apply a) os

/-- Contents after a sequence of calls on a new table. -/
def contents (os : List COp) : Contents := os.foldl COp.apply ⟨[], 0⟩

end Hoard.Chain
