import Verif.Arrays
/-! # What an allocator expects of its users -/
namespace Hoard.Arrays

/-- The arrays that are in use after the calls, with their sizes.  `none` if something was
given back that is not in use, or with another size, or if an address in use is given out. -/
def inUse : List Ev → List (Nat × Nat) → Option (List (Nat × Nat))
  | [], l => some l
  | .alloc a n :: es, l => if l.any (fun x => x.1 == a) then none else inUse es ((a, n) :: l)
  | .dealloc (some a) n :: es, l => if (a, n) ∈ l then inUse es (l.erase (a, n)) else none
  | .dealloc none n :: es, l => if n = 0 then inUse es l else none
  | .fill _ :: es, l => inUse es l

/-- A null pointer is given back. -/
def isNull : Ev → Bool
  | .dealloc none _ => true
  | _ => false

/-- How often a null pointer is given back. -/
def nulls (es : List Ev) : Nat := es.countP isNull

/-- The number of array elements written by filling. -/
def filled : List Ev → Nat
  | [] => 0
  | .fill n :: es => n + filled es
  | _ :: es => filled es

/-- Only insertions and removals. -/
def Op.plain : Op → Bool
  | .link _ _ => true
  | .unlink => true
  | _ => false

/-- An insertion. -/
def Op.isLink : Op → Bool
  | .link _ _ => true
  | _ => false

/-- The number of insertions. -/
def links (os : List Op) : Nat := os.countP Op.isLink

end Hoard.Arrays
