/-! Specification for the cost of changing the hash table (C93): how many places of the
bucket array a call has to change, said with hash codes and the number of buckets. -/
namespace Hoard.Chain

/-- The number of buckets `j`, from the bucket of hash code `h` on, such that no entry has its
bucket after the one of `h` and up to `j`: the bucket of `h` and the empty ones directly
after it.  `hs` are the hash codes of the entries, `nb` is the number of buckets. -/
def span (nb : Nat) (hs : List Nat) (h : Nat) : Nat :=
  ((List.range nb).filter (fun j => decide (h % nb ≤ j) &&
    hs.all (fun x => !(decide (h % nb < x % nb) && decide (x % nb ≤ j))))).length

/-- The sum of these numbers when entries with the hash codes `hs` come into an empty table
one after the other. -/
def spans (nb : Nat) (hs : List Nat) : Nat :=
  ((List.range hs.length).map (fun i => span nb (hs.take i) (hs.getD i 0))).sum

end Hoard.Chain
