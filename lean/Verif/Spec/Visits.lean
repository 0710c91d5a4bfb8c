import Verif.Visits
import Verif.Spec.Compare
import Verif.Demo
/-! # How many entries a call has to look at -/
namespace Hoard.Visits
variable {K V E : Type}

/-- The entries that share a bucket with a key: their hash codes leave the same remainder. -/
def sharing (cfg : Cfg K) (s : St K V E) (k : K) : List (Entry K V E) :=
  s.ents.filter (fun e => cfg.hash e.key % s.tbl.length == cfg.hash k % s.tbl.length)

/-- Operations whose business are all entries. -/
def sweeps : Op K V E → Bool
  | .clear => true
  | .count => true
  | .destroy => true
  | _ => false

/-- The number of entries at which the passes of a history look, only those passes being counted after which the table has more
entries than before: that is, in which nothing was removed. -/
def idlePasses (cfg : Cfg K) : St K V E → Hist K V E → Nat
  | _, [] => 0
  | s, (env, o) :: h =>
    let s' := (Hoard.step cfg env s o).1
    (if s.size < s'.size then (seen cfg env s o).all.length else 0) + idlePasses cfg s' h

/-- A cache for at most `m` values, with the default load factor limit 1 and at most `mb` buckets.  Its keys are numbers, which are
their own hash codes. -/
def lru (m mb : Nat) : Cfg Nat := { hash := id, eqv := fun a b => a == b, maxSize := some m, over := fun n b => decide (n > b), maxBuckets := mb }

/-- All these keys are emplaced, one after the other, at the same time. -/
def puts (ks : List Nat) : Hist Nat Nat Nat := ks.map (fun k => (Demo.at_ 0, .emplace k k .none))

/-- A cache for `m` values with one bucket more than that, which is full: `m` of its entries are alive, and one has expired. -/
def Clogged (m : Nat) (s : St Nat Nat Nat) : Prop :=
  s.tbl.length = m + 1 ∧ s.size = m + 1 ∧ (s.ents.filter (fun e => e.expired (Demo.at_ 0))).length = 1

end Hoard.Visits
