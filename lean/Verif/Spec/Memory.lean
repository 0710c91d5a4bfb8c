import Verif.Machine
/-! # Specification: memory of the pointer-level cache (C49, C50)

Which pointers the data structure contains, and who owns an entry. -/
namespace Hoard
variable {K V E : Type}

/-- Following the successor pointers from `o` visits the entries `l` and ends. -/
def Follows (next : Nat → Option Nat) : Option Nat → List Nat → Prop
  | o, [] => o = none
  | o, i :: l => o = some i ∧ Follows next (next i) l

/-- An entry is allocated as long as its counter is not zero. -/
def PSt.Allocated (p : PSt K V E) (i : Nat) : Prop := 0 < p.rc i

/-- Number of callbacks on the given entries that own entry `i`: the callbacks that a
refresh of `i` has registered. -/
def PSt.refreshOwners (p : PSt K V E) (es : List Nat) (i : Nat) : Nat :=
  (es.flatMap (fun j => (p.obj j).mapped.cbs)).countP (fun cb => match cb with | .refresh old => old == i | .user _ => false)

/-- The cache's data structure contains a pointer to entry `i`: in the table, in the
queue of recently used entries (a cache without size limit has none), in the queue of entries
to be refreshed, in a callback of an allocated entry, or in the hands of a resolver. -/
inductive PSt.PointsTo (cfg : Cfg K) (p : PSt K V E) : Nat → Prop
  | head {i} : p.tab.head = some i → PointsTo cfg p i
  | next {i} (j) : p.Allocated j → p.tab.next j = some i → PointsTo cfg p i
  | bucket {i} : Chain.Slot.node i ∈ p.tab.slots → PointsTo cfg p i
  | queueHead {i} : cfg.maxSize.isSome = true → p.pq.heap.succ 0 = some (i + 1) ∨ p.pq.heap.pred 0 = some (i + 1) → PointsTo cfg p i
  | queueSucc {i} (j) : cfg.maxSize.isSome = true → p.pq.heap.succ (j + 1) = some (i + 1) → PointsTo cfg p i
  | queuePred {i} (j) : cfg.maxSize.isSome = true → p.pq.heap.succ (j + 1) ≠ none → p.pq.heap.pred (j + 1) = some (i + 1) → PointsTo cfg p i
  | queueMid {i} : cfg.maxSize.isSome = true → p.pq.mid = i + 1 → PointsTo cfg p i
  | delayHead {i} : p.dq.succ 0 = some (i + 1) ∨ p.dq.pred 0 = some (i + 1) → PointsTo cfg p i
  | delaySucc {i} (j) : p.dq.succ (j + 1) = some (i + 1) → PointsTo cfg p i
  | delayPred {i} (j) : p.dq.succ (j + 1) ≠ none → p.dq.pred (j + 1) = some (i + 1) → PointsTo cfg p i
  | callback {i} (j) : p.Allocated j → Cb.refresh i ∈ (p.obj j).mapped.cbs → PointsTo cfg p i
  | resolver {i} : i ∈ p.handles → PointsTo cfg p i

/-- The linked elements of an intrusive list are allocated: whoever is in the queue is
not freed. -/
def PSt.QueuedAllocated (cfg : Cfg K) (p : PSt K V E) : Prop :=
  ∀ i, (cfg.maxSize.isSome = true ∧ p.pq.heap.succ (i + 1) ≠ none) ∨ p.dq.succ (i + 1) ≠ none → p.Allocated i

end Hoard
