import Verif.RefAlloc
import Verif.Spec.Owners
/-! # Specification: counted pointers and their allocators -/
namespace Hoard.RefAlloc
open Hoard.Refcount

/-- Correct use: as for counted pointers in general (`Refcount.Op.ok`, whether or not the operation fails), and a plain pointer is
given only to a pointer variable, or a table, with the allocator that its object came from. -/
def AOp.ok (t : A) : AOp → Prop
  | .make x _ _ => Op.ok t.s (.alloc x)
  | .null x _ => Op.ok t.s (.alloc x)
  | .copy x y _ => Op.ok t.s (.copy x y)
  | .move x y _ => Op.ok t.s (.move x y)
  | .dtor x => Op.ok t.s (.dtor x)
  | .copyAssign x y _ => Op.ok t.s (.copyAssign x y)
  | .moveAssign x y _ => Op.ok t.s (.moveAssign x y)
  | .adopt x o => Op.ok t.s (.adopt x o) ∧ (o, t.alloc x) ∈ t.blocks
  | .release x => Op.ok t.s (.release x)
  | .reset x _ => Op.ok t.s (.reset x)
  | .resetPtr x p _ => Op.ok t.s (.resetPtr x p) ∧ ∀ o, p = some o → (o, t.alloc x) ∈ t.blocks
  | .dispose o a => Op.ok t.s (.dispose o) ∧ (o, a) ∈ t.blocks

/-- A program all of whose operations are used correctly. -/
def AProg.ok (t : A) : List AOp → Prop
  | [] => True
  | o :: os => AOp.ok t o ∧ ∀ t', astep t o = some t' → AProg.ok t' os

/-- The allocators of the objects that a program makes, in order: object number `n` is the `n`-th one. -/
def makers : List AOp → List Nat
  | [] => []
  | .make _ a none :: os => a :: makers os
  | _ :: os => makers os

/-- How many operations of a program let the destructor of an object throw. -/
def throwing : List AOp → Nat
  | [] => 0
  | .reset _ true :: os => throwing os + 1
  | .resetPtr _ _ true :: os => throwing os + 1
  | _ :: os => throwing os

/-- The objects that are destroyed by operations in which their destructor throws, in order. -/
def thrown (t : A) : List AOp → List Nat
  | [] => []
  | op :: os =>
    match astep t op with
    | none => []
    | some t' => (if throwing [op] = 1 then t'.s.killed.filter (fun o => o ∉ t.s.killed) else []) ++ thrown t' os

/-- The operation on counted pointers without its allocator and failure; a null pointer is declared like a new object. -/
def AOp.plain : AOp → Op
  | .make x _ _ => .alloc x
  | .null x _ => .alloc x
  | .copy x y _ => .copy x y
  | .move x y _ => .move x y
  | .dtor x => .dtor x
  | .copyAssign x y _ => .copyAssign x y
  | .moveAssign x y _ => .moveAssign x y
  | .adopt x o => .adopt x o
  | .release x => .release x
  | .reset x _ => .reset x
  | .resetPtr x p _ => .resetPtr x p
  | .dispose o _ => .dispose o

/-- The operation names no other allocator than `a`, as in a cache, whose entries, pointers and disposer all use a copy of the cache's
allocator (hashtable.ii:700-711, 944-953). -/
def AOp.only (a : Nat) : AOp → Prop
  | .make _ b _ => b = a
  | .null _ b => b = a
  | .dispose _ b => b = a
  | _ => True

/-- A program whose operations are used correctly as far as pointers go, and name no other allocator than `a`. -/
def OneProg.ok (a : Nat) (t : A) : List AOp → Prop
  | [] => True
  | o :: os => (Op.ok t.s o.plain ∧ o.only a) ∧ ∀ t', astep t o = some t' → OneProg.ok a t' os

end Hoard.RefAlloc
