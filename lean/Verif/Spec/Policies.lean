import Verif.Meta
/-!
# Specification: what a cache needs

Stated with the dependencies each policy lists, nothing else.
-/
namespace Hoard.Meta
variable {τ : Type}

/-- The policy `p` needs `d`: it lists it, or lists one that needs it. -/
inductive Needs (W : World τ) : τ → τ → Prop where
  | lists {p d} (h : d ∈ W.deps p) : Needs W p d
  | through {p q d} (h : q ∈ W.deps p) (r : Needs W q d) : Needs W p d

/-- The user names the policy or a named policy needs it. -/
def Required (W : World τ) (user : List τ) (x : τ) : Prop := x ∈ user ∨ ∃ p ∈ user, Needs W p x

/-- Something the library adds although nobody asked for it. -/
def Default (W : World τ) (x : τ) : Prop :=
  x = W.ts ∨ x = W.dflEqual ∨ x = W.dflHash ∨ x = W.dflAlloc ∨ x = W.dflError

end Hoard.Meta
