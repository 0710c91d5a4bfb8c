import Verif.Abort
import Verif.Spec.Waiters
import Verif.Spec.Reach
/-! # Specification: the ledger of histories with calls that are left in the middle -/
namespace Hoard.Abort
open Spec
variable {K V E : Type}

/-- What an `emplace` that is left in the middle has done: nothing; it removed the value;
it removed the value and gave up the lookup in flight. -/
inductive Left where
  | nothing
  | value
  | all

/-- The value of the key is gone; a lookup in flight still counts. -/
def unvalue (eqv : K → K → Bool) (L : Ledger K V) (k : K) : Ledger K V :=
  { L with cur := fun a => if eqv a k then none else L.cur a }

/-- The ledger after an operation.  A lookup that is left has done nothing. -/
def aafter (eqv : K → K → Bool) (kind : Kind) (now : Time) (c : Left) (L : Ledger K V) (o : AOp K V E) (out : Out K V E) : Ledger K V :=
  match o with
  | .plain o => L.after eqv kind now o out
  | .look _ _ _ => L
  | .emplace k _ => match c with
    | .nothing => L
    | .value => unvalue eqv L k
    | .all => L.write eqv now k none

/-- The ledger after a history, given what the calls that were left have done (`c i`: the `i`-th call). -/
def ahistory (eqv : K → K → Bool) (kind : Kind) (c : Nat → Left) : Nat → Ledger K V → AHist K V E → List (Out K V E) → Ledger K V
  | i, L, (env, o) :: h, out :: outs => ahistory eqv kind c (i + 1) (aafter eqv kind env.now (c i) L o out) h outs
  | _, L, _, _ => L

/-- State after a history. -/
def astateAfter (cfg : Cfg K) (h : AHist K V E) : St K V E := (arun cfg St.init h).1

/-- What the operations of a history showed. -/
def aouts (cfg : Cfg K) (h : AHist K V E) : List (Out K V E) := (arun cfg St.init h).2

/-- What the ledger says after a history. -/
def aledgerAfter (cfg : Cfg K) (c : Nat → Left) (h : AHist K V E) : Ledger K V :=
  ahistory cfg.eqv cfg.resolver c 0 {} h (aouts cfg h)

/-- What an operation does when it is performed after a history. -/
def aoutAt (cfg : Cfg K) (h : AHist K V E) (env : Env V) (o : AOp K V E) : Out K V E :=
  (astep cfg env (astateAfter cfg h) o).2

/-- No step of the history evicts a value for good (see `NoEvict`). -/
def ANoEvict (cfg : Cfg K) (h : AHist K V E) : Prop :=
  ∀ h1 h2, h = h1 ++ h2 → NoEvict cfg (astateAfter cfg h1)

end Hoard.Abort
