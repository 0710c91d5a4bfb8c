import Verif.Throw
import Verif.Spec.Waiters
/-! # Specification: the ledger of histories with failing calls

As in Spec/Ledger.lean, read off the operations and their visible results. -/
namespace Hoard.Throw
open Spec
variable {K V E : Type}

/-- Nobody waits for the lookup any more. -/
def unheard (L : Ledger K V) (tok : Nat) : Ledger K V :=
  { L with wait := fun t => if t = tok then [] else L.wait t }

/-- The ledger after an operation.  A lookup that fails stores nothing: if the functor was called,
what it did with the handle counts; after a delivery that fails nobody waits for the lookup, and it is
given up unless it is left in place. -/
def xafter (eqv : K → K → Bool) (kind : Kind) (now : Time) (L : Ledger K V) (o : XOp K V E) (out : Out K V E) : Ledger K V :=
  match o with
  | .plain o => L.after eqv kind now o out
  | .getFail k r _ => match out.ret with
    | .throws => L
    | _ => L.after eqv kind now (.get k r) out
  | .asyncFail k w b _ => match out.ret with
    | .throws => match out.calls with
      | [] => L
      | (_, tok) :: _ => L.lookup eqv now false k tok b
    | _ => L.after eqv kind now (.asyncGet k w b) out
  | .assignFail tok keeps _ => match out.ret with
    | .throws => if keeps then unheard L tok else unheard (L.abandon tok) tok
    | _ => L

/-- The ledger after a history. -/
def xhistory (eqv : K → K → Bool) (kind : Kind) : Ledger K V → XHist K V E → List (Out K V E) → Ledger K V
  | L, (env, o) :: h, out :: outs => xhistory eqv kind (xafter eqv kind env.now L o out) h outs
  | L, _, _ => L

/-- State after a history. -/
def xstateAfter (cfg : Cfg K) (nx : Bool) (h : XHist K V E) : XSt K V E := (xrun cfg nx {} h).1

/-- What the operations of a history showed. -/
def xouts (cfg : Cfg K) (nx : Bool) (h : XHist K V E) : List (Out K V E) := (xrun cfg nx {} h).2

/-- What the ledger says after a history. -/
def xledgerAfter (cfg : Cfg K) (nx : Bool) (h : XHist K V E) : Ledger K V :=
  xhistory cfg.eqv cfg.resolver {} h (xouts cfg nx h)

/-- What an operation does when it is performed after a history. -/
def xoutAt (cfg : Cfg K) (nx : Bool) (h : XHist K V E) (env : Env V) (o : XOp K V E) : Out K V E :=
  (xstep cfg nx env (xstateAfter cfg nx h) o).2

/-- The program has ended in the course of the history. -/
def XEnded (cfg : Cfg K) (nx : Bool) (h : XHist K V E) : Prop := (xstateAfter cfg nx h).ended = true

/-- No failed delivery of the history leaves a lookup that refreshes a stored value. -/
def NoLostRefresh (cfg : Cfg K) (nx : Bool) (h : XHist K V E) : Prop :=
  ∀ h1 env tok v h2, h = h1 ++ (env, .assignFail tok true v) :: h2 → (xledgerAfter cfg nx h1).refr tok = false

/-- Every failed delivery of the history leaves the lookup in place, or the values are pointers. -/
def NoHusk (cfg : Cfg K) (h : XHist K V E) : Prop := cfg.ptr = true ∨ ∀ p ∈ h, ∀ tok v, p.2 ≠ .assignFail tok false v

/-- No step of the history evicts a value for good (see `NoEvict`). -/
def XNoEvict (cfg : Cfg K) (nx : Bool) (h : XHist K V E) : Prop :=
  ∀ h1 h2, h = h1 ++ h2 → NoEvict cfg (xstateAfter cfg nx h1).s

/-- The handle `tok` was given to the functor in the history. -/
def XGiven (cfg : Cfg K) (nx : Bool) (tok : Nat) (h : XHist K V E) : Prop :=
  ∃ out ∈ xouts cfg nx h, ∃ k, (k, tok) ∈ out.calls

/-- The callbacks (numbered by the caller) passed to asynchronous gets that did not throw. -/
def xasked : XHist K V E → List (Out K V E) → List Nat
  | (_, .plain (.asyncGet _ w _)) :: h, _ :: outs => w :: xasked h outs
  | (_, .asyncFail _ w _ _) :: h, out :: outs => match out.ret with
    | .throws => xasked h outs
    | _ => w :: xasked h outs
  | _ :: h, _ :: outs => xasked h outs
  | _, _ => []

/-- The callback `w` waits for a lookup whose handle was thrown away by the functor while it was being
called (see C24). -/
def XLost (cfg : Cfg K) (nx : Bool) (h : XHist K V E) (w : Nat) : Prop :=
  ∃ h1 e1 k o h2, h = h1 ++ (e1, o) :: h2 ∧ (o = .plain (.asyncGet k w .drop) ∨ ∃ f, o = .asyncFail k w .drop f) ∧
    (xoutAt cfg nx h1 e1 o).ret ≠ .throws ∧ (xoutAt cfg nx h1 e1 o).calls ≠ []

/-- The handle `tok` is spoiled: a delivery through it failed and left nothing of the lookup, and the handle
was not dropped since. -/
def Spoiled (cfg : Cfg K) (nx : Bool) (h : XHist K V E) (tok : Nat) : Prop :=
  ∃ h1 env v h2, h = h1 ++ (env, .assignFail tok false v) :: h2 ∧ (xoutAt cfg nx h1 env (.assignFail tok false v)).ret = .throws ∧
    ∀ p ∈ h2, p.2 ≠ .plain (.drop tok)

end Hoard.Throw
