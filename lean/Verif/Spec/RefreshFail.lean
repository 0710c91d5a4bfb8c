import Verif.RefreshFail
import Verif.Spec.Timers
/-! # Specification: refreshes that fail

What is written when refreshes by timers fail now and then. -/
namespace Hoard.RefreshFail
open Spec Timers
variable {K V E : Type}

/-- The ledger after a step that had the given outcome.  A handler that throws writes nothing itself; if it has called the functor of an
asynchronous resolver, what that did with the handle counts, as for any other lookup. -/
def fafter (eqv : K → K → Bool) (kind : Kind) (now : Time) (L : Ledger K V) : FEv K V E → Out K V E → Ledger K V
  | .ev e, out => Timers.after eqv kind now L e out
  | .fail _ r b _, out => match out.ret with
    | .throws => match kind, out.calls with
      | .async, (k, tok) :: _ => L.lookup eqv now false k tok b
      | _, _ => L
    | _ => L.after eqv kind now (.tick r b) out

/-- The ledger along a history. -/
def fledger (eqv : K → K → Bool) (kind : Kind) : Ledger K V → FHist K V E → List (Out K V E) → Ledger K V
  | L, (env, e) :: h, o :: os => fledger eqv kind (fafter eqv kind env.now L e o) h os
  | L, _, _ => L

/-- The state after a history of a new cache. -/
def fstate (cfg : Cfg K) (h : FHist K V E) : TSt K V E := (frun cfg {} h).1

/-- The ledger after a history of a new cache. -/
def fledgerAfter (cfg : Cfg K) (h : FHist K V E) : Ledger K V := fledger cfg.eqv cfg.resolver {} h (frun cfg ({} : TSt K V E) h).2

/-- What a step does after a history. -/
def fout (cfg : Cfg K) (h : FHist K V E) (env : Env V) (e : FEv K V E) : Out K V E := (fnext cfg env (fstate cfg h) e).2

/-- At some time in the history the handler of the entry `i` threw. -/
def FThrew (cfg : Cfg K) (h : FHist K V E) (i : Nat) : Prop :=
  ∃ h1 env r b f h2, h = h1 ++ (env, .fail i r b f) :: h2 ∧ (fout cfg h1 env (.fail i r b f)).ret = .throws

/-- A handler that calls the resolver is in time: its entry is still in the table. -/
def FInTime (cfg : Cfg K) (env : Env V) (t : TSt K V E) : FEv K V E → Prop
  | .ev e => InTime cfg env t e
  | .fail i r b f => (fnext cfg env t (.fail i r b f)).2.calls ≠ [] → ∃ e ∈ t.s.ents, e.id = i

/-- All handlers of the history are. -/
def FAllInTime (cfg : Cfg K) : TSt K V E → FHist K V E → Prop
  | _, [] => True
  | t, (env, e) :: h => FInTime cfg env t e ∧ FAllInTime cfg (fnext cfg env t e).1 h

/-- Nothing that is still of use is evicted along the history. -/
def FNoEvict (cfg : Cfg K) : TSt K V E → FHist K V E → Prop
  | t, [] => NoEvict cfg t.s
  | t, (env, e) :: h => NoEvict cfg t.s ∧ FNoEvict cfg (fnext cfg env t e).1 h

/-- If the step fails, it is not in registering the callback for the old value, and a functor that throws has let go of its handle. -/
def FEv.tame : FEv K V E → Prop
  | .ev _ => True
  | .fail _ _ b f => match f with
    | .register => False
    | .functor => b = .drop
    | _ => True

/-- All failures of the history are of that kind. -/
def Tame (h : FHist K V E) : Prop := ∀ p ∈ h, p.2.tame

/-- The step calls the handler of the entry `i`. -/
def FEv.handles (i : Nat) : FEv K V E → Bool
  | .ev e => e.handles i
  | .fail j _ _ _ => j == i

end Hoard.RefreshFail
