import Verif.Timers
import Verif.Spec.Ledger
import Verif.Spec.Reach
/-! # Specification: refreshing by timers

What is written when values are refreshed by timers (C60), and which handlers are late. -/
namespace Hoard.Timers
open Spec
variable {K V E : Type}

/-- The ledger after a step that had the given outcome.  A handler that calls the resolver counts as a refresh, like a run of the
refresh thread. -/
def after (eqv : K → K → Bool) (kind : Kind) (now : Time) (L : Ledger K V) : Ev K V E → Out K V E → Ledger K V
  | .op o, out => L.after eqv kind now o out
  | .expire _, _ => L
  | .handler _ r b, out => L.after eqv kind now (.tick r b) out

/-- The ledger along a history. -/
def ledgerT (eqv : K → K → Bool) (kind : Kind) : Ledger K V → THist K V E → List (Out K V E) → Ledger K V
  | L, (env, e) :: h, o :: os => ledgerT eqv kind (after eqv kind env.now L e o) h os
  | L, _, _ => L

/-- The state after a history of a new cache. -/
def stateT (cfg : Cfg K) (h : THist K V E) : TSt K V E := (runT cfg {} h).1

/-- The ledger after a history of a new cache. -/
def ledgerAfterT (cfg : Cfg K) (h : THist K V E) : Ledger K V := ledgerT cfg.eqv cfg.resolver {} h (runT cfg ({} : TSt K V E) h).2

/-- What a step does after a history. -/
def outT (cfg : Cfg K) (h : THist K V E) (env : Env V) (e : Ev K V E) : Out K V E := (next cfg env (stateT cfg h) e).2

/-- A handler that calls the resolver is in time: its entry is still in the table.  (Other steps are always in time.) -/
def InTime (cfg : Cfg K) (env : Env V) (t : TSt K V E) : Ev K V E → Prop
  | .handler i r b => (next cfg env t (.handler i r b)).2.calls ≠ [] → ∃ e ∈ t.s.ents, e.id = i
  | _ => True

/-- All handlers of the history are. -/
def AllInTime (cfg : Cfg K) : TSt K V E → THist K V E → Prop
  | _, [] => True
  | t, (env, e) :: h => InTime cfg env t e ∧ AllInTime cfg (next cfg env t e).1 h

/-- Nothing that is still of use is evicted along the history. -/
def NoEvictT (cfg : Cfg K) : TSt K V E → THist K V E → Prop
  | t, [] => NoEvict cfg t.s
  | t, (env, e) :: h => NoEvict cfg t.s ∧ NoEvictT cfg (next cfg env t e).1 h

/-- The lookup `tok` was started for a key equal to `k` along the history. -/
def StartedT (cfg : Cfg K) (h : THist K V E) (k : K) (tok : Nat) : Prop :=
  ∃ h1 env e h2 a, h = h1 ++ (env, e) :: h2 ∧ (a, tok) ∈ (outT cfg h1 env e).calls ∧ cfg.eqv a k = true

/-- The value a step provides: the one inserted, the one the resolver returned if it was called, or the one with which a lookup is
completed. -/
def provides (cfg : Cfg K) (h : THist K V E) (k : K) (v : V) : Ev K V E → Out K V E → Prop
  | .op (.emplace a u _), out => out.made = true ∧ cfg.eqv a k = true ∧ u = v
  | .op (.getOrEmplace a u _), out => out.made = true ∧ cfg.eqv a k = true ∧ u = v
  | .op (.get _ (.ok u)), out => ∃ a tok, (a, tok) ∈ out.calls ∧ cfg.eqv a k = true ∧ u = v
  | .op (.asyncGet _ _ (.now (.ok u))), out => ∃ a tok, (a, tok) ∈ out.calls ∧ cfg.eqv a k = true ∧ u = v
  | .op (.complete tok (.ok u)), _ => StartedT cfg h k tok ∧ u = v
  | .handler _ r b, out => ∃ a tok, (a, tok) ∈ out.calls ∧ cfg.eqv a k = true ∧
      (cfg.resolver = .sync ∧ r = .ok v ∨ cfg.resolver = .async ∧ b = .now (.ok v))
  | _, _ => False

/-- Some step of the history provided the value `v` for a key equal to `k`. -/
def ProvidedT (cfg : Cfg K) (h : THist K V E) (k : K) (v : V) : Prop :=
  ∃ h1 env e h2, h = h1 ++ (env, e) :: h2 ∧ provides cfg h1 k v e (outT cfg h1 env e)

/-- The step calls the handler of the entry `i`. -/
def Ev.handles (i : Nat) : Ev K V E → Bool
  | .handler j _ _ => j == i
  | _ => false

end Hoard.Timers
