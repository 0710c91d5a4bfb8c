import Verif.Worker
import Verif.Spec.Reach
/-! # Specification: what is asked of the refresh worker -/
namespace Hoard.Worker
variable {K V E : Type}

/-- The schedule leads from the freshly made cache to `g`: every step was possible, and none was undefined. -/
def Leads (cfg : Cfg K) (as : List (Env V × Act K V E)) (g : G K V E) : Prop :=
  Sched cfg ({} : G K V E) as ∧ exec cfg ({} : G K V E) as = .ok g {}

/-- The key has a value that a lookup would return now, no refresh of it was started since it was written, and it was
written `d` before `now` or earlier. -/
def Due (cfg : Cfg K) (d : Int) (h : Hist K V E) (env : Env V) (now : Int) (k : K) : Prop :=
  (∃ v, (outAt cfg h env (.getIfExists k)).ret = .val v) ∧ (ledgerAfter cfg h).tried k = false ∧ (ledgerAfter cfg h).time k + d ≤ now

/-- Only the worker runs, `ws` times, with what the resolver does each time. -/
def works (ws : List (Env V × Res V E × Beh V E)) : List (Env V × Act K V E) := ws.map (fun w => (w.1, .work w.2.1 w.2.2))

/-- Operations that look up and add, and remove nothing. -/
def OnlyAdds : Op K V E → Prop
  | .emplace .. => False
  | .erase _ => False
  | .clear => False
  | .tick .. => False
  | .destroy => False
  | _ => True

/-- Other threads only look up and add, and the cache is not destroyed. -/
def OnlyAddsAct : Act K V E → Prop
  | .call o => OnlyAdds o
  | .dtorClear => False
  | _ => True

end Hoard.Worker
