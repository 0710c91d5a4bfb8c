import Verif.Handlers
import Verif.Spec.Waiters
/-!
# Specification: completion handlers that use the cache

What a history with handlers amounts to if completions took no time: a history of plain operations (`Verif.Cache`).
-/
namespace Hoard.Handlers
open Spec
variable {K V E : Type}

/-- The operations a step counts as.  A successful completion counts where it begins, a failing one where it ends;
the invocation of handlers does not count. -/
def linOf (env : Env V) (n : HSt K V E) : Ev K V E → Hist K V E
  | .op o => [(env, o)]
  | .begin tok (.ok v) => [(env, .complete tok (.ok v))]
  | .begin tok (.err x) => if tok ∈ n.s.opens ∧ n.s.destroyed = false then [] else [(env, .complete tok (.err x))]
  | .next => []
  | .finish => match n.frames with
    | { tok := tok, r := .err x, .. } :: _ => [(env, .complete tok (.err x))]
    | _ => []

/-- The plain history a history with handlers counts as. -/
def lin (cfg : Cfg K) : HSt K V E → HHist K V E → Hist K V E
  | _, [] => []
  | n, (env, e) :: h => linOf env n e ++ match next cfg env n e with
    | .ok n1 _ => lin cfg n1 h
    | _ => []

/-- The waiters answered, with what they are answered. -/
def answeredH (as : List (Ans K V E)) : List (Nat × Res V E) := as.flatMap (fun
  | .out o => o.fired
  | .ran w r => [(w, r)]
  | _ => [])

/-- The waiters dropped without being answered. -/
def brokenH (as : List (Ans K V E)) : List Nat := as.flatMap (fun
  | .out o => o.broken
  | _ => [])

/-- The waiters handed in. -/
def askedH (h : HHist K V E) : List Nat := h.flatMap (fun
  | (_, .op (.asyncGet _ w _)) => [w]
  | _ => [])

/-- The waiters answered in a plain history. -/
def answeredIn (outs : List (Out K V E)) : List (Nat × Res V E) := outs.flatMap (·.fired)

/-- Whenever a lookup is completed with a value, it is still the one whose value is to be kept: its key was not written or
erased since it was started.  `F` is what happened before. -/
def Current (cfg : Cfg K) : HSt K V E → Hist K V E → HHist K V E → Prop
  | _, _, [] => True
  | n, F, (env, e) :: h =>
    (∀ tok v, e = .begin tok (.ok v) → tok ∈ n.s.opens → n.s.destroyed = false → ∃ k, (ledgerAfter cfg F).valid k = some tok) ∧
    ∀ n1 a, next cfg env n e = .ok n1 a → Current cfg n1 (F ++ linOf env n e) h

/-- Nobody asks for a key while the failure of the lookup of that key is being delivered. -/
def Patient (cfg : Cfg K) : HSt K V E → Hist K V E → HHist K V E → Prop
  | _, _, [] => True
  | n, F, (env, e) :: h =>
    (∀ k w b t, e = .op (.asyncGet k w b) → (ledgerAfter cfg F).valid k = some t → t ∉ failing n) ∧
    ∀ n1 a, next cfg env n e = .ok n1 a → Patient cfg n1 (F ++ linOf env n e) h

/-- No time passes while something is being delivered; `t` is the time of the step before. -/
def Instant (cfg : Cfg K) : HSt K V E → Time → HHist K V E → Prop
  | _, _, [] => True
  | n, t, (env, e) :: h => (n.frames ≠ [] → env.now = t) ∧ ∀ n1 a, next cfg env n e = .ok n1 a → Instant cfg n1 env.now h

/-- A history with handlers in which: every step is possible; every successful lookup is still current (`Current`); the clock does not
go back; nothing is evicted, if there is a size limit; handlers take no time, if there is an age limit. -/
structure Orderly (cfg : Cfg K) (h : HHist K V E) : Prop where
  ok : HOk cfg {} h
  cur : Current cfg {} [] h
  mono : Mono (h.map (·.1))
  within : ∀ N, cfg.maxSize = some N → WithinH cfg N (lin cfg {} h)
  inst : cfg.maxAge ≠ none → Instant cfg {} ⟨0, 0⟩ h

end Hoard.Handlers
