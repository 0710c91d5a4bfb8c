import Verif.Nested
import Verif.Spec.Ledger
import Verif.Spec.Reach
/-! # Specification: nested calls

What is written when resolvers use the cache (C57), and which resolvers
keep out of each other's way. -/
namespace Hoard.Nested
open Spec
variable {K V E : Type}

/-- The ledger after a step with the given answer.  A `get` that found a value counts as a use of it; when the resolver is called,
nothing is stored for the key any more.  What the innermost resolver returns is written to its key when it returns; an
exception counts as a removal. -/
def after (eqv : K → K → Bool) (kind : Kind) (now : Time) (L : Ledger K V) (stack : List K) : Ev K V E → Ans K V E → Ledger K V
  | .op o, .out out => L.after eqv kind now o out
  | .get k, .out out => L.read eqv now k out.ret
  | .get k, .called _ => L.write eqv now k none
  | .ret r, _ => match stack with
    | k :: _ => L.write eqv now k (value? r)
    | [] => L
  | _, _ => L

/-- The keys whose resolvers run, after a step with the given answer. -/
def running (stack : List K) : Ev K V E → Ans K V E → List K
  | .get _, .called k => k :: stack
  | .ret _, _ => stack.tail
  | _, _ => stack

/-- The ledger and the running resolvers after a history with the given answers. -/
def ledgerN (eqv : K → K → Bool) (kind : Kind) : Ledger K V × List K → NHist K V E → List (Ans K V E) → Ledger K V × List K
  | x, (env, e) :: h, a :: as => ledgerN eqv kind (after eqv kind env.now x.1 x.2 e a, running x.2 e a) h as
  | x, _, _ => x

/-- The step stores nothing under a key whose resolver is running: neither by inserting it, nor by
asking for it (which would start a second resolver for it). -/
def Apart (eqv : K → K → Bool) (stack : List K) : Ev K V E → Prop
  | .op (.emplace k _ _) => ∀ a ∈ stack, eqv k a = false
  | .op (.getOrEmplace k _ _) => ∀ a ∈ stack, eqv k a = false
  | .get k => ∀ a ∈ stack, eqv k a = false
  | _ => True

/-- No step of the history does. -/
def AllApart (cfg : Cfg K) : NSt K V E → NHist K V E → Prop
  | _, [] => True
  | n, (env, e) :: h => Apart cfg.eqv n.stack e ∧ AllApart cfg (next cfg env n e).1 h

/-- The ledger after a history of nested calls on a new cache. -/
def ledgerAfterN (cfg : Cfg K) (h : NHist K V E) : Ledger K V :=
  (ledgerN cfg.eqv cfg.resolver ({}, []) h (runN cfg {} h).2).1

/-- The answer to a step after a history of nested calls on a new cache. -/
def ansAt (cfg : Cfg K) (h : NHist K V E) (env : Env V) (e : Ev K V E) : Ans K V E := (next cfg env (runN cfg {} h).1 e).2

/-- Nothing that is still of use is evicted along the history. -/
def NoEvictN (cfg : Cfg K) : NSt K V E → NHist K V E → Prop
  | n, [] => NoEvict cfg n.s
  | n, (env, e) :: h => NoEvict cfg n.s ∧ NoEvictN cfg (next cfg env n e).1 h

/-- The step asks for a key below the one being resolved, and inserts nothing inside a resolver. -/
def Lower (lt : K → K → Prop) (stack : List K) : Ev K V E → Prop
  | .get k => ∀ a, stack.head? = some a → lt k a
  | .op (.emplace _ _ _) => stack = []
  | .op (.getOrEmplace _ _ _) => stack = []
  | _ => True

/-- Resolvers only ask for keys below the one they resolve, and insert nothing. -/
def Descends (cfg : Cfg K) (lt : K → K → Prop) : NSt K V E → NHist K V E → Prop
  | _, [] => True
  | n, (env, e) :: h => Lower lt n.stack e ∧ Descends cfg lt (next cfg env n e).1 h

/-- The resolver is called for a key equal to `k`. -/
def Ans.callsFor (eqv : K → K → Bool) (k : K) : Ans K V E → Bool
  | .called a => eqv a k
  | _ => false

/-- The step neither removes anything nor fails. -/
def Ev.retains : Ev K V E → Prop
  | .get _ => True
  | .ret (.ok _) => True
  | .op (.emplace _ _ .none) => True
  | .op (.getOrEmplace _ _ _) => True
  | .op (.getIfExists _) => True
  | .op .count => True
  | _ => False

/-- The step shows the value `v` of the key `k` to its caller. -/
def Shows (k : K) (v : V) : Ev K V E → Ans K V E → Prop
  | .get a, .out o => a = k ∧ o.ret = .val v
  | .op (.getIfExists a), .out o => a = k ∧ o.ret = .val v
  | .op (.getOrEmplace a _ _), .out o => a = k ∧ o.ret = .val v
  | _, _ => False

/-- The value stored under some key by a step with the given answer. -/
def Stores (eqv : K → K → Bool) (stack : List K) (k : K) (v : V) : Ev K V E → Ans K V E → Prop
  | .op (.emplace a u _), .out o => eqv a k = true ∧ u = v ∧ o.made = true
  | .op (.getOrEmplace a u _), .out o => eqv a k = true ∧ u = v ∧ o.made = true
  | .op (.tick (.ok u) _), .out o => u = v ∧ ∃ a tok, o.calls = [(a, tok)] ∧ eqv a k = true
  | .ret (.ok u), _ => u = v ∧ ∃ a, stack.head? = some a ∧ eqv a k = true
  | _, _ => False

/-- Some step of the history stored `v` under a key equal to `k`. -/
def StoredBy (cfg : Cfg K) (h : NHist K V E) (k : K) (v : V) : Prop :=
  ∃ h1 env e h2, h = h1 ++ (env, e) :: h2 ∧ Stores cfg.eqv (runN cfg {} h1).1.stack k v e (ansAt cfg h1 env e)

end Hoard.Nested
