import Verif.Threads
/-!
# Specification: sequential explanations of what several threads see

An object with sequential behaviour `seq`.  A sequential execution is a list of
operations with the thread that performs each of them.
-/
namespace Hoard.Threads
variable {S Env O R : Type}

/-- A sequential execution: who does what, when. -/
abbrev Seq (Env O : Type) := List (Nat × Env × O)

/-- The results of a sequential execution, with the thread that gets each. -/
def results (seq : Env → S → O → S × R) : S → Seq Env O → List (Nat × R)
  | _, [] => []
  | s, (t, e, o) :: h => (t, (seq e s o).2) :: results seq (seq e s o).1 h

/-- The operations thread `t` calls, in order. -/
def callsOf (t : Nat) : List (Vis O R) → List O
  | [] => []
  | .call u o :: vs => if u = t then o :: callsOf t vs else callsOf t vs
  | .ret _ _ :: vs => callsOf t vs

/-- What thread `t` gets back, in order. -/
def returnsOf (t : Nat) : List (Vis O R) → List R
  | [] => []
  | .call _ _ :: vs => returnsOf t vs
  | .ret u r :: vs => if u = t then r :: returnsOf t vs else returnsOf t vs

/-- The operations of thread `t` in a sequential execution. -/
def opsOf (t : Nat) (h : Seq Env O) : List O := (h.filter (fun x => x.1 = t)).map (fun x => x.2.2)

/-- What thread `t` gets in a sequential execution. -/
def resultsOf (t : Nat) (l : List (Nat × R)) : List R := (l.filter (fun x => x.1 = t)).map (·.2)

/-- The sequential execution `h` explains what was seen: every thread gets the results it
gets in `h`, for the operations it called, in its own order (the last operation of a thread may not yet
have happened, or not yet have returned). -/
def Explains (seq : Env → S → O → S × R) (s : S) (h : Seq Env O) (vis : List (Vis O R)) : Prop :=
  ∀ t, opsOf t h <+: callsOf t vis ∧ returnsOf t vis <+: resultsOf t (results seq s h)

/-- Linearizable: as things go on, the explanation only grows at its end.  So an
operation that returned before another one was called comes before that one. -/
inductive Linearizable (seq : Env → S → O → S × R) (s : S) : Seq Env O → List (Vis O R) → Prop where
  | start : Linearizable seq s [] []
  | more {h : Seq Env O} {vis : List (Vis O R)} (p : Linearizable seq s h vis) (h' : Seq Env O) (vis' : List (Vis O R))
      (e : Explains seq s (h ++ h') (vis ++ vis')) (small : h'.length + vis'.length ≤ 1) : Linearizable seq s (h ++ h') (vis ++ vis')

end Hoard.Threads
