import Verif.Spec.Executors
import Verif.Settle
/-! Lemmas about executors. -/
namespace Hoard.Executors
open Spec
variable {K V E X : Type} {cfg : Cfg K}

theorem opsOf_append (a b : List (XEv K V E X)) : opsOf (a ++ b) = opsOf a ++ opsOf b := by
  induction a with
  | nil => rfl
  | cons e a ih => cases e <;> simp [opsOf, ih]

theorem handlersIn_calls (l : List (K × Nat)) : handlersIn (V := V) (E := E) (l.map (fun c => .call c.1 c.2)) = [] := by
  induction l with
  | nil => rfl
  | cons a l ih => exact ih
theorem handlersIn_handlers (l : List (Nat × Res V E)) : handlersIn (K := K) (l.map (fun f => .handler f.1 f.2)) = l := by
  induction l with
  | nil => rfl
  | cons a l ih => exact congrArg (a :: ·) ih
theorem callsIn_calls (l : List (K × Nat)) : callsIn (V := V) (E := E) (l.map (fun c => .call c.1 c.2)) = l := by
  induction l with
  | nil => rfl
  | cons a l ih => exact congrArg (a :: ·) ih
theorem callsIn_handlers (l : List (Nat × Res V E)) : callsIn (K := K) (l.map (fun f => .handler f.1 f.2)) = [] := by
  induction l with
  | nil => rfl
  | cons a l ih => exact ih

theorem eraseIdx_perm {A : Type} {l : List A} {i : Nat} {a : A} (h : l[i]? = some a) : (a :: l.eraseIdx i).Perm l := by
  induction l generalizing i with
  | nil => simp at h
  | cons b l ih =>
    cases i with
    | zero => simp at h; subst h; simp
    | succ i =>
      simp only [List.getElem?_cons_succ] at h
      simp only [List.eraseIdx_cons_succ]
      exact (List.Perm.swap ..).trans ((ih h).cons b)

theorem split_perm {A : Type} (f : A → Bool) (l : List A) : (l.filter f ++ l.filter (fun a => !f a)).Perm l := by
  induction l with
  | nil => exact .refl _
  | cons a l ih =>
    cases h : f a with
    | true => simp only [List.filter_cons, h, if_true, Bool.not_true, Bool.false_eq_true, if_false, List.cons_append]; exact ih.cons a
    | false =>
      simp only [List.filter_cons, h, if_true, Bool.not_false, Bool.false_eq_true, if_false]
      exact List.perm_middle.trans (ih.cons a)

theorem perm4 {A : Type} {a b c d e f : List A} (h1 : (a ++ c).Perm e) (h2 : (b ++ d).Perm f) : (a ++ b ++ (c ++ d)).Perm (e ++ f) := by
  refine List.Perm.trans ?_ (h1.append h2)
  rw [List.append_assoc, List.append_assoc]
  refine List.Perm.append_left a ?_
  rw [← List.append_assoc, ← List.append_assoc]
  exact List.Perm.append_right d List.perm_append_comm

theorem op_handlers (p : Place X) (n : XSt K V E) (inside : X → Bool) (env : Env V) (o : Op K V E) :
    handlersIn (xstep cfg p n (.op inside env o)).queue = handlersIn n.queue ++ ((step cfg env n.s o).2.fired.filter (fun f => !atOnce p inside o f.1)) := by
  have h : handlersIn (if inside p.resolver then [] else (step cfg env n.s o).2.calls.map (fun c => (.call c.1 c.2 : Job K V E))) = [] := by
    split
    · rfl
    · exact handlersIn_calls _
  show handlersIn (n.queue ++ _ ++ _) = _
  simp only [handlersIn, List.filterMap_append] at h ⊢
  rw [h, List.append_nil]
  exact congrArg _ (handlersIn_handlers _)

theorem op_calls (p : Place X) (n : XSt K V E) (inside : X → Bool) (env : Env V) (o : Op K V E) :
    callsIn (xstep cfg p n (.op inside env o)).queue = callsIn n.queue ++ (if inside p.resolver then [] else (step cfg env n.s o).2.calls) := by
  have h : callsIn (if inside p.resolver then [] else (step cfg env n.s o).2.calls.map (fun c => (.call c.1 c.2 : Job K V E))) =
      (if inside p.resolver then [] else (step cfg env n.s o).2.calls) := by
    split
    · rfl
    · exact callsIn_calls _
  have h' := callsIn_handlers (K := K) ((step cfg env n.s o).2.fired.filter (fun f => !atOnce p inside o f.1))
  show callsIn (n.queue ++ _ ++ _) = _
  simp only [callsIn, List.filterMap_append] at h h' ⊢
  rw [h, h', List.append_nil]

structure XInv (cfg : Cfg K) (h : Hist K V E) (n : XSt K V E) : Prop where
  s : n.s = stateAfter cfg h
  ran : (n.ran ++ handlersIn n.queue).Perm ((outsOf cfg h).flatMap (·.fired))
  called : (n.called ++ callsIn n.queue).Perm ((outsOf cfg h).flatMap (·.calls))

theorem xrun_snoc (p : Place X) (es : List (XEv K V E X)) (e : XEv K V E X) : xrun cfg p (es ++ [e]) = xstep cfg p (xrun cfg p es) e := by simp [xrun]

theorem xinv (p : Place X) (es : List (XEv K V E X)) : XInv cfg (opsOf es) (xrun cfg p es) := by
  induction es using snoc_ind with
  | h0 => exact ⟨rfl, .refl _, .refl _⟩
  | h1 es e ih =>
    rw [opsOf_append, xrun_snoc]
    generalize xrun cfg p es = n at *
    cases e with
    | op inside env o =>
      simp only [opsOf]
      have e1 : outAt cfg (opsOf es) env o = (step cfg env n.s o).2 := by rw [ih.s]; rfl
      refine ⟨?_, ?_, ?_⟩
      · rw [stateAfter_snoc]; simp [xstep, ih.s]
      · rw [outsOf_snoc, List.flatMap_append, op_handlers]
        simp only [List.flatMap_cons, List.flatMap_nil, List.append_nil, e1]
        exact perm4 ih.ran (split_perm _ _)
      · rw [outsOf_snoc, List.flatMap_append, op_calls]
        simp only [List.flatMap_cons, List.flatMap_nil, List.append_nil, e1]
        exact perm4 ih.called (by split <;> simp)
    | run i =>
      simp only [opsOf, List.append_nil, xstep]
      split
      · rename_i k tok hq
        have hp := eraseIdx_perm hq
        refine ⟨ih.s, ?_, ?_⟩
        · refine List.Perm.trans ?_ ih.ran
          refine List.Perm.append_left _ ?_
          exact hp.filterMap asHandler
        · refine List.Perm.trans ?_ ih.called
          rw [List.append_assoc]
          refine List.Perm.append_left _ ?_
          exact hp.filterMap asCall
      · rename_i w r hq
        have hp := eraseIdx_perm hq
        refine ⟨ih.s, ?_, ?_⟩
        · refine List.Perm.trans ?_ ih.ran
          rw [List.append_assoc]
          refine List.Perm.append_left _ ?_
          exact hp.filterMap asHandler
        · refine List.Perm.trans ?_ ih.called
          refine List.Perm.append_left _ ?_
          exact hp.filterMap asCall
      · exact ih

theorem guards_count (s : St K V E) (w : Nat) : (guards s).count w = Wt w s := by
  have : ∀ l : List (Entry K V E), (l.flatMap (fun e => users e.mapped.cbs)).count w = Wl w l := by
    intro l
    induction l with
    | nil => rfl
    | cons a l ih => simp only [List.flatMap_cons, List.count_append, ih, Wl, List.map_cons, List.sum_cons, wt]
  rw [guards, this, Wl_append]; rfl

theorem guards_perm (hc : cfg.Ok) (h : Hist K V E) (hok : HistOk cfg St.init h) :
    (guards (stateAfter cfg h) ++ answeredW (outsOf cfg h) ++ brokenW (outsOf cfg h)).Perm (asked h) := by
  rw [List.perm_iff_count]
  intro w
  have := Wt_hist hc h hok w
  rw [List.count_append, List.count_append, guards_count]; omega

theorem queue_length [DecidableEq X] (p : Place X) (q : List (Job K V E)) (x : X) :
    (q.filter (fun j => j.on p = x)).length =
      (((handlersIn q).map (·.1)).filter (fun w => p.handler w = x)).length + (if p.resolver = x then (callsIn q).length else 0) := by
  induction q with
  | nil => simp [handlersIn, callsIn]
  | cons j q ih =>
    cases j with
    | call k t =>
      have e1 : handlersIn (.call k t :: q : List (Job K V E)) = handlersIn q := rfl
      have e2 : callsIn (.call k t :: q : List (Job K V E)) = (k, t) :: callsIn q := rfl
      rw [e1, e2, List.filter_cons]
      by_cases h : p.resolver = x
      · simp only [Job.on, h, decide_true, if_true, List.length_cons] at ih ⊢; omega
      · simp only [Job.on, h, decide_false, Bool.false_eq_true, if_false] at ih ⊢; omega
    | handler w r =>
      have e1 : handlersIn (.handler w r :: q : List (Job K V E)) = (w, r) :: handlersIn q := rfl
      have e2 : callsIn (.handler w r :: q : List (Job K V E)) = callsIn q := rfl
      rw [e1, e2, List.filter_cons, List.map_cons, List.filter_cons]
      by_cases h : p.handler w = x
      · simp only [Job.on, h, decide_true, if_true, List.length_cons] at ih ⊢; omega
      · simp only [Job.on, h, decide_false, Bool.false_eq_true, if_false] at ih ⊢; omega

end Hoard.Executors
