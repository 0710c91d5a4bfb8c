import Verif.ExecutorsLemmas
import Verif.Props.Async
/-! # Handlers and executors: C108 -/
namespace Hoard.Props
open Spec Demo Executors
variable {K V E X : Type} {cfg : Cfg K}

/-- C108.  Whatever happens, in whatever order executors run what they are given: the handlers that ran, together with those in queues, are those
answered by the cache, each with its result, and each as often as it was answered. -/
theorem C108_handlers_neither_lost_nor_repeated (p : Place X) (es : List (XEv K V E X)) :
    ((xrun cfg p es).ran ++ handlersIn (xrun cfg p es).queue).Perm ((outsOf cfg (opsOf es)).flatMap (·.fired)) := (xinv p es).ran

/-- C108.  So each handler runs at most once, and only if the cache has answered its request. -/
theorem C108_handlers_run_once (hc : cfg.Ok) (p : Place X) (es : List (XEv K V E X)) (hok : HistOk cfg St.init (opsOf es)) (hN : (asked (opsOf es)).Nodup) :
    ((xrun cfg p es).ran.map (·.1)).Nodup ∧ ∀ f ∈ (xrun cfg p es).ran, f ∈ (outsOf cfg (opsOf es)).flatMap (·.fired) := by
  have h := C108_handlers_neither_lost_nor_repeated (cfg := cfg) p es
  have h1 := (C21_answered_at_most_once hc _ hok hN).1
  rw [answeredW, ← (h.map (·.1)).nodup_iff, List.map_append] at h1
  exact ⟨(List.nodup_append.1 h1).1, fun f hf => h.subset (List.mem_append_left _ hf)⟩

/-- C108.  The same for the calls of the resolver: each lookup calls it once, now or later. -/
theorem C108_resolver_neither_lost_nor_repeated (p : Place X) (es : List (XEv K V E X)) :
    ((xrun cfg p es).called ++ callsIn (xrun cfg p es).queue).Perm ((outsOf cfg (opsOf es)).flatMap (·.calls)) := (xinv p es).called

/-- C108.  No handler runs inside `async_get`, on whatever thread it is called. -/
theorem C108_not_inside_async_get (p : Place X) (es : List (XEv K V E X)) (inside : X → Bool) (env : Env V) (k : K) (w : Nat) (b : Beh V E) :
    (xrun cfg p (es ++ [.op inside env (.asyncGet k w b)])).ran = (xrun cfg p es).ran := by
  rw [xrun_snoc]
  simp [xstep, atOnce, immediate]

/-- C108.  Nor on a thread that is not inside the executor of the handler. -/
theorem C108_runs_only_on_its_executor (p : Place X) (es : List (XEv K V E X)) (inside : X → Bool) (env : Env V) (o : Op K V E) (f : Nat × Res V E)
    (hf : f ∈ (xrun cfg p (es ++ [.op inside env o])).ran) : f ∈ (xrun cfg p es).ran ∨ inside (p.handler f.1) = true := by
  rw [xrun_snoc] at hf
  simp only [xstep, List.mem_append, List.mem_filter, atOnce, Bool.and_eq_true] at hf
  exact hf.imp id (fun h => h.2.2)

/-- C108.  An executor has no outstanding work, so that `run` returns, exactly if all handlers that it was asked to run have run or their
callbacks were dropped, and, if it is the executor of the resolver, all calls of the resolver were made. -/
theorem C108_when_run_returns [DecidableEq X] (hc : cfg.Ok) (p : Place X) (es : List (XEv K V E X)) (hok : HistOk cfg St.init (opsOf es))
    (hN : (asked (opsOf es)).Nodup) (x : X) :
    outstanding p (xrun cfg p es) x = 0 ↔
      (∀ w ∈ asked (opsOf es), p.handler w = x → w ∈ (xrun cfg p es).ran.map (·.1) ∨ w ∈ brokenW (outsOf cfg (opsOf es))) ∧
      (p.resolver = x → (xrun cfg p es).called.Perm ((outsOf cfg (opsOf es)).flatMap (·.calls))) := by
  have I := xinv (cfg := cfg) p es
  have hg := guards_perm hc _ hok
  rw [← I.s] at hg
  have hr := I.ran.map (·.1)
  rw [List.map_append] at hr
  have hall : (guards (xrun cfg p es).s ++ ((xrun cfg p es).ran.map (·.1) ++ (handlersIn (xrun cfg p es).queue).map (·.1)) ++ brokenW (outsOf cfg (opsOf es))).Perm
      (asked (opsOf es)) := ((hr.append_left _).append_right _).trans hg
  have hn := hall.nodup_iff.2 hN
  unfold outstanding
  rw [queue_length]
  generalize xrun cfg p es = n at *
  have hz : ∀ l : List Nat, (l.filter (fun w => p.handler w = x)).length = 0 ↔ ∀ w ∈ l, p.handler w ≠ x := by
    intro l; rw [List.length_eq_zero_iff, List.filter_eq_nil_iff]; simp
  constructor
  · intro h
    have h1 := (hz (guards n.s)).1 (by omega)
    have h2 := (hz ((handlersIn n.queue).map (·.1))).1 (by omega)
    refine ⟨fun w hw hx => ?_, fun hx => ?_⟩
    · have := hall.symm.subset hw
      simp only [List.mem_append] at this
      rcases this with (q | q | q) | q
      · exact absurd hx (h1 w q)
      · exact .inl q
      · exact absurd hx (h2 w q)
      · exact .inr q
    · have : callsIn n.queue = [] := by
        simp only [hx, if_true] at h
        exact List.length_eq_zero_iff.1 (by omega)
      have hcl := I.called
      rw [this, List.append_nil] at hcl
      exact hcl
  · rintro ⟨h1, h2⟩
    simp only [List.nodup_append, List.mem_append] at hn
    have g0 : ((guards n.s).filter (fun w => p.handler w = x)).length = 0 := by
      rw [hz]
      intro w hw hx
      rcases h1 w (hall.subset (by simp [hw])) hx with q | q
      · exact hn.1.2.2 w hw w (.inl q) rfl
      · exact hn.2.2 w (.inl hw) w q rfl
    have q0 : (((handlersIn n.queue).map (·.1)).filter (fun w => p.handler w = x)).length = 0 := by
      rw [hz]
      intro w hw hx
      rcases h1 w (hall.subset (by simp only [List.mem_append]; exact .inl (.inr (.inr hw)))) hx with q | q
      · exact hn.1.2.1.2.2 w q w hw rfl
      · exact hn.2.2 w (.inr (.inr hw)) w q rfl
    have c0 : (if p.resolver = x then (callsIn n.queue).length else 0) = 0 := by
      split
      · rename_i hx
        have h3 := I.called.length_eq
        have h4 := (h2 hx).length_eq
        rw [List.length_append] at h3
        omega
      · rfl
    omega

/-- C108.  Left alone, the executors come to an end: after as many steps as there are functions in queues, all of them have run. -/
theorem C108_executors_finish (p : Place X) (es : List (XEv K V E X)) :
    let m := xrun cfg p (es ++ List.replicate (xrun cfg p es).queue.length (.run 0))
    m.queue = [] ∧ m.s = (xrun cfg p es).s ∧ m.ran = (xrun cfg p es).ran ++ handlersIn (xrun cfg p es).queue ∧ m.called = (xrun cfg p es).called ++ callsIn (xrun cfg p es).queue := by
  have key : ∀ (q : List (Job K V E)) (n : XSt K V E), n.queue = q →
      let m := (List.replicate q.length (.run 0 : XEv K V E X)).foldl (xstep cfg p) n
      m.queue = [] ∧ m.s = n.s ∧ m.ran = n.ran ++ handlersIn q ∧ m.called = n.called ++ callsIn q := by
    intro q
    induction q with
    | nil => intro n hn; exact ⟨hn, rfl, (List.append_nil _).symm, (List.append_nil _).symm⟩
    | cons j q ih =>
      intro n hn
      simp only [List.length_cons, List.replicate_succ, List.foldl_cons]
      cases j with
      | call k t =>
        have e : xstep cfg p n (.run 0) = { n with queue := q, called := n.called ++ [(k, t)] } := by simp [xstep, hn]
        have := ih { n with queue := q, called := n.called ++ [(k, t)] } rfl
        rw [e]
        refine ⟨this.1, this.2.1, this.2.2.1, ?_⟩
        rw [this.2.2.2]; simp [callsIn, asCall]
      | handler w r =>
        have e : xstep cfg p n (.run 0) = { n with queue := q, ran := n.ran ++ [(w, r)] } := by simp [xstep, hn]
        have := ih { n with queue := q, ran := n.ran ++ [(w, r)] } rfl
        rw [e]
        refine ⟨this.1, this.2.1, ?_, this.2.2.2⟩
        rw [this.2.2.1]; simp [handlersIn, asHandler]
  have := key _ (xrun cfg p es) rfl
  simpa [xrun, List.foldl_append] using this

/-- C108 is false for a functor that throws its handle away while it runs inside `async_get`: until the cache is destroyed, `run` of the executor of
the handler does not return. -/
theorem C108_dropped_inside_never_returns [DecidableEq X] (hc : cfg.Ok) (p : Place X) (es1 es2 : List (XEv K V E X)) (inside : X → Bool) (env : Env V) (k : K) (w : Nat)
    (hok : HistOk cfg St.init (opsOf (es1 ++ .op inside env (.asyncGet k w .drop) :: es2))) (hN : (asked (opsOf (es1 ++ .op inside env (.asyncGet k w .drop) :: es2))).Nodup)
    (hcall : (outAt cfg (opsOf es1) env (.asyncGet k w .drop)).calls ≠ [])
    (hd : (stateAfter cfg (opsOf (es1 ++ .op inside env (.asyncGet k w .drop) :: es2))).destroyed = false) :
    0 < outstanding p (xrun cfg p (es1 ++ .op inside env (.asyncGet k w .drop) :: es2)) (p.handler w) := by
  have e : opsOf (es1 ++ .op inside env (.asyncGet k w .drop) :: es2) = opsOf es1 ++ (env, .asyncGet k w .drop) :: opsOf es2 := by rw [opsOf_append]; rfl
  have h := C24_dropped_inside_resolver_waits_forever hc (opsOf es1) (opsOf es2) env k w (e ▸ hok) (e ▸ hN) hcall (e ▸ hd)
  rw [← e] at h
  refine Nat.pos_of_ne_zero fun h0 => ?_
  rw [C108_when_run_returns hc p _ hok hN] at h0
  have hw : w ∈ asked (opsOf (es1 ++ .op inside env (.asyncGet k w .drop) :: es2)) := by rw [e, asked_append]; simp [asked]
  rcases h0.1 w hw rfl with q | q
  · refine h.1 ?_
    obtain ⟨f, hf, rfl⟩ := List.mem_map.1 q
    exact List.mem_map.2 ⟨f, (C108_handlers_neither_lost_nor_repeated (cfg := cfg) p _).subset (List.mem_append_left _ hf), rfl⟩
  · exact h.2 q

/-- C108.  If results are never delivered by threads of the executors, and executors take functions in turn, handlers run in the order in which the cache
answered.  (Partial: otherwise not, see `C108_older_value_later`.) -/
theorem C108_in_order_partial (p : Place X) (es : List (XEv K V E X)) (h1 : ∀ inside env o, .op inside env o ∈ es → ∀ w, inside (p.handler w) = false)
    (h2 : ∀ i, .run i ∈ es → i = 0) :
    (xrun cfg p es).ran ++ handlersIn (xrun cfg p es).queue = (outsOf cfg (opsOf es)).flatMap (·.fired) := by
  induction es using snoc_ind with
  | h0 => rfl
  | h1 es e ih =>
    have ih := ih (fun i v o q => h1 i v o (List.mem_append_left _ q)) (fun i q => h2 i (List.mem_append_left _ q))
    have I := xinv (cfg := cfg) p es
    rw [xrun_snoc, opsOf_append]
    cases e with
    | op inside env o =>
      have hi := h1 inside env o (by simp)
      have ha : ∀ f : Nat × Res V E, atOnce p inside o f.1 = false := fun f => by simp [atOnce, hi]
      simp only [opsOf]
      have e1 : outAt cfg (opsOf es) env o = (step cfg env (xrun cfg p es).s o).2 := by rw [I.s]; rfl
      rw [outsOf_snoc, List.flatMap_append, ← ih, op_handlers]
      simp only [List.flatMap_cons, List.flatMap_nil, List.append_nil, e1]
      have e2 : (xstep cfg p (xrun cfg p es) (.op inside env o)).ran = (xrun cfg p es).ran := by simp [xstep, ha]
      rw [e2, List.append_assoc]
      simp [ha]
    | run i =>
      have : i = 0 := h2 i (by simp)
      subst this
      simp only [opsOf, List.append_nil]
      rw [← ih]
      generalize xrun cfg p es = n
      cases hq : n.queue with
      | nil => simp [xstep, hq]
      | cons j q => cases j <;> simp [xstep, hq, handlersIn, asHandler, List.filterMap_cons]

/-! ## Examples -/

/-- All on one executor. -/
def oneExec : Place Unit := ⟨fun _ => (), ()⟩

/-- The order is not kept in general, on an executor with one thread: the handler of a request that was answered from the cache is queued; the key is
erased and looked up again; the thread of the executor delivers the new value, and the second handler runs at once.  Then the first runs, with the
older value. -/
theorem C108_older_value_later :
    let es : List (XEv Nat Nat Nat Unit) := [.op (fun _ => true) (at_ 0) (.emplace 1 5 .none), .op (fun _ => true) (at_ 0) (.asyncGet 1 10 .later),
      .op (fun _ => true) (at_ 0) (.erase 1), .op (fun _ => true) (at_ 0) (.asyncGet 1 11 .later), .op (fun _ => true) (at_ 0) (.complete 1 (.ok 6)), .run 0]
    HistOk asyncC St.init (opsOf es) ∧ (outsOf asyncC (opsOf es)).flatMap (·.fired) = [(10, .ok 5), (11, .ok 6)] ∧
    (xrun asyncC oneExec es).ran = [(11, .ok 6), (10, .ok 5)] := by decide +kernel

/-- Two handlers on different executors, the resolver on a third.  The resolver is called later; its result reaches one handler at once.  Then the
executor of that handler has no work left, and the other one has. -/
example :
    let p : Place Nat := ⟨fun w => w, 0⟩
    let es : List (XEv Nat Nat Nat Nat) := [.op (fun _ => false) (at_ 0) (.asyncGet 1 10 .later), .op (fun _ => false) (at_ 0) (.asyncGet 1 11 .later), .run 0,
      .op (fun x => x == 10) (at_ 1) (.complete 0 (.ok 6))]
    HistOk asyncC St.init (opsOf es) ∧ (asked (opsOf es)).Nodup ∧ (xrun asyncC p es).ran = [(10, .ok 6)] ∧ handlersIn (xrun asyncC p es).queue = [(11, .ok 6)] ∧
    (xrun asyncC p es).called = [(1, 0)] ∧ outstanding p (xrun asyncC p es) 10 = 0 ∧ outstanding p (xrun asyncC p es) 11 = 1 ∧ outstanding p (xrun asyncC p es) 0 = 0 ∧
    outstanding p (xrun asyncC p (es.take 2)) 10 = 1 ∧ outstanding p (xrun asyncC p (es.take 2)) 0 = 1 := by decide +kernel

/-- A functor that throws its handle away: nothing is queued, and the executor still has work. -/
example :
    let es : List (XEv Nat Nat Nat Unit) := [.op (fun _ => true) (at_ 0) (.asyncGet 1 10 .drop)]
    HistOk asyncC St.init (opsOf es) ∧ (xrun asyncC oneExec es).queue.length = 0 ∧ outstanding oneExec (xrun asyncC oneExec es) () = 1 ∧
    outstanding oneExec (xrun asyncC oneExec (es ++ [.op (fun _ => true) (at_ 1) .destroy])) () = 0 := by decide +kernel

end Hoard.Props
