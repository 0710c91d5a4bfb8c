import Verif.ThreadsLemmas
import Verif.Race
import Verif.Demo
import Verif.Props.Values
/-!
# C37, C38: several threads
-/
namespace Hoard.Props
open Hoard Threads

/-! ## C37 -/

/-- C37 in general: operations that hold the lock while they touch the object are linearizable,
however they are cut into single accesses, whatever the threads do and whatever the schedule. -/
theorem C37_locked_operations_are_linearizable {S Env O R : Type} (body : Env → O → Prog S R) (seq : Env → S → O → S × R)
    (hb : ∀ e o, Closed 1 (body e o)) (hs : ∀ e o s, (body e o).run s = seq e s o)
    (s0 : S) (e0 : Env) (cs : List (Choice Env O)) (g : G S Env O R) (vis : List (Vis O R))
    (he : exec body (start s0 e0) cs = some (g, vis)) :
    ∃ h, Linearizable seq s0 h vis ∧ Explains seq s0 h vis := by
  obtain ⟨h, i, l, _⟩ := linear_exec hb hs (fun _ _ => True) (fun _ => trivial) cs (inv_start seq s0 e0) .start
    (List.pairwise_of_forall (fun _ _ => trivial)) he
  exact ⟨h, by simpa using l, by simpa using i.explains⟩

/-- The operations on the cache itself: they begin by taking the lock.  (Deliveries on a completion
handle look at the handle before, see C38; the destructor takes no lock.) -/
def TakesLock {K V E : Type} : Op K V E → Prop
  | .complete _ _ | .drop _ | .destroy => False
  | _ => True

/-- The sequential behaviour of the cache. -/
def cacheSeq {K V E : Type} (cfg : Cfg K) (env : Env V) (s : St K V E) (o : {o : Op K V E // TakesLock o}) : St K V E × Out K V E :=
  Hoard.step cfg env s o.1

/-- C37: for a thread-safe cache, however its operations are cut into accesses to the table
and however the threads are scheduled, there is a sequential history of operations, each at the time the clock
showed, in which every thread gets exactly the results it got, in its own order.  Along this history the
clock does not go back if it does not go back in the schedule. -/
theorem C37_results_of_a_sequential_history {K V E : Type} (cfg : Cfg K)
    (body : Env V → {o : Op K V E // TakesLock o} → Prog (St K V E) (Out K V E))
    (hb : ∀ e o, Closed 1 (body e o)) (hs : ∀ e o s, (body e o).run s = Hoard.step cfg e s o.1)
    (s0 : St K V E) (e0 : Env V) (cs : List (Choice (Env V) {o : Op K V E // TakesLock o})) (g : G (St K V E) (Env V) {o : Op K V E // TakesLock o} (Out K V E))
    (vis : List (Vis {o : Op K V E // TakesLock o} (Out K V E)))
    (he : exec body (start s0 e0) cs = some (g, vis)) (hmono : Mono (e0 :: Threads.ticks cs)) :
    ∃ h : Seq (Env V) {o : Op K V E // TakesLock o}, Mono (h.map (fun x => x.2.1)) ∧
      (∀ t, opsOf t h <+: callsOf t vis) ∧
      (∀ t, returnsOf t vis <+:
        ((h.zip (run cfg s0 (h.map (fun x => (x.2.1, x.2.2.1)))).2).filter (fun x => x.1.1 = t)).map (fun x => x.2)) := by
  obtain ⟨h, i, _, hm⟩ := linear_exec (seq := cacheSeq cfg) hb hs Env.le (fun e => ⟨Int.le_refl _, Int.le_refl _, fun _ h => h⟩) cs (inv_start _ s0 e0) .start
    (show List.Pairwise Env.le (e0 :: Threads.ticks cs) from hmono) he
  refine ⟨h, ?_, ?_, ?_⟩
  · simp only [List.nil_append] at hm
    exact (List.pairwise_append.1 hm).1
  · intro t; simpa using (i.explains t).1
  · intro t
    have := (i.explains t).2
    simp only [List.nil_append] at this
    refine this.trans ?_
    have key : ∀ (h : Seq (Env V) {o : Op K V E // TakesLock o}) (s : St K V E), resultsOf t (results (cacheSeq cfg) s h) =
        ((h.zip (run cfg s (h.map (fun x => (x.2.1, x.2.2.1)))).2).filter (fun x => x.1.1 = t)).map (fun x => x.2) := by
      intro h
      induction h with
      | nil => intro s; rfl
      | cons x h ih =>
        intro s
        obtain ⟨u, e, o⟩ := x
        have := ih (cacheSeq cfg e s o).1
        simp only [results, List.map_cons, run, List.zip_cons_cons, resultsOf, List.filter_cons]
        by_cases hu : u = t
        · simp only [hu, decide_true, if_true, List.map_cons]
          simp only [resultsOf] at this
          rw [this]; rfl
        · simp only [hu, decide_false, Bool.false_eq_true, if_false]
          simp only [resultsOf] at this
          rw [this]; rfl
    rw [key]
    exact List.prefix_rfl

/-- An operation cut in two: first the whole table is read, then the result is written back. -/
def readThenWrite {K V E : Type} (cfg : Cfg K) (e : Env V) (o : {o : Op K V E // TakesLock o}) : Prog (St K V E) (Out K V E) :=
  .act (fun s => s) (fun s => .act (fun _ => (Hoard.step cfg e s o.1).1) (fun _ => .unlock (.ret (Hoard.step cfg e s o.1).2)))

theorem readThenWrite_closed {K V E : Type} (cfg : Cfg K) (e : Env V) (o : {o : Op K V E // TakesLock o}) : Closed 1 (readThenWrite cfg e o) :=
  .act fun _ => .act fun _ => .unlock (.ret _)

theorem readThenWrite_run {K V E : Type} (cfg : Cfg K) (e : Env V) (o : {o : Op K V E // TakesLock o}) (s : St K V E) :
    (readThenWrite cfg e o).run s = Hoard.step cfg e s o.1 := rfl

/-- Two threads want to put a value for the same key. -/
def put7 : {o : Op Nat Nat Nat // TakesLock o} := ⟨.getOrEmplace 1 7 .none, trivial⟩
def put8 : {o : Op Nat Nat Nat // TakesLock o} := ⟨.getOrEmplace 1 8 .none, trivial⟩

/-- The hypotheses of C37 can be met by operations that would go wrong without lock: here the
second thread tries in between and has to wait. -/
example : (exec (readThenWrite Demo.plain) (start St.init (Demo.at_ 0))
      [.call 0 put7, .call 1 put8, .go 0, .go 0, .go 0, .tick (Demo.at_ 5), .go 0, .go 0, .go 1, .go 1, .go 1, .go 1, .go 1]).map (·.2.length) = some 4 ∧
    (exec (readThenWrite Demo.plain) (start St.init (Demo.at_ 0)) [.call 0 put7, .call 1 put8, .go 0, .go 1]).map (·.2.length) = none ∧
    (exec (readThenWrite Demo.plain) (start St.init (Demo.at_ 0))
      [.call 0 put7, .call 1 put8, .go 0, .go 0, .go 0, .tick (Demo.at_ 5), .go 0, .go 0, .go 1, .go 1, .go 1, .go 1, .go 1]).map (fun x => returnsOf 1 x.2)
      = some [{ ret := .val 7 }] := by
  refine ⟨?_, ?_, ?_⟩ <;> rfl

/-- What two threads see when both believe to have put the value. -/
def bothPut : List (Vis {o : Op Nat Nat Nat // TakesLock o} (Out Nat Nat Nat)) :=
  [.call 0 put7, .call 1 put8, .ret 0 { ret := .val 7, made := true }, .ret 1 { ret := .val 8, made := true }]

theorem second_put (a b : Nat) (e e' : Env Nat) (x y : {o : Op Nat Nat Nat // TakesLock o})
    (hx : x.1 = .getOrEmplace 1 a .none) (hy : y.1 = .getOrEmplace 1 b .none) :
    (cacheSeq Demo.plain e' (cacheSeq Demo.plain e St.init x).1 y).2.ret = .val a := by
  have := C02_unlimited_cache_is_a_map (cfg := Demo.plain) (V := Nat) (E := Nat) (Demo.nat_ok rfl (by intro d i h; cases h)) rfl rfl rfl rfl
    [(e, .getOrEmplace 1 a), (e', .getOrEmplace 1 b)]
  have h3 : Spec.mapRun Demo.plain.eqv false (fun _ => none) ([.getOrEmplace 1 a, .getOrEmplace 1 b] : List (Spec.MapOp Nat Nat Nat)) = [.val a, .val a] := by
    simp [Spec.mapRun, Spec.mapStep, Spec.setAt, Demo.plain]
  simp only [List.map_cons, List.map_nil, run, h3, Spec.MapOp.toOp, List.cons.injEq] at this
  simp only [cacheSeq, hx, hy]
  exact this.2.1

/-- The lock is needed: with the thread-unsafe policy two threads can see what no sequential
execution explains. -/
theorem C37_lock_is_needed :
    (∃ cs, (execUnsafe (readThenWrite Demo.plain) (start St.init (Demo.at_ 0)) cs).map (·.2) = some bothPut) ∧
    ¬ ∃ h, Explains (cacheSeq Demo.plain) St.init h bothPut := by
  refine ⟨⟨[.call 0 put7, .call 1 put8, .go 0, .go 1, .go 0, .go 1, .go 0, .go 1, .go 0, .go 1], rfl⟩, ?_⟩
  rintro ⟨h, hex⟩
  have h0 := hex 0
  have h1 := hex 1
  have ho : ∀ t, t ≠ 0 → t ≠ 1 → opsOf t h = [] := by
    intro t a b
    have := (hex t).1
    have a' : ¬ 0 = t := fun h => a h.symm
    have b' : ¬ 1 = t := fun h => b h.symm
    simpa [bothPut, callsOf, a', b'] using this
  simp only [bothPut, callsOf, returnsOf, if_true, Nat.zero_ne_one, Nat.one_ne_zero, if_false] at h0 h1
  match h, h0, h1, ho with
  | [], h0, _, _ => have := h0.2.length_le; simp [results, resultsOf] at this
  | [(t, e, o)], h0, h1, _ =>
    have a := h0.2.length_le
    have b := h1.2.length_le
    simp only [results, resultsOf, List.filter_cons, List.filter_nil] at a b
    by_cases c : t = 0
    · subst c; simp at b
    · simp [c] at a
  | (t, e, o) :: (u, e', o') :: h, h0, h1, ho =>
    by_cases ht : t = 0
    · subst ht
      have a := h0.1
      simp only [opsOf, List.filter_cons, decide_true, if_true, List.map_cons] at a
      rw [List.cons_prefix_cons] at a
      obtain ⟨rfl, a⟩ := a
      by_cases hu : u = 0
      · subst hu; simp at a
      · by_cases hu1 : u = 1
        · subst hu1
          have b := h1.1
          simp only [opsOf, List.filter_cons, decide_true, if_true, Nat.zero_ne_one, decide_false, Bool.false_eq_true, if_false, List.map_cons] at b
          rw [List.cons_prefix_cons] at b
          obtain ⟨rfl, b⟩ := b
          have c := h1.2
          simp only [results, resultsOf, List.filter_cons, decide_true, if_true, Nat.zero_ne_one, decide_false, Bool.false_eq_true, if_false, List.map_cons] at c
          rw [List.cons_prefix_cons] at c
          have d := congrArg Out.ret c.1
          rw [second_put _ _ _ _ _ _ rfl rfl] at d
          cases d
        · have := ho u hu hu1
          simp [opsOf, List.filter_cons] at this
          split at this <;> simp at this
    · by_cases ht1 : t = 1
      · subst ht1
        have a := h1.1
        simp only [opsOf, List.filter_cons, decide_true, if_true, List.map_cons] at a
        rw [List.cons_prefix_cons] at a
        obtain ⟨rfl, a⟩ := a
        by_cases hu : u = 1
        · subst hu; simp at a
        · by_cases hu1 : u = 0
          · subst hu1
            have b := h0.1
            simp only [opsOf, List.filter_cons, decide_true, if_true, Nat.one_ne_zero, decide_false, Bool.false_eq_true, if_false, List.map_cons] at b
            rw [List.cons_prefix_cons] at b
            obtain ⟨rfl, b⟩ := b
            have c := h0.2
            simp only [results, resultsOf, List.filter_cons, decide_true, if_true, Nat.one_ne_zero, decide_false, Bool.false_eq_true, if_false, List.map_cons] at c
            rw [List.cons_prefix_cons] at c
            have d := congrArg Out.ret c.1
            rw [second_put _ _ _ _ _ _ rfl rfl] at d
            cases d
          · have := ho u hu1 hu
            simp [opsOf, List.filter_cons] at this
            split at this <;> simp at this
      · have := ho t ht ht1
        simp [opsOf] at this

end Hoard.Props
