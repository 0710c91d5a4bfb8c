import Verif.LifetimeLemmas
/-!
# C73, C74, C75: destroying a cache while other threads use it

Every theorem is about all schedules of any number of threads from a cache just built (`init`).
-/
namespace Hoard.Props
open Hoard.Lifetime

/-! ## Specification -/

/-- Thread `t` has a cache object, or is in the middle of a call, or of a delivery that found the table. -/
def UsesTable (s : Lifetime.St) (t : Nat) : Prop :=
  Owner.obj t ∈ s.owners ∨ (∃ i w, s.pc t = .wantCall i w ∨ s.pc t = .inCall i w) ∨
    (∃ i, s.pc t = .want i ∨ s.pc t = .inside i) ∨ s.pc t = .leaving

/-- Thread `t` reads or writes the table under its lock. -/
def InTable (s : Lifetime.St) (t : Nat) : Prop :=
  (∃ i w, s.pc t = .inCall i w) ∨ ∃ i, s.pc t = .inside i

/-- Thread `t` runs the destructor of the table. -/
def Destroys (s : Lifetime.St) (t : Nat) : Prop :=
  (∃ is, s.pc t = .dtor is) ∨ (∃ i ws is, s.pc t = .dtorEnd i ws is) ∨ s.pc t = .joining

/-- Nobody begins to use a handle while the destructor runs. -/
def NoHandleDuringDestruction (threads : List Nat) (worker : Option Nat) (s : Lifetime.St) (ts : List (Nat × Job)) : Prop :=
  ∀ before t i after mid, ts = before ++ (t, .deliver i) :: after → Lifetime.exec threads worker s before = some mid →
    (∃ u, Destroys mid u) → mid.pc t ≠ .idle

/-- In `ts` nobody begins anything new: every step is by a thread in the middle of something. -/
def Finishing (threads : List Nat) (worker : Option Nat) (s : Lifetime.St) (ts : List (Nat × Job)) : Prop :=
  ∀ before t j after mid, ts = before ++ (t, j) :: after → Lifetime.exec threads worker s before = some mid → mid.pc t ≠ .idle

/-! ## Theorems -/

private theorem uses_owners {threads s} (ha : InvA threads s) {t : Nat} (h : UsesTable s t) : s.owners ≠ [] := by
  intro h0
  rcases h with h | ⟨i, w, h | h⟩ | ⟨i, h | h⟩ | h
  · rw [h0] at h; cases h
  · have := ha.own2 t (by rw [h]; rfl); rw [h0] at this; cases this
  · have := ha.own2 t (by rw [h]; rfl); rw [h0] at this; cases this
  · have := ha.own1 t (by rw [h]; rfl); rw [h0] at this; cases this
  · have := ha.own1 t (by rw [h]; rfl); rw [h0] at this; cases this
  · have := ha.own1 t (by rw [h]; rfl); rw [h0] at this; cases this

private theorem destroys_iff {s : Lifetime.St} {t : Nat} : Destroys s t ↔ (s.pc t).destroying = true := by
  unfold Destroys
  cases s.pc t <;> simp [Pc.destroying]

/-- **C73.**  As long as some thread has a cache object or is in the middle of an operation on the
table the destructor is not begun. -/
theorem C73_alive_while_used {threads worker t₀ ts s} (h : Lifetime.exec threads worker (Lifetime.init t₀) ts = some s)
    {t : Nat} (hu : UsesTable s t) : s.deaths = 0 ∧ ∀ u, ¬ Destroys s u := by
  have hi := Inv_exec (Inv_init threads t₀) h
  have hne := uses_owners hi.a hu
  refine ⟨by rw [hi.a.de, if_neg hne], fun u hd => ?_⟩
  have := hi.a.dt u (destroys_iff.1 hd)
  rw [hi.a.ph.2 hne] at this; cases this

/-- **C73.**  The destructor is begun once at most, and by one thread; it is begun as soon as nobody owns the table. -/
theorem C73_destroyed_once {threads worker t₀ ts s} (h : Lifetime.exec threads worker (Lifetime.init t₀) ts = some s) :
    s.deaths ≤ 1 ∧ (s.deaths = 1 ↔ s.owners = []) ∧ ∀ t u, Destroys s t → Destroys s u → t = u := by
  have hi := Inv_exec (Inv_init threads t₀) h
  refine ⟨?_, ?_, fun t u ht hu => hi.a.du t u (destroys_iff.1 ht) (destroys_iff.1 hu)⟩
  · rw [hi.a.de]; split <;> omega
  · rw [hi.a.de]; split <;> simp_all

/-- **C73.**  At most one thread is in the table, and none while it is destroyed or after. -/
theorem C73_one_at_a_time {threads worker t₀ ts s} (h : Lifetime.exec threads worker (Lifetime.init t₀) ts = some s)
    {t : Nat} (ht : InTable s t) : s.deaths = 0 ∧ ∀ u, InTable s u → u = t := by
  have hi := Inv_exec (Inv_init threads t₀) h
  have hl : ∀ u, InTable s u → (s.pc u).locked = true := by
    rintro u (⟨i, w, h⟩ | ⟨i, h⟩) <;> rw [h] <;> rfl
  have hu : UsesTable s t := by
    rcases ht with ⟨i, w, h⟩ | ⟨i, h⟩
    · exact .inr (.inl ⟨i, w, .inr h⟩)
    · exact .inr (.inr (.inl ⟨i, .inr h⟩))
  refine ⟨(C73_alive_while_used h hu).1, fun u hu => ?_⟩
  have h1 := (hi.a.mx t).1 (hl t ht)
  have h2 := (hi.a.mx u).1 (hl u hu)
  rw [h1] at h2; cases h2; rfl

private theorem quiet_exec {threads worker ts s s'} (hi : Inv threads s) (hq : InvQ s)
    (hc : NoHandleDuringDestruction threads worker s ts) (h : Lifetime.exec threads worker s ts = some s') : InvQ s' := by
  induction ts generalizing s with
  | nil => cases h; exact hq
  | cons x ts ih =>
    obtain ⟨t, j⟩ := x
    simp only [Lifetime.exec] at h
    split at h
    · rename_i mid hm
      refine ih (Inv_step hi hm) (InvQ_step hi.a hi.b hq ?_ hm) ?_ h
      · intro hph i hj
        subst hj
        obtain ⟨u, hu⟩ := hi.a.dy hph
        exact hc [] t i ts s rfl rfl ⟨u, destroys_iff.2 hu⟩
      · intro before t' i after mid' hts he hd
        exact hc ((t, j) :: before) t' i after mid' (by rw [hts]; rfl) (by simp only [Lifetime.exec, hm]; exact he) hd
    · cases h

/-- **C74, partial.**  No callback is settled more often than it was passed, and once the
table is gone every callback was settled exactly as often as it was passed, whichever
thread destroyed the table.  No list of callbacks is cleared by two threads at a time.

Missing: schedules in which a handle is used while the destructor runs (`C74_race`). -/
theorem C74_settled_once_partial {threads worker t₀ ts s} (h : Lifetime.exec threads worker (Lifetime.init t₀) ts = some s)
    (hc : NoHandleDuringDestruction threads worker (Lifetime.init t₀) ts) :
    s.race = false ∧ (∀ w, s.settled.count w ≤ s.asked.count w) ∧
      (s.phase = .gone → ∀ w, s.settled.count w = s.asked.count w) := by
  have hi := Inv_exec (Inv_init threads t₀) h
  have hq := quiet_exec (Inv_init threads t₀) (InvQ_init t₀) hc h
  have hacc := hi.c.acc hq.q2
  refine ⟨hq.q2, fun w => by have := hacc w; omega, fun hg w => ?_⟩
  have := hacc w
  have h0 : waitingFor s w = 0 := by
    have hz : ∀ l : List Nat, (∀ i ∈ l, (s.looks i).waiters = []) → (l.map fun i => (s.looks i).waiters.count w).sum = 0 := by
      intro l hl
      induction l with
      | nil => rfl
      | cons k ks ih =>
        simp only [List.map_cons, List.sum_cons, hl k List.mem_cons_self, List.count_nil]
        exact Nat.zero_add _ ▸ ih fun i hi => hl i (List.mem_cons_of_mem _ hi)
    exact hz s.ids (hi.d.d4 hg)
  omega

/-- The schedule of `C74_race`: thread 0 asks and destroys its cache; the destructor begins to
clear the callbacks; thread 1 drops the handle meanwhile. -/
def raceSchedule : List (Nat × Job) :=
  [(0, .call 5 7), (0, .letGo), (0, .letGo), (0, .letGo), (0, .letGo),
   (1, .deliver 5), (1, .letGo), (1, .letGo), (0, .letGo), (0, .letGo), (0, .letGo)]

/-- **C74, negation.**  A handle used while the destructor runs: two threads clear the same list
of callbacks at the same time, and a callback is destroyed twice. -/
theorem C74_race : ∃ s, Lifetime.exec [0, 1] none (Lifetime.init 0) raceSchedule = some s ∧
    s.race = true ∧ s.asked = [7] ∧ s.settled = [7, 7] := by
  refine ⟨_, rfl, ?_⟩
  decide

/-- **C75, partial.**  The program is not ended by destroying a cache, if its refresh worker
delivers nothing itself and has no cache object.

Missing: workers that deliver (`C75_worker_joins_itself`). -/
theorem C75_not_terminated_partial {threads t₀ ts s} {w : Nat} (hw : w ≠ t₀)
    (h1 : ∀ i, (w, Job.deliver i) ∉ ts) (h2 : ∀ t, (t, Job.copy w) ∉ ts)
    (h : Lifetime.exec threads (some w) (Lifetime.init t₀) ts = some s) : s.terminated = false :=
  (InvW_exec ⟨rfl, by simp [Lifetime.init, hw], rfl⟩ h1 h2 h).w3

/-- **C75.**  Without a refresh worker destroying a cache never ends the program. -/
theorem C75_no_worker_no_termination {threads t₀ ts s} 
    (h : Lifetime.exec threads none (Lifetime.init t₀) ts = some s) : s.terminated = false := by
  have key : ∀ (ts : List (Nat × Job)) (s s' : Lifetime.St), s.terminated = false → Lifetime.exec threads none s ts = some s' → s'.terminated = false := by
    intro ts
    induction ts with
    | nil => intro s s' h0 h; cases h; exact h0
    | cons x ts ih =>
      intro s s' h0 h
      obtain ⟨t, j⟩ := x
      simp only [Lifetime.exec] at h
      split at h
      · rename_i mid hm
        refine ih mid s' ?_ h
        obtain ⟨-, -, -, hs⟩ := step_ok hm
        cases hs with
        | letGo | leave => simp only [drop]; split <;> exact h0
        | terminate _ hw => cases hw
        | _ => exact h0
      · cases h
  exact key ts _ s rfl h

/-- The schedule of `C75_worker_joins_itself`: the worker (thread 1) delivers; while it does
thread 0 destroys the last cache object. -/
def selfJoin : List (Nat × Job) :=
  [(0, .call 5 7), (0, .letGo), (0, .letGo), (1, .deliver 5), (0, .letGo)] ++ List.replicate 7 (1, .letGo)

/-- **C75, negation.**  A worker that delivers during a refresh while the last cache object is destroyed
destroys the table itself, and joins itself. -/
theorem C75_worker_joins_itself :
    ∃ s, Lifetime.exec [0, 1] (some 1) (Lifetime.init 0) selfJoin = some s ∧ s.terminated = true := by
  refine ⟨_, rfl, ?_⟩
  decide

/-- **C75.**  No deadlock: whenever a thread is in the middle of something and the program was
not ended, some thread that is in the middle of something can go on, also while
the destructor waits for the worker. -/
theorem C75_no_deadlock {threads worker t₀ ts s} (h : Lifetime.exec threads worker (Lifetime.init t₀) ts = some s)
    (ht : s.terminated = false) {t : Nat} (hp : s.pc t ≠ .idle) :
    ∃ u, s.pc u ≠ .idle ∧ ∀ j, (Lifetime.step threads worker s u j).isSome = true :=
  someone_steps (Inv_exec (Inv_init threads t₀) h).a ht hp

private theorem finishing_le {threads worker} (hn : threads.Nodup) : ∀ (ts : List (Nat × Job)) (s s' : Lifetime.St), InvA threads s →
    Lifetime.exec threads worker s ts = some s' → Finishing threads worker s ts → ts.length ≤ cost threads s
  | [], _, _, _, _, _ => Nat.zero_le _
  | (t, j) :: ts, s, s', ha, h, hf => by
    simp only [Lifetime.exec] at h
    split at h
    · rename_i mid hm
      have h1 := cost_step hn ha (hf [] t j ts s rfl rfl) hm
      have h2 := finishing_le hn ts mid s' (InvA_step ha hm) h (fun before t' j' after mid' hts he =>
        hf ((t, j) :: before) t' j' after mid' (by rw [hts]; rfl) (by simp only [Lifetime.exec, hm]; exact he))
      simp only [List.length_cons]; omega
    · cases h

/-- **C75.**  Everything that was begun is finished: if nobody begins anything new, the threads take a
bounded number of steps, in whatever order, so with `C75_no_deadlock` all of them become idle. -/
theorem C75_finishes {threads worker t₀ ts s} (hn : threads.Nodup)
    (h : Lifetime.exec threads worker (Lifetime.init t₀) ts = some s) :
    ∃ n, ∀ ts' s', Lifetime.exec threads worker s ts' = some s' → Finishing threads worker s ts' → ts'.length ≤ n :=
  ⟨cost threads s, fun ts' s' h' hf => finishing_le hn ts' s s' (Inv_exec (Inv_init threads t₀) h).a h' hf⟩

/-- **C75.**  Destruction is completed: once nobody owns the table, and the program is not ended, the threads that are in the middle
of something can be run until all are idle, and then the table is gone. -/
theorem C75_destruction_completes {threads worker t₀ ts s} (hn : threads.Nodup)
    (h : Lifetime.exec threads worker (Lifetime.init t₀) ts = some s) (ho : s.owners = []) :
    ∃ ts' s', Lifetime.exec threads worker s ts' = some s' ∧
      (s'.terminated = true ∨ (∀ t, s'.pc t = .idle) ∧ s'.phase = .gone) := by
  have key : ∀ (n : Nat) (s : Lifetime.St), Inv threads s → s.owners = [] → cost threads s ≤ n →
      ∃ ts' s', Lifetime.exec threads worker s ts' = some s' ∧ (s'.terminated = true ∨ (∀ t, s'.pc t = .idle) ∧ s'.phase = .gone) := by
    intro n
    induction n using Nat.strongRecOn with
    | ind n ih =>
      intro s hi ho hc
      cases ht : s.terminated with
      | true => exact ⟨[], s, rfl, .inl ht⟩
      | false =>
        by_cases hid : ∀ t, s.pc t = .idle
        · refine ⟨[], s, rfl, .inr ⟨hid, ?_⟩⟩
          cases hph : s.phase with
          | alive => exact absurd ho (hi.a.ph.1 hph)
          | dying => obtain ⟨t, h⟩ := hi.a.dy hph; rw [hid t] at h; cases h
          | gone => rfl
        · obtain ⟨t, hp⟩ := Classical.not_forall.1 hid
          obtain ⟨u, hu, hst⟩ := someone_steps (worker := worker) hi.a ht hp
          obtain ⟨mid, hm⟩ := Option.isSome_iff_exists.1 (hst .letGo)
          have hlt := cost_step hn hi.a hu hm
          have ho' : mid.owners = [] := by
            obtain ⟨-, -, -, hs⟩ := step_ok hm
            have n1 : ∀ o, o ∉ s.owners := by rw [ho]; intro o h; cases h
            cases hs with
            | letGo hp _ => exact absurd hp hu
            | leave hp => exact absurd (hi.a.own1 u (by rw [hp]; rfl)) (n1 _)
            | _ => exact ho
          obtain ⟨ts', s', he, hr⟩ := ih (cost threads mid) (by omega) mid (Inv_step hi hm) ho' (Nat.le_refl _)
          exact ⟨(u, .letGo) :: ts', s', by simp only [Lifetime.exec, hm]; exact he, hr⟩
  exact key _ s (Inv_exec (Inv_init threads t₀) h) ho (Nat.le_refl _)

/-! ## Examples -/

/-- Two threads share the cache: thread 0 asks, thread 1 joins the lookup, thread 2 delivers; both objects go during the
delivery, so that thread 2 destroys the table. -/
def shared : List (Nat × Job) :=
  [(0, .copy 1), (0, .call 5 7), (0, .letGo), (0, .letGo), (1, .call 5 8), (1, .letGo), (1, .letGo),
   (0, .call 6 9), (0, .letGo), (0, .letGo), (2, .deliver 5), (2, .letGo), (0, .letGo), (1, .letGo)]

/-- In the middle of `shared` the delivery of thread 2 still has the table, although no cache object is left. -/
example : ∃ s, Lifetime.exec [0, 1, 2] none (Lifetime.init 0) shared = some s ∧
    UsesTable s 2 ∧ InTable s 2 ∧ s.owners = [.temp 2] ∧ s.deaths = 0 :=
  ⟨_, rfl, .inr (.inr (.inl ⟨5, .inr rfl⟩)), .inr ⟨5, rfl⟩, rfl, rfl⟩

/-- Then thread 2 destroys it; the callbacks of the lookup in flight are destroyed, the others were answered. The remaining handle is used later. -/
example : ∃ s, Lifetime.exec [0, 1, 2] none (Lifetime.init 0) (shared ++ List.replicate 8 (2, .letGo) ++
      [(1, .deliver 6), (1, .letGo), (1, .letGo)]) = some s ∧
    s.deaths = 1 ∧ s.phase = .gone ∧ s.settled = [7, 8, 9] ∧ s.asked = [7, 8, 9] ∧ s.race = false :=
  ⟨_, rfl, by decide⟩

private def calmB (threads : List Nat) (worker : Option Nat) : Lifetime.St → List (Nat × Job) → Bool
  | _, [] => true
  | s, (t, j) :: ts =>
    (match j with
     | .deliver _ => decide (s.phase ≠ .dying ∨ s.pc t ≠ .idle)
     | _ => true) &&
    match Lifetime.step threads worker s t j with
    | some m => calmB threads worker m ts
    | none => true

private theorem calm_of {threads worker} : ∀ (ts : List (Nat × Job)) (s : Lifetime.St), Inv threads s →
    calmB threads worker s ts = true → NoHandleDuringDestruction threads worker s ts
  | [], _, _, _ => fun before _ _ _ _ h _ _ => by cases before <;> cases h
  | (t, j) :: ts, s, hi, h => by
    simp only [calmB, Bool.and_eq_true] at h
    intro before t' i after mid hts he hd
    cases before with
    | nil =>
      cases hts; cases he
      obtain ⟨u, hu⟩ := hd
      have := hi.a.dt u (destroys_iff.1 hu)
      simpa [this] using h.1
    | cons x before =>
      cases hts
      simp only [Lifetime.exec] at he
      split at he
      · rename_i m hm
        rw [hm] at h
        exact calm_of _ m (Inv_step hi hm) h.2 before t' i after mid rfl he hd
      · cases he

/-- That schedule uses no handle during the destruction, so it meets the hypothesis of `C74_settled_once_partial`. -/
example : NoHandleDuringDestruction [0, 1, 2] none (Lifetime.init 0) (shared ++ List.replicate 8 (2, .letGo) ++
      [(1, .deliver 6), (1, .letGo), (1, .letGo)]) :=
  calm_of _ _ (Inv_init _ _) (by decide +kernel)

/-- The schedule of `C74_race` does not. -/
example : ¬ NoHandleDuringDestruction [0, 1] none (Lifetime.init 0) raceSchedule := fun h =>
  h [(0, .call 5 7), (0, .letGo), (0, .letGo), (0, .letGo), (0, .letGo)] 1 5 _ _ rfl rfl ⟨0, .inr (.inl ⟨5, [7], [], rfl⟩)⟩ rfl

/-- A worker that delivers nothing: another thread destroys the table and joins it. -/
example : ∃ s, Lifetime.exec [0, 1, 2] (some 1) (Lifetime.init 0)
      ([(0, .call 5 7), (0, .letGo), (0, .letGo), (2, .deliver 5), (0, .letGo)] ++ List.replicate 7 (2, .letGo)) = some s ∧
    s.phase = .gone ∧ s.terminated = false :=
  ⟨_, rfl, by decide⟩

private def finB (threads : List Nat) (worker : Option Nat) : Lifetime.St → List (Nat × Job) → Bool
  | _, [] => true
  | s, (t, j) :: ts =>
    decide (s.pc t ≠ .idle) &&
    match Lifetime.step threads worker s t j with
    | some m => finB threads worker m ts
    | none => true

private theorem finishing_of {threads worker} : ∀ (ts : List (Nat × Job)) (s : Lifetime.St),
    finB threads worker s ts = true → Finishing threads worker s ts
  | [], _, _ => fun before _ _ _ _ h _ => by cases before <;> cases h
  | (t, j) :: ts, s, h => by
    simp only [finB, Bool.and_eq_true] at h
    intro before t' j' after mid hts he
    cases before with
    | nil => cases hts; cases he; simpa using h.1
    | cons x before =>
      cases hts
      simp only [Lifetime.exec] at he
      split at he
      · rename_i m hm
        rw [hm] at h
        exact finishing_of _ m h.2 before t' j' after mid rfl he
      · cases he

/-- At the end of `shared` nobody begins anything new; thread 2 takes eight steps to become idle. -/
example : ∃ s s', Lifetime.exec [0, 1, 2] none (Lifetime.init 0) shared = some s ∧
    Lifetime.exec [0, 1, 2] none s (List.replicate 8 (2, .letGo)) = some s' ∧
    Finishing [0, 1, 2] none s (List.replicate 8 (2, .letGo)) ∧ ∀ t ∈ [0, 1, 2], s'.pc t = .idle := by
  exact ⟨_, _, rfl, rfl, finishing_of _ _ (by decide +kernel), by decide +kernel⟩

end Hoard.Props
