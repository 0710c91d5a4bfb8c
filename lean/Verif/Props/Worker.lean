import Verif.CalmLemmas
import Verif.Demo
/-! # The refresh worker as a thread: C53, C54, C55, C56 -/
namespace Hoard.Props
open Hoard Spec Demo Worker
variable {K V E : Type} {cfg : Cfg K}

/-! ## C53 -/

/-- C53, waking up.  Whatever the other threads did so far: if the worker waits while some value is due, then its wait ends by
itself (it was notified, or its time has come), and it goes on to look at the values that are due now. -/
theorem C53_worker_wakes_for_due_value (hc : cfg.Ok) (d I : Int) (hr : cfg.refresh = some (d, I)) (hk : cfg.resolver ≠ .none) (as : List (Env V × Act K V E))
    (g : G K V E) (hl : Leads cfg as g) (env : Env V) (hm : Mono (as.map (·.1) ++ [env])) (hw : g.pc.waits = true) (k : K)
    (hd : Due cfg d g.log env env.now k) :
    ∃ a g', (a = .wake ∧ g.notified = true ∨ a = .timeout) ∧ next cfg env g a = .ok g' {} ∧ g'.pc = .loop env.now ∧ g'.log = g.log := by
  have h := leads_inv hc hr hk hl hm
  have gd := h.good hc
  obtain ⟨e, he, heq, u, hu, hun⟩ := due_queued hc hr h hd
  have hstop : g.stop = false := by
    cases hs : g.stop
    · rfl
    · rw [destroyed_queue gd.wf1 gd.wf2 (h.stop hs)] at heq; cases heq
  cases hp : g.pc with
  | untimed =>
    rcases h.untimed hp with hh | hh
    · rw [hh] at heq; cases heq
    · refine ⟨.wake, { g with pc := .loop env.now }, .inl ⟨rfl, hh⟩, ?_, rfl, rfl⟩
      have hne : g.s.delayQ.isEmpty = false := by
        cases hq : g.s.delayQ with
        | nil => rw [hq] at heq; cases heq
        | cons _ _ => rfl
      simp [next, wakeUp, hp, hstop, hne]
  | timed i tp =>
    obtain ⟨_, _, t, rfl, _, ht⟩ := h.timed i tp hp
    have := ht e he heq u hu
    refine ⟨.timeout, { g with pc := .loop env.now }, .inr rfl, ?_, rfl, rfl⟩
    simp [next, timeOut, hp, hstop, reached, show t ≤ env.now by omega]
  | start => rw [hp] at hw; cases hw
  | loop n => rw [hp] at hw; cases hw
  | done => rw [hp] at hw; cases hw

/-- C53, going back to sleep.  When the worker, having woken up at `now`, goes back to wait, no value is left that was due
at `now`: each was refreshed, or is no longer there. -/
theorem C53_worker_leaves_no_due_value (hc : cfg.Ok) (d I : Int) (hr : cfg.refresh = some (d, I)) (hk : cfg.resolver ≠ .none) (as : List (Env V × Act K V E))
    (g : G K V E) (hl : Leads cfg as g) (env : Env V) (hm : Mono (as.map (·.1) ++ [env])) (now : Int) (hp : g.pc = .loop now) (r : Res V E) (b : Beh V E)
    (g' : G K V E) (out : Out K V E) (hn : next cfg env g (.work r b) = .ok g' out) (hw : g'.pc.waits = true) (k : K) :
    ¬ Due cfg d g'.log env now k := by
  have h := leads_inv hc hr hk hl hm
  rcases work_cases hc hr hk h hp r b with ⟨g1, e1, l1, s1, _, _, h1⟩ | ⟨g1, e1, _, _, h2, _⟩
  · rw [e1] at hn
    obtain ⟨rfl, rfl⟩ := Outcome.ok.inj hn
    rw [l1]
    intro hd
    obtain ⟨e, he, heq, u, hu, hun⟩ := due_queued hc hr h hd
    have := h1 e he heq u hu
    omega
  · rw [e1] at hn
    obtain ⟨rfl, rfl⟩ := Outcome.ok.inj hn
    rw [h2] at hw; cases hw

/-- Refresh every 10, synchronous resolver. -/
def every10 : Cfg Nat := { plain with resolver := .sync, refresh := some (10, 0) }

/-- The worker waits without limit, a value is stored at 0 (which notifies it), it wakes up, and waits until 10. -/
def untilTen : List (Env Nat × Act Nat Nat Nat) :=
  [(at_ 0, .begin), (at_ 0, .call (.emplace 1 5 .none)), (at_ 0, .wake), (at_ 0, .work (.ok 0) .later)]

/-- The schedule is possible and leads to the wait for time 10. -/
example : every10.Ok ∧ (∃ g, Leads every10 untilTen g ∧ g.pc = .timed 0 (some 10) ∧ g.log = [(at_ 0, .emplace 1 5 .none)]) ∧ Mono (untilTen.map (·.1) ++ [at_ 12]) := by
  refine ⟨nat_ok rfl (by intro d i h; cases h; decide), ⟨_, ⟨?_, rfl⟩, rfl, rfl⟩, mono_at [0, 0, 0, 0, 12] (by decide)⟩
  refine ⟨trivial, fun g1 o1 h1 => ?_⟩
  obtain ⟨rfl, rfl⟩ := Outcome.ok.inj h1
  refine ⟨⟨rfl, by simp, by simp⟩, fun g2 o2 h2 => ?_⟩
  obtain ⟨rfl, rfl⟩ := Outcome.ok.inj h2
  refine ⟨trivial, fun g3 o3 h3 => ?_⟩
  obtain ⟨rfl, rfl⟩ := Outcome.ok.inj h3
  exact ⟨trivial, fun _ _ _ => trivial⟩

/-- At 12 the value is due. -/
example : Due every10 10 ([(at_ 0, .emplace 1 5 .none)] : Hist Nat Nat Nat) (at_ 12) 12 1 :=
  ⟨⟨5, by decide⟩, by decide, by decide⟩

/-! ## C54 -/

/-- C54, for a delay that is not zero.  Once the worker has woken up, it gives the lock back after a number of refreshes that
is fixed when it starts, whatever the resolver does and however long it takes. -/
theorem C54_worker_gives_lock_back_partial (hc : cfg.Ok) (d I : Int) (hr : cfg.refresh = some (d, I)) (hpos : 0 < d) (hk : cfg.resolver ≠ .none)
    (as : List (Env V × Act K V E)) (g : G K V E) (hl : Leads cfg as g) (env : Env V) (hm : Mono (as.map (·.1) ++ [env])) :
    ∃ n, ∀ ws : List (Env V × Res V E × Beh V E), n ≤ ws.length → Mono (env :: ws.map (·.1)) →
      ∃ pre post g', ws = pre ++ post ∧ exec cfg g (works pre) = .ok g' {} ∧ g'.pc.locked = false := by
  have h := leads_inv hc hr hk hl hm
  clear hl hm as
  cases hp : g.pc with
  | loop now =>
    refine ⟨dueIn now g.s + 1, fun ws => ?_⟩
    induction ws generalizing g env with
    | nil => intro hn; simp at hn
    | cons w ws ih =>
      obtain ⟨e1, r, b⟩ := w
      intro hn hm
      rw [List.map_cons] at hm
      have hm' := List.pairwise_cons.1 hm
      have h1 := h.later (hm'.1 e1 (by simp))
      rcases work_cases hc hr hk h1 hp r b with ⟨g1, x1, l1, s1, p1, _⟩ | ⟨g1, x1, l1, s1, p1, ho, hdec⟩
      · refine ⟨[(e1, r, b)], ws, g1, rfl, ?_, ?_⟩
        · simp only [works, List.map_cons, List.map_nil, exec, x1]
        · rcases p1 with p1 | p1
          · rw [p1]; rfl
          · cases hg : g1.pc <;> rw [hg] at p1 <;> first | rfl | cases p1
      · have := hdec hpos
        have hi := next_inv hc hr hk h1 (.work r b) trivial x1
        obtain ⟨pre, post, g', q1, q2, q3⟩ := ih g1 e1 hi p1 (by simp at hn; omega) hm'.2
        refine ⟨(e1, r, b) :: pre, post, g', by rw [q1]; rfl, ?_, q3⟩
        simp only [works, List.map_cons, exec, x1]
        exact q2
  | _ => exact ⟨0, fun ws _ _ => ⟨[], ws, g, rfl, rfl, by rw [hp]; rfl⟩⟩

/-- Until then every step is defined: the worker never meets a dangling pointer in its loop. -/
theorem C54_worker_steps_are_defined (hc : cfg.Ok) (d I : Int) (hr : cfg.refresh = some (d, I)) (hk : cfg.resolver ≠ .none)
    (as : List (Env V × Act K V E)) (g : G K V E) (hl : Leads cfg as g) (env : Env V) (hm : Mono (as.map (·.1) ++ [env])) (hp : g.pc.locked = true)
    (r : Res V E) (b : Beh V E) : ∃ g' out, next cfg env g (.work r b) = .ok g' out := by
  have h := leads_inv hc hr hk hl hm
  cases hp' : g.pc with
  | loop now =>
    rcases work_cases hc hr hk h hp' r b with ⟨g1, x1, _⟩ | ⟨g1, x1, _⟩
    · exact ⟨g1, _, x1⟩
    · exact ⟨g1, _, x1⟩
  | _ => rw [hp'] at hp; cases hp

theorem getIfExists_tbl {env : Env V} {s s' : St K V E} (h : s'.tbl = s.tbl) (k : K) : getIfExists cfg env s' k = getIfExists cfg env s k := by
  simp only [getIfExists, St.bucket, St.bucketFor, h]

/-- C54 is false for a delay of zero: a synchronous resolver that always succeeds keeps the worker busy, and the lock taken,
for ever, even if no time passes at all. -/
theorem C54_zero_delay_keeps_lock (hc : cfg.Ok) (hr : cfg.refresh = some (0, 0)) (hk : cfg.resolver = .sync) (hs : cfg.maxSize = none) (hA : cfg.maxAge = none)
    (as : List (Env V × Act K V E)) (g : G K V E) (hl : Leads cfg as g) (env : Env V) (hm : Mono (as.map (·.1) ++ [env])) (hp : g.pc = .loop env.now) (k : K)
    (hd : Due cfg 0 g.log env env.now k) (vs : List V) (b : Beh V E) :
    ∃ g', exec cfg g (works (vs.map (fun v => (env, .ok v, b)))) = .ok g' {} ∧ g'.pc = .loop env.now ∧
      ∀ o : Op K V E, next cfg env g' (.call o) = .blocked := by
  have hk0 : cfg.resolver ≠ .none := by rw [hk]; simp
  have h := leads_inv hc hr hk0 hl hm
  clear hl hm as
  induction vs generalizing g k with
  | nil => exact ⟨g, rfl, hp, fun o => by simp [next, Worker.call, hp, Pc.locked]⟩
  | cons v vs ih =>
    rcases work_cases hc hr hk0 h hp (.ok v) b with ⟨g1, _, _, _, _, _, h1⟩ | ⟨g1, x1, l1, s1, p1, ho, _⟩
    · obtain ⟨e, he, heq, u, hu, hun⟩ := due_queued hc hr h hd
      have := h1 e he heq u hu
      omega
    · have hi := next_inv hc hr hk0 h (.work (.ok v) b) trivial x1
      obtain ⟨k', hd'⟩ : ∃ k', Due cfg 0 g1.log env env.now k' := by
        obtain ⟨o1, o2, o3⟩ := h.op _ ho
        have gd := h.good hc
        have hout : outAt cfg g.log env (.tick (.ok v) b) = (tick cfg env g.s (.ok v) b).2 := by unfold outAt; rw [← h.st]; rfl
        rcases (tick_ok hc gd ho.2.2 (.ok v) b).2 with q | ⟨a, q, _⟩
        · -- the first entry was not refreshed: nothing has changed
          refine ⟨k, ?_⟩
          rw [l1]
          unfold Due at hd ⊢
          have hL : ledgerAfter cfg (g.log ++ [(env, .tick (.ok v) b)]) = ledgerAfter cfg g.log := by
            rw [ledgerAfter_snoc, hout, q]; rfl
          rw [hL]
          refine ⟨?_, hd.2⟩
          obtain ⟨⟨w, hw⟩, _⟩ := hd
          refine ⟨w, ?_⟩
          unfold outAt at hw ⊢
          rw [← o1, ← h.st] at *
          have hent : (step cfg env g.s (.tick (.ok v) b)).1.tbl = g.s.tbl := by
            simp only [step]
            unfold tick at q ⊢
            cases hq : g.s.delayQ with
            | nil => rfl
            | cons i qs =>
              rw [hq] at q
              simp only at q ⊢
              cases hf : g.s.find i with
              | none => rfl
              | some e =>
                rw [hf] at q
                simp only at q ⊢
                split
                · rename_i hre
                  rw [if_pos hre] at q
                  unfold refresh at q ⊢
                  split
                  · rfl
                  · rename_i hh
                    rw [if_neg hh] at q
                    exfalso
                    simp only at q
                    repeat' split at q
                    all_goals (have := congrArg Out.calls q; simp at this)
                · rfl
          simp only [step] at hw ⊢
          rw [getIfExists_tbl (show (tick cfg env g.s (.ok v) b).1.tbl = g.s.tbl from hent) k]
          exact hw
        · refine ⟨a, ?_⟩
          rw [l1]
          have hwr : WritesAt cfg a v g.log env (.tick (.ok v) b) := by
            refine ⟨?_, ?_⟩
            · exact ⟨(a, g.s.nextId), by rw [hout, q]; rfl, hc.refl _⟩
            · simp [hk]
          have hno : ∀ (h : Hist K V E) (s : St K V E), NoEvictH cfg s h := by
            intro h
            induction h with
            | nil => exact fun s N hN => by rw [hs] at hN; cases hN
            | cons p h ih => exact fun s => ⟨fun N hN => (by rw [hs] at hN; cases hN), ih _⟩
          have hnd : (stateAfter cfg (g.log ++ [(env, .tick (.ok v) b)])).destroyed = false := by
            rw [← o1]
            have := (hi.good hc)
            rw [s1] at this
            cases hh : (step cfg env g.s (.tick (.ok v) b)).1.destroyed
            · rfl
            · exfalso
              have h3 := ho.2.2
              rw [step_destroyed cfg env g.s _ (by simp)] at hh
              rw [h3] at hh; cases hh
          have hst := kept_value hc g.log [] env (.tick (.ok v) b) o2 (hno _ _) a v hwr (Kept.nil _ _) env o3 (.inl hs) (by rw [hA]; simp)
            (by simp [Ledger.idleLimit, hr, reached]) (.getIfExists a) hnd rfl
          have hL : ledgerAfter cfg (g.log ++ [(env, .tick (.ok v) b)]) = (ledgerAfter cfg g.log).put cfg.eqv env.now true a (some v) := by
            rw [ledgerAfter_snoc, hout, q]; simp [Ledger.after, hk, value?]
          refine ⟨⟨v, ?_⟩, ?_, ?_⟩
          · have := hst.1
            generalize outAt cfg (g.log ++ [(env, .tick (.ok v) b)]) env (.getIfExists a) = x at this
            obtain ⟨rt, _, _, _, _⟩ := x
            cases rt <;> simp [answered] at this
            rw [this]
          · rw [hL]; simp [Ledger.put, hc.refl]
          · rw [hL]; simp [Ledger.put, hc.refl]
      obtain ⟨g', e', p', b'⟩ := ih g1 p1 k' hd' hi
      refine ⟨g', ?_, p', b'⟩
      simp only [works, List.map_cons, exec, x1]
      exact e'

/-- Refresh at once. -/
def noDelay : Cfg Nat := { plain with resolver := .sync, refresh := some (0, 0) }

/-- A value is stored, and the worker wakes up at the same moment: the value is due. -/
example : noDelay.Ok ∧ (∃ g, Leads noDelay (untilTen.take 3) g ∧ g.pc = .loop 0 ∧ g.log = [(at_ 0, .emplace 1 5 .none)] ∧ Due noDelay 0 g.log (at_ 0) 0 1) := by
  refine ⟨nat_ok rfl (by intro d i h; cases h; decide), ⟨_, ⟨?_, rfl⟩, rfl, rfl, ⟨5, by decide⟩, by decide, by decide⟩⟩
  refine ⟨trivial, fun g1 o1 h1 => ?_⟩
  obtain ⟨rfl, rfl⟩ := Outcome.ok.inj h1
  refine ⟨⟨rfl, by simp, by simp⟩, fun g2 o2 h2 => ?_⟩
  obtain ⟨rfl, rfl⟩ := Outcome.ok.inj h2
  exact ⟨trivial, fun _ _ _ => trivial⟩

/-! ## C55 -/

/-- C55, for caches from which nothing is removed: no limit on age, idleness or number, and the other threads look up, insert what is
missing (`get`, `get_or_emplace`), complete and abandon lookups, but do not erase, clear, overwrite or destroy.  Then no step of any thread
reads freed memory or races: the entry whose due time the worker's wait refers to is there for as long as the wait lasts. -/
theorem C55_worker_reads_live_memory_partial (hc : cfg.Ok) (d : Int) (hr : cfg.refresh = some (d, 0)) (hA : cfg.maxAge = none) (hs : cfg.maxSize = none)
    (hk : cfg.resolver ≠ .none) (as : List (Env V × Act K V E)) (g : G K V E) (hl : Leads cfg as g) (hka : ∀ p ∈ as, OnlyAddsAct p.2) (env : Env V)
    (hm : Mono (as.map (·.1) ++ [env])) (a : Act K V E) (ha : OnlyAddsAct a) : next cfg env g a ≠ .ub := by
  have h := leads_inv hc hr hk hl hm
  have hi := leads_cinv hc ⟨hA, hs, hr⟩ hk hl hka hm
  cases a with
  | call o => simp only [next, Worker.call]; split <;> simp
  | begin =>
    simp only [next]; split
    · obtain ⟨g1, e1, _⟩ := enterWait_ok hc hr h
      rw [e1]; simp
    · simp
  | wake =>
    simp only [next, wakeUp]
    split
    · repeat' split
      all_goals simp
    · rename_i i tp hp
      obtain ⟨e, _, _, hf⟩ := queued_linked (h.good hc).wf1 (hi.tmd i tp hp)
      split
      · simp
      · rw [hf]; simp
    · simp
  | timeout =>
    simp only [next, timeOut]
    repeat' split
    all_goals simp
  | work r b =>
    cases hp : g.pc with
    | loop now =>
      rcases work_cases hc hr hk h hp r b with ⟨g1, x1, _⟩ | ⟨g1, x1, _⟩ <;> (rw [x1]; simp)
    | _ => simp [next, work, hp]
  | dtorClear => exact ha.elim
  | dtorStop => simp only [next]; split <;> simp

/-- The configuration and a schedule as required, in which a value is looked up while the worker waits for it. -/
example : every10.maxAge = none ∧ every10.maxSize = none ∧
    ∃ g, Leads every10 [(at_ 0, .begin), (at_ 0, .call (.get 1 (.ok 5) : Op Nat Nat Nat)), (at_ 0, .wake), (at_ 0, .work (.ok 0) .later), (at_ 3, .call (.get 1 (.ok 6)))] g ∧
      g.pc = .timed 0 (some 10) := by
  refine ⟨rfl, rfl, _, ⟨?_, rfl⟩, rfl⟩
  refine ⟨trivial, fun g1 o1 h1 => ?_⟩
  obtain ⟨rfl, rfl⟩ := Outcome.ok.inj h1
  refine ⟨⟨⟨by decide, rfl⟩, by simp, by simp⟩, fun g2 o2 h2 => ?_⟩
  obtain ⟨rfl, rfl⟩ := Outcome.ok.inj h2
  refine ⟨trivial, fun g3 o3 h3 => ?_⟩
  obtain ⟨rfl, rfl⟩ := Outcome.ok.inj h3
  refine ⟨trivial, fun g4 o4 h4 => ?_⟩
  obtain ⟨rfl, rfl⟩ := Outcome.ok.inj h4
  exact ⟨⟨⟨by decide, rfl⟩, by simp, by simp⟩, fun _ _ _ => trivial⟩

/-- C55 is false of the code.  While the worker waits until the value of key 1 is due, key 1 is erased and key 2 stored.  The second notifies
the worker: it wakes up, finds that it is neither stopped nor late, and waits again, for which it reads the due time of the erased entry. -/
theorem C55_erase_under_waiting_worker : ∃ g, Leads every10 (untilTen ++ [(at_ 1, .call (.erase 1)), (at_ 2, .call (.emplace 2 7 .none))]) g ∧
    g.notified = true ∧ next every10 (at_ 2) g .wake = .ub := by
  refine ⟨_, ⟨?_, rfl⟩, rfl, rfl⟩
  refine ⟨trivial, fun g1 o1 h1 => ?_⟩
  obtain ⟨rfl, rfl⟩ := Outcome.ok.inj h1
  refine ⟨⟨rfl, by simp, by simp⟩, fun g2 o2 h2 => ?_⟩
  obtain ⟨rfl, rfl⟩ := Outcome.ok.inj h2
  refine ⟨trivial, fun g3 o3 h3 => ?_⟩
  obtain ⟨rfl, rfl⟩ := Outcome.ok.inj h3
  refine ⟨trivial, fun g4 o4 h4 => ?_⟩
  obtain ⟨rfl, rfl⟩ := Outcome.ok.inj h4
  refine ⟨⟨rfl, by simp, by simp⟩, fun g5 o5 h5 => ?_⟩
  obtain ⟨rfl, rfl⟩ := Outcome.ok.inj h5
  exact ⟨⟨rfl, by simp, by simp⟩, fun _ _ _ => trivial⟩

/-! ## C56 -/

/-- No step takes back the request to stop. -/
theorem next_keeps_stop {g g' : G K V E} {env : Env V} {a : Act K V E} {o : Out K V E} (h : next cfg env g a = .ok g' o) (hs : g.stop = true) :
    g'.stop = true := by
  cases a <;> simp only [next, call, enterWait, wakeUp, timeOut, work] at h <;> grind

theorem exec_keeps_stop {as : List (Env V × Act K V E)} : ∀ {g g' : G K V E} {o : Out K V E}, exec cfg g as = .ok g' o → g.stop = true → g'.stop = true := by
  induction as with
  | nil => intro g g' o h hs; simp only [exec] at h; cases h; exact hs
  | cons x as ih =>
    intro g g' o h hs
    obtain ⟨env, a⟩ := x
    simp only [exec] at h
    cases hn : next cfg env g a with
    | ok g1 o1 => rw [hn] at h; exact ih h (next_keeps_stop hn hs)
    | blocked => rw [hn] at h; cases h
    | ub => rw [hn] at h; cases h

/-- After the destructor's step `stop` is set. -/
theorem exec_stop {as : List (Env V × Act K V E)} : ∀ {g g' : G K V E} {o : Out K V E}, exec cfg g as = .ok g' o → .dtorStop ∈ as.map (·.2) → g'.stop = true := by
  induction as with
  | nil => intro g g' o _ hs; simp at hs
  | cons x as ih =>
    intro g g' o h hs
    obtain ⟨env, a⟩ := x
    simp only [exec] at h
    cases hn : next cfg env g a with
    | ok g1 o1 =>
      rw [hn] at h
      simp only [List.map_cons, List.mem_cons] at hs
      rcases hs with hs | hs
      · subst hs
        refine exec_keeps_stop h ?_
        simp only [next] at hn
        split at hn
        · cases hn
        · cases hn; rfl
      · exact ih h hs
    | blocked => rw [hn] at h; cases h
    | ub => rw [hn] at h; cases h

/-- C56, what holds: once the destructor has asked the worker to stop, the worker can make a step of its own (it waits for nobody), and
the first step it makes is its last.  So the join in the destructor returns.  Missing: the time between the clearing of the
table and the setting of the flag. -/
theorem C56_stopped_worker_ends_partial (hc : cfg.Ok) (d I : Int) (hr : cfg.refresh = some (d, I)) (hk : cfg.resolver ≠ .none) (as : List (Env V × Act K V E))
    (g : G K V E) (hl : Leads cfg as g) (env : Env V) (hm : Mono (as.map (·.1) ++ [env])) (hs : .dtorStop ∈ as.map (·.2)) (hp : g.pc ≠ .done)
    (r : Res V E) (b : Beh V E) :
    (∃ a, (a = .wake ∧ g.notified = true ∨ a = .begin ∨ a = .work r b) ∧ ∃ g', next cfg env g a = .ok g' {} ∧ g'.pc = .done) ∧
    ∀ a, (a = .begin ∨ a = .wake ∨ a = .timeout ∨ ∃ r b, a = .work r b) → next cfg env g a = .blocked ∨ ∃ g', next cfg env g a = .ok g' {} ∧ g'.pc = .done := by
  have hs := exec_stop hl.2 hs
  have h := leads_inv hc hr hk hl hm
  have gd := h.good hc
  have hq := destroyed_queue gd.wf1 gd.wf2 (h.stop hs)
  cases hg : g.pc with
  | start =>
    refine ⟨⟨.begin, .inr (.inl rfl), { g with pc := .done }, by simp [next, enterWait, hg, hq, hs], rfl⟩, ?_⟩
    rintro a (rfl | rfl | rfl | ⟨r, b, rfl⟩)
    · exact .inr ⟨{ g with pc := .done }, by simp [next, enterWait, hg, hq, hs], rfl⟩
    all_goals (left; simp [next, wakeUp, timeOut, work, hg])
  | untimed =>
    refine ⟨⟨.wake, .inl ⟨rfl, h.stopn hs (by rw [hg]; rfl)⟩, { g with pc := .done }, by simp [next, wakeUp, hg, hs], rfl⟩, ?_⟩
    rintro a (rfl | rfl | rfl | ⟨r, b, rfl⟩)
    · left; simp [next, hg]
    · exact .inr ⟨{ g with pc := .done }, by simp [next, wakeUp, hg, hs], rfl⟩
    all_goals (left; simp [next, timeOut, work, hg])
  | timed i tp =>
    refine ⟨⟨.wake, .inl ⟨rfl, h.stopn hs (by rw [hg]; rfl)⟩, { g with pc := .done }, by simp [next, wakeUp, hg, hs], rfl⟩, ?_⟩
    rintro a (rfl | rfl | rfl | ⟨r, b, rfl⟩)
    · left; simp [next, hg]
    · exact .inr ⟨{ g with pc := .done }, by simp [next, wakeUp, hg, hs], rfl⟩
    · simp only [next, timeOut, hg, hs]
      split
      · exact .inr ⟨{ g with pc := .done }, by simp [hs], rfl⟩
      · exact .inl rfl
    · left; simp [next, work, hg]
  | loop n =>
    refine ⟨⟨.work r b, .inr (.inr rfl), { g with pc := .done }, by simp [next, work, enterWait, hg, hq, hs], rfl⟩, ?_⟩
    rintro a (rfl | rfl | rfl | ⟨r, b, rfl⟩)
    · left; simp [next, hg]
    · left; simp [next, wakeUp, hg]
    · left; simp [next, timeOut, hg]
    · exact .inr ⟨{ g with pc := .done }, by simp [next, work, enterWait, hg, hq, hs], rfl⟩
  | done => exact absurd hg hp

/-- A worker that waits for key 1 when the cache is destroyed: it has been notified and is told to stop. -/
example : ∃ g, Leads every10 (untilTen ++ [(at_ 3, .dtorClear), (at_ 4, .dtorStop)]) g ∧ g.pc ≠ .done := by
  refine ⟨_, ⟨?_, rfl⟩, by decide⟩
  refine ⟨trivial, fun g1 o1 h1 => ?_⟩
  obtain ⟨rfl, rfl⟩ := Outcome.ok.inj h1
  refine ⟨⟨rfl, by simp, by simp⟩, fun g2 o2 h2 => ?_⟩
  obtain ⟨rfl, rfl⟩ := Outcome.ok.inj h2
  refine ⟨trivial, fun g3 o3 h3 => ?_⟩
  obtain ⟨rfl, rfl⟩ := Outcome.ok.inj h3
  refine ⟨trivial, fun g4 o4 h4 => ?_⟩
  obtain ⟨rfl, rfl⟩ := Outcome.ok.inj h4
  refine ⟨rfl, fun g5 o5 h5 => ?_⟩
  obtain ⟨rfl, rfl⟩ := Outcome.ok.inj h5
  exact ⟨⟨rfl, rfl⟩, fun _ _ _ => trivial⟩

/-- C56 is false of the code (1): the destructor clears the table without the lock, so it can do so while the worker is refreshing. -/
theorem C56_destructor_races_worker : ∃ g, Leads every10 (untilTen.take 3) g ∧ (Act.dtorClear : Act Nat Nat Nat).ok every10 g ∧ next every10 (at_ 0) g .dtorClear = .ub := by
  refine ⟨_, ⟨?_, rfl⟩, rfl, rfl⟩
  refine ⟨trivial, fun g1 o1 h1 => ?_⟩
  obtain ⟨rfl, rfl⟩ := Outcome.ok.inj h1
  refine ⟨⟨rfl, by simp, by simp⟩, fun g2 o2 h2 => ?_⟩
  obtain ⟨rfl, rfl⟩ := Outcome.ok.inj h2
  exact ⟨trivial, fun _ _ _ => trivial⟩

/-- C56 is false of the code (2): a second value was stored while the worker waits, which notified it.  If it wakes up after the table was
cleared and before it is told to stop, it reads the due time of the freed entry. -/
theorem C56_destructor_frees_under_worker : ∃ g, Leads every10 (untilTen ++ [(at_ 1, .call (.emplace 2 7 .none)), (at_ 2, .dtorClear)]) g ∧
    g.notified = true ∧ next every10 (at_ 2) g .wake = .ub := by
  refine ⟨_, ⟨?_, rfl⟩, rfl, rfl⟩
  refine ⟨trivial, fun g1 o1 h1 => ?_⟩
  obtain ⟨rfl, rfl⟩ := Outcome.ok.inj h1
  refine ⟨⟨rfl, by simp, by simp⟩, fun g2 o2 h2 => ?_⟩
  obtain ⟨rfl, rfl⟩ := Outcome.ok.inj h2
  refine ⟨trivial, fun g3 o3 h3 => ?_⟩
  obtain ⟨rfl, rfl⟩ := Outcome.ok.inj h3
  refine ⟨trivial, fun g4 o4 h4 => ?_⟩
  obtain ⟨rfl, rfl⟩ := Outcome.ok.inj h4
  refine ⟨⟨rfl, by simp, by simp⟩, fun g5 o5 h5 => ?_⟩
  obtain ⟨rfl, rfl⟩ := Outcome.ok.inj h5
  exact ⟨rfl, fun _ _ _ => trivial⟩

/-! ### Applied -/

theorem leads_waiting : ∃ g, Leads every10 untilTen g ∧ g.pc = .timed 0 (some 10) ∧ g.log = [(at_ 0, .emplace 1 5 .none)] := by
  refine ⟨_, ⟨?_, rfl⟩, rfl, rfl⟩
  refine ⟨trivial, fun g1 o1 h1 => ?_⟩
  obtain ⟨rfl, rfl⟩ := Outcome.ok.inj h1
  refine ⟨⟨rfl, by simp, by simp⟩, fun g2 o2 h2 => ?_⟩
  obtain ⟨rfl, rfl⟩ := Outcome.ok.inj h2
  refine ⟨trivial, fun g3 o3 h3 => ?_⟩
  obtain ⟨rfl, rfl⟩ := Outcome.ok.inj h3
  exact ⟨trivial, fun _ _ _ => trivial⟩

example : True := by
  obtain ⟨g, hl, hp, hlog⟩ := leads_waiting
  have := C53_worker_wakes_for_due_value (cfg := every10) (nat_ok rfl (by intro d i h; cases h; decide)) 10 0 rfl (by decide) untilTen g hl (at_ 12) (mono_at [0, 0, 0, 0, 12] (by decide)) (by rw [hp]; rfl) 1
    (by rw [hlog]; exact ⟨⟨5, by decide⟩, by decide, by decide⟩)
  have := C54_worker_gives_lock_back_partial (cfg := every10) (nat_ok rfl (by intro d i h; cases h; decide)) 10 0 rfl (by decide) (by decide) untilTen g hl (at_ 12) (mono_at [0, 0, 0, 0, 12] (by decide))
  trivial

end Hoard.Props
