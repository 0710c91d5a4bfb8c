import Verif.WorkerLemmas
import Verif.Spec.Work
/-! Helper lemmas: the invariant of the cache with its worker. -/
namespace Hoard.Worker
open Spec
variable {K V E : Type} {cfg : Cfg K} {env env' : Env V} {d I : Int} {g g' : G K V E} {out : Out K V E}

/-- Invariant of the worker; `env` is not before the last step. -/
structure WInv (cfg : Cfg K) (d : Int) (env : Env V) (g : G K V E) : Prop where
  st : g.s = stateAfter cfg g.log
  ok : HistOk cfg St.init g.log
  mono : Mono (g.log.map (·.1) ++ [env])
  timed : ∀ i tp, g.pc = .timed i tp → i < g.s.nextId ∧ Head i g.s ∧
    ∃ t, tp = some t ∧ t ≤ env.now + d ∧ ∀ e ∈ g.s.ents, e.id ∈ g.s.delayQ → ∀ u, e.refTp = some u → t ≤ u
  untimed : g.pc = .untimed → g.s.delayQ = [] ∨ g.notified = true
  loop : ∀ n, g.pc = .loop n → n ≤ env.now
  stop : g.stop = true → g.s.destroyed = true
  stopn : g.stop = true → g.pc.waits = true → g.notified = true

theorem winv_init (cfg : Cfg K) (d : Int) (env : Env V) : WInv cfg d env ({} : G K V E) := by
  constructor <;> simp [HistOk, Mono, stateAfter, run, St.init]

theorem mono_snoc {es : List (Env V)} (h : Mono (es ++ [env])) (hl : env.le env') : Mono (es ++ [env, env']) := by
  unfold Mono at *
  rw [List.pairwise_append] at *
  refine ⟨h.1, by simp [hl], ?_⟩
  intro a ha b hb
  have := h.2.2 a ha env (by simp)
  rcases List.mem_cons.1 hb with rfl | hb
  · exact this
  · rw [List.mem_singleton] at hb; subst hb; exact this.trans hl

theorem mono_weaken {es : List (Env V)} (h : Mono (es ++ [env])) (hl : env.le env') : Mono (es ++ [env']) := by
  have := mono_snoc h hl
  unfold Mono at *
  rw [List.pairwise_append] at *
  exact ⟨this.1, by simp, fun a ha b hb => this.2.2 a ha b (List.mem_cons_of_mem _ hb)⟩

theorem WInv.later (h : WInv cfg d env g) (hl : env.le env') : WInv cfg d env' g where
  st := h.st
  ok := h.ok
  mono := mono_weaken h.mono hl
  timed := by
    intro i tp hp
    obtain ⟨h1, h2, t, h3, h4, h5⟩ := h.timed i tp hp
    exact ⟨h1, h2, t, h3, Int.le_trans h4 (by have := hl.now; omega), h5⟩
  untimed := h.untimed
  loop := fun n hn => Int.le_trans (h.loop n hn) hl.now
  stop := h.stop
  stopn := h.stopn

theorem WInv.good (hc : cfg.Ok) (h : WInv cfg d env g) : Good cfg ⟨True, False, env, True⟩ (fun _ => False) g.s (ledgerAfter cfg g.log) :=
  h.st ▸ good_mono hc g.log h.ok env h.mono

/-- An entry of the delay queue is linked. -/
theorem queued_linked {s : St K V E} (w : WF1 cfg s) {i : Nat} (hi : i ∈ s.delayQ) : ∃ e ∈ s.ents, e.id = i ∧ s.find i = some e := by
  obtain ⟨e, he, rfl⟩ := List.mem_map.1 (w.dqM i hi)
  exact ⟨e, he, rfl, find_mem w he⟩

/-- The first of the delay queue is due first. -/
theorem head_first (hc : cfg.Ok) (hr : cfg.refresh = some (d, I)) (h : WInv cfg d env g) {i : Nat} {q : List Nat} (hq : g.s.delayQ = i :: q)
    {e : Entry K V E} (he : g.s.find i = some e) :
    ∃ t, e.refTp = some t ∧ t ≤ env.now + d ∧ ∀ a ∈ g.s.ents, a.id ∈ g.s.delayQ → ∀ u, a.refTp = some u → t ≤ u := by
  have gd := h.good hc
  obtain ⟨hf, rfl⟩ := find_some he
  clear he
  have he := hf
  obtain ⟨t, h1, h2⟩ := gd.dq.dl2 trivial d I hr e he (by rw [hq]; simp)
  refine ⟨t, h1, h2, fun a ha haq u hu => ?_⟩
  rw [hq] at haq
  rcases List.mem_cons.1 haq with hh | hh
  · obtain rfl := eq_of_id gd.wf1 ha he hh
    rw [h1, Option.some.injEq] at hu; omega
  · have hp := gd.dq.dl1 trivial d I hr
    rw [hq, List.pairwise_cons] at hp
    exact hp.1 a.id hh e he a ha rfl rfl _ _ h1 hu

theorem enterWait_ok (hc : cfg.Ok) (hr : cfg.refresh = some (d, I)) (h : WInv cfg d env g) :
    ∃ g', enterWait g = .ok g' {} ∧ WInv cfg d env g' ∧ g'.log = g.log ∧ g'.s = g.s ∧ (g'.pc = .done ∨ g'.pc.waits = true) ∧ g'.stop = g.stop ∧
      (g.stop = false → g'.pc.waits = true) ∧ (g.stop = true → g'.pc = .done) := by
  unfold enterWait
  cases hq : g.s.delayQ with
  | nil =>
    simp only
    split
    · rename_i hs
      refine ⟨_, rfl, ⟨h.st, h.ok, h.mono, ?_, ?_, ?_, h.stop, ?_⟩, rfl, rfl, .inl rfl, rfl, ?_, ?_⟩ <;> simp [Pc.waits, hs]
    · rename_i hs
      refine ⟨_, rfl, ⟨h.st, h.ok, h.mono, ?_, ?_, ?_, h.stop, ?_⟩, rfl, rfl, .inr rfl, rfl, ?_, ?_⟩ <;> simp [Pc.waits, hq, hs]
  | cons i q =>
    simp only
    split
    · rename_i hs
      refine ⟨_, rfl, ⟨h.st, h.ok, h.mono, ?_, ?_, ?_, h.stop, ?_⟩, rfl, rfl, .inl rfl, rfl, ?_, ?_⟩ <;> simp [Pc.waits, hs]
    · rename_i hs
      obtain ⟨e, he, hi, hf⟩ := queued_linked (h.good hc).wf1 (i := i) (by rw [hq]; simp)
      rw [hf]
      refine ⟨_, rfl, ⟨h.st, h.ok, h.mono, ?_, ?_, ?_, h.stop, ?_⟩, rfl, rfl, .inr rfl, rfl, ?_, ?_⟩
      · intro j tp hp
        simp only [Pc.timed.injEq] at hp
        obtain ⟨rfl, rfl⟩ := hp
        refine ⟨hi ▸ (h.good hc).wf1.lt e (List.mem_append_left _ he), .inl ⟨q, hq⟩, ?_⟩
        obtain ⟨t, h1, h2, h3⟩ := head_first hc hr h hq hf
        exact ⟨t, h1, h2, h3⟩
      all_goals simp [Pc.waits, hs]

theorem destroyed_queue {s : St K V E} (w1 : WF1 cfg s) (w2 : WF2 cfg s) (hd : s.destroyed = true) : s.delayQ = [] := by
  apply List.eq_nil_iff_forall_not_mem.2
  intro i hi
  obtain ⟨e, he, _⟩ := queued_linked w1 hi
  rw [w2.opD hd] at he; cases he

theorem step_mono_destroyed (hc : cfg.Ok) (h : WInv cfg d env g) (o : Op K V E) (ho : o.ok cfg g.s) :
    g.s.destroyed = true → (step cfg env g.s o).1.destroyed = true := by
  intro hd
  cases o with
  | complete tok r =>
    simp only [step, complete]; split
    · simp only [hd]; rfl
    · exact hd
  | drop tok =>
    simp only [step, drop]; split <;> exact hd
  | _ => simp_all [Op.ok]

/-- One operation on the table. -/
theorem WInv.op (h : WInv cfg d env g) (o : Op K V E) (ho : o.ok cfg g.s) :
    (step cfg env g.s o).1 = stateAfter cfg (g.log ++ [(env, o)]) ∧ HistOk cfg St.init (g.log ++ [(env, o)]) ∧
    Mono ((g.log ++ [(env, o)]).map (·.1) ++ [env]) := by
  refine ⟨?_, ?_, ?_⟩
  · rw [stateAfter_snoc, ← h.st]
  · rw [HistOk_append]
    refine ⟨h.ok, ?_, trivial⟩
    rw [show (run cfg St.init g.log).1 = stateAfter cfg g.log from rfl, ← h.st]; exact ho
  · rw [List.map_append, List.append_assoc]; exact mono_snoc h.mono (.refl env)

theorem next_inv (hc : cfg.Ok) (hr : cfg.refresh = some (d, I)) (hk : cfg.resolver ≠ .none) (h : WInv cfg d env g) (a : Act K V E) (ha : a.ok cfg g)
    (hn : next cfg env g a = .ok g' out) : WInv cfg d env g' := by
  have gd := h.good hc
  cases a with
  | call o =>
    simp only [next, call] at hn
    split at hn
    · cases hn
    · rename_i hl
      obtain ⟨rfl, rfl⟩ := Outcome.ok.inj hn
      obtain ⟨ho, hd, ht⟩ := ha
      obtain ⟨o1, o2, o3⟩ := h.op o ho
      refine ⟨o1, o2, o3, ?_, ?_, ?_, fun hs => step_mono_destroyed hc h o ho (h.stop hs), ?_⟩
      · intro i tp hp
        obtain ⟨h1, h2, t, h3, h4, h5⟩ := h.timed i tp hp
        have hk := step_headK (env := env) hc gd.wf1 o ht h1
        refine ⟨hk.1, hk.2 h2, t, h3, h4, fun e he heq u hu => ?_⟩
        rcases step_back (env := env) hc hr gd.wf1 o e he heq with ⟨e0, b1, b2, b3, b4⟩ | b1
        · exact h5 e0 b1 b3 u (b4.trans hu)
        · rw [b1, Option.some.injEq] at hu; omega
      · intro hp
        simp only
        rcases h.untimed hp with hh | hh
        · cases hq : (step cfg env g.s o).1.delayQ with
          | nil => exact .inl rfl
          | cons i q => right; simp [notifies, hh, hq]
        · right; simp [hh]
      · intro n hp
        simp only at hp
        rw [hp] at hl; simp [Pc.locked] at hl
      · intro h1 h2; simp only; rw [h.stopn h1 h2]; rfl
  | begin =>
    simp only [next] at hn
    split at hn
    · obtain ⟨g1, e1, w1, _⟩ := enterWait_ok hc hr h
      rw [e1] at hn
      obtain ⟨rfl, rfl⟩ := Outcome.ok.inj hn
      exact w1
    · cases hn
  | wake =>
    simp only [next, wakeUp] at hn
    split at hn
    · rename_i hp
      split at hn
      · obtain ⟨rfl, rfl⟩ := Outcome.ok.inj hn
        refine ⟨h.st, h.ok, h.mono, ?_, ?_, ?_, h.stop, ?_⟩ <;> simp [Pc.waits]
      · rename_i hs
        split at hn
        · rename_i hq
          obtain ⟨rfl, rfl⟩ := Outcome.ok.inj hn
          refine ⟨h.st, h.ok, h.mono, ?_, ?_, ?_, h.stop, ?_⟩
          · simp [hp]
          · intro _; left; simpa using hq
          · simp [hp]
          · simp [hs]
        · obtain ⟨rfl, rfl⟩ := Outcome.ok.inj hn
          refine ⟨h.st, h.ok, h.mono, ?_, ?_, ?_, h.stop, ?_⟩ <;> simp [Pc.waits]
    · rename_i i tp hp
      split at hn
      · obtain ⟨rfl, rfl⟩ := Outcome.ok.inj hn
        refine ⟨h.st, h.ok, h.mono, ?_, ?_, ?_, h.stop, ?_⟩ <;> simp [Pc.waits]
      · rename_i hs
        split at hn
        · cases hn
        · rename_i e he
          obtain ⟨rfl, rfl⟩ := Outcome.ok.inj hn
          refine ⟨h.st, h.ok, h.mono, ?_, ?_, ?_, h.stop, ?_⟩
          · intro j tp' hp'
            simp only [Pc.timed.injEq] at hp'
            obtain ⟨rfl, rfl⟩ := hp'
            obtain ⟨h1, h2, _⟩ := h.timed i tp hp
            refine ⟨h1, h2, ?_⟩
            rcases h2 with ⟨q, hq⟩ | hq
            · exact head_first hc hr h hq he
            · exact absurd (find_some he).2 (hq e (find_some he).1)
          all_goals simp [hs]
    · cases hn
  | timeout =>
    simp only [next, timeOut] at hn
    split at hn
    · split at hn
      · split at hn
        · obtain ⟨rfl, rfl⟩ := Outcome.ok.inj hn
          refine ⟨h.st, h.ok, h.mono, ?_, ?_, ?_, h.stop, ?_⟩ <;> simp [Pc.waits]
        · obtain ⟨rfl, rfl⟩ := Outcome.ok.inj hn
          refine ⟨h.st, h.ok, h.mono, ?_, ?_, ?_, h.stop, ?_⟩ <;> simp [Pc.waits]
      · cases hn
    · cases hn
  | work r b =>
    simp only [next, work] at hn
    have hew : ∀ {g' : G K V E} {out}, enterWait g = .ok g' out → WInv cfg d env g' := by
      intro g' out hh
      obtain ⟨g1, e1, w1, _⟩ := enterWait_ok hc hr h
      rw [e1] at hh
      obtain ⟨rfl, rfl⟩ := Outcome.ok.inj hh
      exact w1
    split at hn
    · rename_i now hp
      split at hn
      · exact hew hn
      · rename_i i q hq
        split at hn
        · cases hn
        · split at hn
          · obtain ⟨rfl, rfl⟩ := Outcome.ok.inj hn
            have hnd : g.s.destroyed = false := by
              cases hd : g.s.destroyed
              · rfl
              · rw [destroyed_queue gd.wf1 gd.wf2 hd] at hq; cases hq
            have ho : (Op.tick r b : Op K V E).ok cfg g.s := ⟨hk, by rw [hr]; rfl, hnd⟩
            obtain ⟨o1, o2, o3⟩ := h.op _ ho
            refine ⟨o1, o2, o3, ?_, ?_, ?_, ?_, ?_⟩
            · intro j tp hj; simp only at hj; rw [hp] at hj; cases hj
            · intro hj; simp only at hj; rw [hp] at hj; cases hj
            · exact fun n hn => h.loop n hn
            · intro hs; have := h.stop hs; rw [hnd] at this; cases this
            · intro hs; have := h.stop hs; rw [hnd] at this; cases this
          · exact hew hn
    · cases hn
  | dtorClear =>
    simp only [next] at hn
    split at hn
    · cases hn
    · rename_i hl
      obtain ⟨rfl, rfl⟩ := Outcome.ok.inj hn
      have ho : (Op.destroy : Op K V E).ok cfg g.s := ha
      obtain ⟨o1, o2, o3⟩ := h.op _ ho
      have hent : (step cfg env g.s (Op.destroy : Op K V E)).1.ents = [] := by
        simp only [step, destroy]
        rw [St.ents, (dispose_fields cfg g.s.ents _).1]
        simp [List.flatten_eq_nil_iff]
      have hde : (step cfg env g.s (Op.destroy : Op K V E)).1.destroyed = true := rfl
      have hdq : (step cfg env g.s (Op.destroy : Op K V E)).1.delayQ = [] := by
        have := good_any hc _ o2 env
        rw [← o1] at this
        exact destroyed_queue this.wf1 this.wf2 hde
      refine ⟨o1, o2, o3, ?_, fun _ => .inl hdq, ?_, fun _ => hde, h.stopn⟩
      · intro i tp hp
        obtain ⟨h1, h2, t, h3, h4, h5⟩ := h.timed i tp hp
        have hk := step_headK (env := env) hc gd.wf1 (Op.destroy : Op K V E) (by simp) h1
        refine ⟨hk.1, hk.2 h2, t, h3, h4, fun e he => ?_⟩
        simp only [hent] at he; cases he
      · intro n hp; simp only at hp; rw [hp] at hl; simp [Pc.locked] at hl
  | dtorStop =>
    simp only [next] at hn
    split at hn
    · cases hn
    · obtain ⟨rfl, rfl⟩ := Outcome.ok.inj hn
      exact ⟨h.st, h.ok, h.mono, h.timed, fun _ => .inr rfl, h.loop, fun _ => ha.1, fun _ _ => rfl⟩

theorem exec_inv (hc : cfg.Ok) (hr : cfg.refresh = some (d, I)) (hk : cfg.resolver ≠ .none) : ∀ (as : List (Env V × Act K V E)) (g g' : G K V E) (env envL : Env V),
    WInv cfg d env g → Mono (env :: (as.map (·.1) ++ [envL])) → Sched cfg g as → exec cfg g as = .ok g' {} → WInv cfg d envL g' := by
  intro as
  induction as with
  | nil =>
    intro g g' env envL h hm _ he
    simp only [exec] at he
    obtain ⟨rfl, _⟩ := Outcome.ok.inj he
    refine h.later ?_
    unfold Mono at hm
    simp at hm; exact hm
  | cons p as ih =>
    obtain ⟨e1, a⟩ := p
    intro g g' env envL h hm hs he
    simp only [exec] at he
    have hm' := List.pairwise_cons.1 hm
    have hle : env.le e1 := hm'.1 e1 (by simp)
    split at he
    · rename_i g1 out hn
      exact ih g1 g' e1 envL (next_inv hc hr hk (h.later hle) a hs.1 hn) hm'.2 (hs.2 _ _ hn) he
    · cases he
    · cases he

theorem leads_inv (hc : cfg.Ok) (hr : cfg.refresh = some (d, I)) (hk : cfg.resolver ≠ .none) {as : List (Env V × Act K V E)} (hl : Leads cfg as g)
    {env : Env V} (hm : Mono (as.map (·.1) ++ [env])) : WInv cfg d env g := by
  cases as with
  | nil =>
    have := hl.2
    simp only [exec] at this
    obtain ⟨rfl, _⟩ := Outcome.ok.inj this
    exact winv_init cfg d env
  | cons p as =>
    have := exec_inv hc hr hk (p :: as) {} g p.1 env (winv_init cfg d p.1) ?_ hl.1 hl.2
    · exact this
    · unfold Mono at *
      rw [List.pairwise_cons]
      refine ⟨fun b hb => ?_, hm⟩
      simp only [List.map_cons, List.cons_append, List.mem_cons] at hb
      rcases hb with rfl | hb
      · exact .refl _
      · exact (List.pairwise_cons.1 hm).1 b hb

/-! ### The round of the worker -/

/-- Number of entries in the delay queue that are due at `now`. -/
def dueIn (now : Int) (s : St K V E) : Nat :=
  (s.delayQ.filter (fun i => ((s.find i).map (fun e => reached now e.refTp)).getD false)).length

theorem dueIn_le (now : Int) (s : St K V E) : dueIn now s ≤ s.delayQ.length := List.length_filter_le _ _

/-- What one iteration of the inner loop does. -/
theorem work_cases (hc : cfg.Ok) (hr : cfg.refresh = some (d, I)) (hk : cfg.resolver ≠ .none) (h : WInv cfg d env g) {now : Int} (hp : g.pc = .loop now)
    (r : Res V E) (b : Beh V E) :
    (∃ g', next cfg env g (.work r b) = .ok g' {} ∧ g'.log = g.log ∧ g'.s = g.s ∧ (g'.pc = .done ∨ g'.pc.waits = true) ∧ (g.stop = false → g'.pc.waits = true) ∧
      ∀ e ∈ g.s.ents, e.id ∈ g.s.delayQ → ∀ u, e.refTp = some u → now < u) ∨
    (∃ g', next cfg env g (.work r b) = .ok g' (step cfg env g.s (.tick r b)).2 ∧ g'.log = g.log ++ [(env, .tick r b)] ∧ g'.s = (step cfg env g.s (.tick r b)).1 ∧
      g'.pc = .loop now ∧ (Op.tick r b : Op K V E).ok cfg g.s ∧ (0 < d → dueIn now g'.s < dueIn now g.s)) := by
  have gd := h.good hc
  simp only [next, work, hp]
  cases hq : g.s.delayQ with
  | nil =>
    left
    obtain ⟨g1, e1, w1, w2, w3, w4, w5, w6, _⟩ := enterWait_ok hc hr h
    exact ⟨g1, e1, w2, w3, w4, w6, fun e _ he => by cases he⟩
  | cons i q =>
    obtain ⟨e, he, hi, hf⟩ := queued_linked gd.wf1 (i := i) (by rw [hq]; simp)
    simp only [hf]
    split
    · rename_i hre
      right
      have hnd : g.s.destroyed = false := by
        cases hd : g.s.destroyed
        · rfl
        · rw [destroyed_queue gd.wf1 gd.wf2 hd] at hq; cases hq
      have ho : (Op.tick r b : Op K V E).ok cfg g.s := ⟨hk, by rw [hr]; rfl, hnd⟩
      refine ⟨_, rfl, rfl, rfl, rfl, ho, fun hd => ?_⟩
      -- the state after the refresh
      have hnow := h.loop now hp
      have hre' : reached env.now e.refTp = true := by
        cases ht : e.refTp with
        | none => rw [ht] at hre; cases hre
        | some t => rw [ht] at hre; simp only [reached, decide_eq_true_eq] at hre ⊢; omega
      have hb : Back d env { g.s with delayQ := q } (step cfg env g.s (.tick r b)).1 := by
        simp only [step, tick, hq, hf, hre', if_true]
        exact refresh_back hr (gd.wf1.pop hq) _ _ _
      obtain ⟨o1, o2, o3⟩ := h.op _ ho
      have gd' := good_any hc _ o2 env
      rw [← o1] at gd'
      unfold dueIn
      simp only
      have hcons : (g.s.delayQ.filter (fun i => ((g.s.find i).map (fun e => reached now e.refTp)).getD false)).length =
          (q.filter (fun i => ((g.s.find i).map (fun e => reached now e.refTp)).getD false)).length + 1 := by
        rw [hq, List.filter_cons, hf]; simp [hre]
      rw [hcons]
      refine Nat.lt_succ_of_le (nodup_len_le ?_ ?_)
      · exact gd'.wf1.dqN.sublist List.filter_sublist
      · intro j hj
        obtain ⟨hj1, hj2⟩ := List.mem_filter.1 hj
        obtain ⟨x, hx, hxj, hxf⟩ := queued_linked gd'.wf1 hj1
        rw [hxf] at hj2
        simp only [Option.map_some, Option.getD_some] at hj2
        rcases hb x hx (hxj ▸ hj1) with ⟨y, hy, hyi, hyq, hyt⟩ | hb1
        · rw [hyi, hxj] at hyq
          refine List.mem_filter.2 ⟨hyq, ?_⟩
          have := find_mem gd.wf1 (show y ∈ g.s.ents from hy)
          rw [hyi, hxj] at this
          rw [this]; simp only [Option.map_some, Option.getD_some, hyt, hj2]
        · rw [hb1] at hj2
          simp only [reached, decide_eq_true_eq] at hj2; omega
    · rename_i hre
      left
      obtain ⟨g1, e1, w1, w2, w3, w4, w5, w6, _⟩ := enterWait_ok hc hr h
      refine ⟨g1, e1, w2, w3, w4, w6, ?_⟩
      rw [← hq]
      intro a ha haq u hu
      obtain ⟨t, h1, _, h3⟩ := head_first hc hr h hq hf
      have := h3 a ha haq u hu
      rw [h1] at hre
      simp only [reached, decide_eq_true_eq] at hre
      omega

/-- A due value is in the delay queue, and due there. -/
theorem due_queued (hc : cfg.Ok) (hr : cfg.refresh = some (d, I)) (h : WInv cfg d env g) {now : Int} {k : K} (hd : Due cfg d g.log env now k) :
    ∃ e ∈ g.s.ents, e.id ∈ g.s.delayQ ∧ ∃ u, e.refTp = some u ∧ u ≤ now := by
  obtain ⟨⟨v, hv⟩, htr, ht⟩ := hd
  have gd := h.good hc
  unfold outAt at hv
  rw [← h.st] at hv
  obtain ⟨e, he, hek, hx, hev⟩ := (peek_val hc gd env k v).1 hv
  obtain ⟨_, _, _, c4, c5⟩ := (gd.v k).c1 e he hek v hev
  simp only [Ledger.dueAt, hr, Option.map_some] at c4
  have hrf : e.refreshing = false := by
    cases hh : e.refreshing
    · rfl
    · rw [hh, htr] at c5; simp at c5
  rcases gd.dq.dl3 trivial (by rw [hr]; rfl) e he (by simp [hev]) hrf with hh | hh | hh
  · exact ⟨e, he, hh, _, c4, ht⟩
  · have hh : e.expired env = true := hh
    rw [hx] at hh; cases hh
  · exact hh.elim

end Hoard.Worker
