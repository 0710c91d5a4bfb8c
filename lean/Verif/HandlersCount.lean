import Verif.HandlersFull
import Verif.NestedAsyncCount
import Verif.NestedRun
/-! Handlers that do anything they can do: every waiter is accounted for. -/
namespace Hoard.Handlers
open Spec
open NestedAsync (Wt_op LimNP lim_step lim_runCb lim_complete lim_assign hit_pend)
variable {K V E : Type} {cfg : Cfg K} {env : Env V} {s s' : St K V E} {n n1 : HSt K V E} {t : Nat} {C : List Cb}

/-- The lookup is in the table, pending, with these callbacks. -/
def Pd (t : Nat) (C : List Cb) (s : St K V E) : Prop := ∃ e ∈ s.ents, e.id = t ∧ e.isPending = true ∧ e.mapped.cbs = C

theorem Pd.shr {Ef : Eff K V} (h : Pd t C s) (r : Shr cfg env Ef s s') : Pd t C s' := by
  obtain ⟨e, he, h1, h2, h3⟩ := h
  obtain ⟨e', he', sh⟩ := r.keepP e he h2
  exact ⟨e', he', sh.id.trans h1, sh.pend.trans h2, sh.cbs.trans h3⟩

theorem Pd.spc {Ef : Eff K V} {x : Nat} (h : Pd t C s) (r : Spc cfg env Ef x s s') (hx : t ≠ x) : Pd t C s' := by
  obtain ⟨e, he, h1, h2, h3⟩ := h
  obtain ⟨e', he', sh⟩ := r.keepP e he (by rw [h1]; exact hx) h2
  exact ⟨e', he', sh.id.trans h1, sh.pend.trans h2, sh.cbs.trans h3⟩

theorem Pd.modify (h : Pd t C s) (i : Nat) {f : Entry K V E → Entry K V E}
    (hf : ∀ e, i = t → (f e).id = e.id ∧ (f e).isPending = e.isPending ∧ (f e).mapped.cbs = e.mapped.cbs) : Pd t C (s.modify i f) := by
  obtain ⟨e, he, h1, h2, h3⟩ := h
  refine ⟨atId i f e, ?_, ?_⟩
  · rw [ents_modify]; exact List.mem_map.2 ⟨e, he, rfl⟩
  · unfold atId; split
    · rename_i hi
      obtain ⟨a, b, c⟩ := hf e (hi.symm.trans h1)
      exact ⟨a.trans h1, b.trans h2, c.trans h3⟩
    · exact ⟨h1, h2, h3⟩

theorem Pd.same (h : Pd t C s) (h1 : s'.tbl = s.tbl) : Pd t C s' := by
  unfold Pd St.ents at h ⊢; rw [h1]; exact h

theorem Pd.lt (h : Pd t C s) (w : WF1 cfg s) : t < s.nextId := by
  obtain ⟨e, he, h1, _⟩ := h
  rw [← h1]; exact w.lt e (List.mem_append_left _ he)

theorem Pd.cbsOf (h : Pd t C s) (w : WF1 cfg s) : cbsOf s t = C := by
  obtain ⟨e, he, h1, _, h3⟩ := h
  have := findAny_mem w he
  rw [h1] at this
  simp [Handlers.cbsOf, this, h3]

theorem Pd.assign (h : Pd t C s) {i : Nat} (hi : t ≠ i) (b : Bool) : Pd t C (onAssign cfg env s i b) :=
  Pd.spc (Ef := {}) h (onAssign_spc env s i b) hi

theorem Pd.runCb (h : Pd t C s) (i : Nat) (cb : Cb) : Pd t C (Hoard.runCb s i cb) := by
  cases cb with
  | user w => exact h
  | refresh old =>
    simp only [Hoard.runCb]
    refine Pd.modify (f := (·.upd .markExpired)) (Pd.modify h i (f := fun e => { e with canTp := tpMin e.canTp _ }) (fun e _ => ⟨rfl, rfl, rfl⟩)) old (fun e _ => ⟨rfl, ?_, cbs_markExpired e.mapped⟩)
    simp only [Entry.isPending, Entry.upd]
    cases e.mapped <;> rfl

theorem Pd.runCbs (i : Nat) (cbs : List Cb) : ∀ {s : St K V E}, Pd t C s → Pd t C (Hoard.runCbs s i cbs) := by
  induction cbs with
  | nil => intro s h; exact h
  | cons c cs ih => intro s h; exact ih (s := Hoard.runCb s i c) (h.runCb i c)

theorem Pd.complete (h : Pd t C s) {x : Nat} (hx : t ≠ x) (r : Res V E) : Pd t C (Hoard.complete cfg env s x r).1 := by
  by_cases ho : x ∈ s.opens
  · cases hd : s.destroyed with
    | true => rw [complete_dead ho hd]; exact (h.modify x (fun e q => absurd q.symm hx)).same rfl
    | false =>
      rw [complete_pos ho hd]
      exact Pd.same (((Pd.runCbs x _ h).modify x (fun e q => absurd q.symm hx)).assign hx r.isOk) rfl
  · rw [complete_neg ho]; exact h

theorem Pd.drop (h : Pd t C s) {x : Nat} (hx : t ≠ x) : Pd t C (Hoard.drop s x).1 := by
  by_cases ho : x ∈ s.opens
  · rw [drop_pos ho]; exact (h.modify x (fun e q => absurd q.symm hx)).same rfl
  · rw [drop_neg ho]; exact h

theorem Pd.tryLink (h : Pd t C s) (w : WF1 cfg s) {e : Entry K V E} (he : e.id = s.nextId) (f : Fail) : Pd t C (Hoard.tryLink cfg env s e f).1 := by
  have hx : t ≠ e.id := by rw [he]; exact Nat.ne_of_lt (h.lt w)
  rcases tryLink_cases cfg env s e f with h1 | h1 | h1 <;> rw [h1]
  · exact h.spc (link_spc (F := ({} : Eff K V)) env w he).2.1 hx
  · exact h
  · exact h.shr (beforeLink_shr (env := env) (F := ({} : Eff K V)) w)

theorem Pd.answer (h : Pd t C s) {i : Nat} (u : Nat) (l : Look V E) (hi : l = .pend → t ≠ i) : Pd t C (Hoard.answer s i u l).1 := by
  cases l with
  | pend => exact h.modify i (fun e q => absurd q.symm (hi rfl))
  | _ => exact h

theorem Pd.resolveAsync (h : Pd t C s) (w : WF1 cfg s) (k : K) (b : Beh V E) : Pd t C (Hoard.resolveAsync cfg env s k b).1 := by
  have hx : t ≠ s.nextId := Nat.ne_of_lt (h.lt w)
  have h2 : Pd t C (Hoard.link cfg env s (newEntry s k (.pending {}))) := h.spc (link_spc (F := ({} : Eff K V)) env w rfl).2.1 hx
  simp only [Hoard.resolveAsync]
  generalize Hoard.link cfg env s (newEntry s k (.pending {})) = s2 at h2
  cases b with
  | later => exact h2.same rfl
  | now r => exact Pd.complete (s := withOpens (s2.opens ++ [s.nextId]) s2) (h2.same rfl) hx r
  | drop => exact Pd.drop (s := withOpens (s2.opens ++ [s.nextId]) s2) (h2.same rfl) hx

/-- An operation leaves the callbacks of a lookup alone if it does not join, complete or drop it. -/
theorem Pd.step (hc : cfg.Ok) (h : Pd t C s) (w : WF1 cfg s) {o : Op K V E} (h1 : ∀ x r, o ≠ .complete x r) (h2 : o ≠ .drop t) (h3 : ∀ r b, o ≠ .tick r b) (h4 : o ≠ .destroy)
    (hj : ∀ k u b, o = .asyncGet k u b → (getWalk cfg env k true (s.bucket (s.bucketFor (cfg.hash k)))).hit ≠ some (t, .pend)) :
    Pd t C (Hoard.step cfg env s o).1 := by
  cases o with
  | getIfExists k => exact h
  | count => exact h
  | tick r b => exact absurd rfl (h3 r b)
  | get k r =>
    have q1 : Pd t C (get_ cfg env s k false).1 := h.shr (get__shr (env := env) hc w k false)
    have w1 := get__wf1 hc w env k false
    simp only [Hoard.step, get]
    split
    · exact q1.spc (link_spc (F := ({} : Eff K V)) env w1 rfl).2.1 (Nat.ne_of_lt (q1.lt w1))
    all_goals exact q1
  | complete x r => exact absurd rfl (h1 x r)
  | drop x => exact h.drop (fun q => h2 (by rw [q]))
  | destroy => exact absurd rfl h4
  | erase k => exact h.shr (expire_shr (env := env) (F := { die := fun _ _ _ => True }) hc w k (fun _ _ _ _ => trivial))
  | clear => exact h.shr (clear_shr (env := env) (F := { die := fun _ _ _ => True }) w (fun _ _ _ => trivial))
  | emplace k v f =>
    simp only [Hoard.step, emplace]
    have q1 : Pd t C (expire_ cfg env s k) := h.shr (expire_shr (env := env) (F := { die := fun _ _ _ => True }) hc w k (fun _ _ _ _ => trivial))
    have w1 := expire_wf1 hc w env k
    have q2 := q1.tryLink (env := env) w1 (e := newEntry (expire_ cfg env s k) k (.value v)) rfl f
    have w2 := tryLink_wf1' (env := env) w1 (e := newEntry (expire_ cfg env s k) k (.value v : Mapped V E)) rfl f
    split
    · exact q2.shr (maintenance_shr env w2)
    · exact q2
  | getOrEmplace k v f =>
    have q1 : Pd t C (get_ cfg env s k true).1 := h.shr (get__shr (env := env) hc w k true)
    have w1 := get__wf1 hc w env k true
    simp only [Hoard.step, getOrEmplace]
    generalize Hoard.get_ cfg env s k true = g at *
    obtain ⟨s1, l⟩ := g
    simp only at *
    have q2 := q1.tryLink (env := env) w1 (e := newEntry s1 k (.value v)) rfl f
    have w2 := tryLink_wf1' (env := env) w1 (e := newEntry s1 k (.value v : Mapped V E)) rfl f
    cases l with
    | none =>
      simp only
      split
      · exact q2.shr (maintenance_shr env w2)
      · exact q2
    | _ => exact q1.shr (maintenance_shr env w1)
  | asyncGet k x b =>
    have q1 : Pd t C (get_ cfg env s k true).1 := h.shr (get__shr (env := env) hc w k true)
    have w1 := get__wf1 hc w env k true
    have hj := hj k x b rfl
    simp only [Hoard.step, asyncGet]
    split
    · rename_i id l hh
      exact q1.answer _ _ (fun hl q => hj (by rw [hh, hl, q]))
    · exact (q1.resolveAsync w1 k b).answer _ _ (fun _ => by
        have : (Hoard.resolveAsync cfg env (get_ cfg env s k true).1 k b).2 = (get_ cfg env s k true).1.nextId := by cases b <;> rfl
        rw [this]; exact Nat.ne_of_lt (q1.lt w1))

/-! ## The structure -/

theorem assign_wf1 (hr : cfg.refresh = none) (w : WF1 cfg s) (i : Nat) (b : Bool) : WF1 cfg (onAssign cfg env s i b) := by
  simp only [onAssign, hr, Option.isSome_none, Bool.false_and, Bool.false_eq_true, if_false]
  exact w.modify i (assignTimes_idKey cfg env b)

theorem withOpens_wf1 (w : WF1 cfg s) (o : List Nat) : WF1 cfg (withOpens o s) := ⟨w.ids, w.lt, w.placed, w.sorted, w.bq, w.dqN, w.dqM⟩

theorem runCb_wf1 (w : WF1 cfg s) (i : Nat) (cb : Cb) : WF1 cfg (runCb s i cb) := by
  cases cb with
  | user u => exact w
  | refresh old =>
    simp only [runCb]
    exact (w.modify i (f := fun e => { e with canTp := tpMin e.canTp _ }) (fun _ => ⟨rfl, rfl⟩)).modify old (IdKey.upd _)

theorem runCbs_wf1 (i : Nat) (cbs : List Cb) : ∀ {s : St K V E}, WF1 cfg s → WF1 cfg (runCbs s i cbs) := by
  induction cbs with
  | nil => intro s h; exact h
  | cons c cs ih => intro s h; exact ih (s := runCb s i c) (runCb_wf1 h i c)

theorem complete_wf1' (hr : cfg.refresh = none) (w : WF1 cfg s) (x : Nat) (r : Res V E) : WF1 cfg (complete cfg env s x r).1 := by
  by_cases ho : x ∈ s.opens
  · cases hd : s.destroyed with
    | true => rw [complete_dead ho hd]; exact withOpens_wf1 (w.modify x (IdKey.upd _)) _
    | false =>
      rw [complete_pos ho hd]
      exact withOpens_wf1 (assign_wf1 hr ((runCbs_wf1 x _ w).modify x (IdKey.upd _)) x _) _
  · rw [complete_neg ho]; exact w

theorem drop_wf1' (w : WF1 cfg s) (x : Nat) : WF1 cfg (drop s x).1 := by
  by_cases ho : x ∈ s.opens
  · rw [drop_pos ho]; exact withOpens_wf1 (w.modify x (IdKey.upd _)) _
  · rw [drop_neg ho]; exact w

theorem answer_wf1' (w : WF1 cfg s) (i u : Nat) (l : Look V E) : WF1 cfg (answer s i u l).1 := by
  cases l with
  | pend => exact w.modify i (IdKey.upd _)
  | _ => exact w

theorem resolveAsync_wf1' (hr : cfg.refresh = none) (w : WF1 cfg s) (k : K) (b : Beh V E) : WF1 cfg (resolveAsync cfg env s k b).1 := by
  have h2 : WF1 cfg (link cfg env s (newEntry s k (.pending {}))) := (link_spc (F := ({} : Eff K V)) env w rfl).1
  simp only [resolveAsync]
  generalize link cfg env s (newEntry s k (.pending {})) = s2 at h2
  have h3 := withOpens_wf1 h2 (s2.opens ++ [s.nextId])
  cases b with
  | later => exact h3
  | now r => exact complete_wf1' hr h3 _ r
  | drop => exact drop_wf1' h3 _

theorem step_wf1' (hc : cfg.Ok) (hr : cfg.refresh = none) (w : WF1 cfg s) {o : Op K V E} (ho : o.ok cfg s) : WF1 cfg (step cfg env s o).1 := by
  cases o with
  | getIfExists k => exact w
  | count => exact w
  | tick r b => simp [Op.ok, hr] at ho
  | get k r =>
    have w1 := get__wf1 hc w env k false
    simp only [step, get]
    split
    · exact (link_spc (F := ({} : Eff K V)) env w1 rfl).1
    all_goals exact w1
  | complete x r => exact complete_wf1' hr w x r
  | drop x => exact drop_wf1' w x
  | destroy => exact Nested.destroy_wf1 w
  | erase k => exact expire_wf1 hc w env k
  | clear => exact clear_wf1 w
  | emplace k v f =>
    simp only [step, emplace]
    have w2 := tryLink_wf1' (env := env) (expire_wf1 hc w env k) (e := newEntry (expire_ cfg env s k) k (.value v : Mapped V E)) rfl f
    split
    · exact maintenance_wf1 w2
    · exact w2
  | getOrEmplace k v f =>
    have w1 := get__wf1 hc w env k true
    simp only [step, getOrEmplace]
    generalize Hoard.get_ cfg env s k true = g at *
    obtain ⟨s1, l⟩ := g
    simp only at *
    have w2 := tryLink_wf1' (env := env) w1 (e := newEntry s1 k (.value v : Mapped V E)) rfl f
    cases l with
    | none =>
      simp only
      split
      · exact maintenance_wf1 w2
      · exact w2
    | _ => exact maintenance_wf1 w1
  | asyncGet k x b =>
    have w1 := get__wf1 hc w env k true
    simp only [step, asyncGet]
    split
    · exact answer_wf1' w1 _ _ _
    · exact answer_wf1' (resolveAsync_wf1' hr w1 k b) _ _ _

/-! ## Counting -/

theorem Wt_asyncGet (hc : cfg.Ok) (hr : cfg.refresh = none) (w1 : WF1 cfg s) (k : K) (u : Nat) (b : Beh V E) (w : Nat) :
    Wt w (step cfg env s (.asyncGet k u b)).1 + ((step cfg env s (.asyncGet k u b)).2.fired.map (·.1)).count w + (step cfg env s (.asyncGet k u b)).2.broken.count w =
      Wt w s + [u].count w := by
  have h1 := Wt_get_ (env := env) hc w1 w k true
  have g1 := get__wf1 hc w1 env k true
  simp only [step, asyncGet]
  cases hh : (getWalk cfg env k true (s.bucket (s.bucketFor (cfg.hash k)))).hit with
  | some p =>
    obtain ⟨i, l⟩ := p
    have := Wt_answer (s := (get_ cfg env s k true).1) g1.ids w u i l (fun hl => hit_pend hc w1 (by rw [hh, hl]))
    simp only at this ⊢
    omega
  | none =>
    have h2 := Wt_resolveAsync (env := env) g1 w k b
    have g2 := resolveAsync_wf1' (env := env) hr g1 k b
    simp only
    rw [← h1, ← h2]
    refine Wt_answer g2.ids w u _ _ (fun hp => ?_)
    split at hp
    · rename_i e hf
      have hi : e.id = (resolveAsync cfg env (get_ cfg env s k true).1 k b).2 := by simpa using List.find?_some hf
      exact ⟨e, List.mem_of_find?_eq_some hf, hi, get_pend hp⟩
    · cases hp

/-- Not pending, if being delivered. -/
def NPend (T : List Nat) (e : Entry K V E) : Prop := e.id ∈ T → e.isPending = false

theorem npend_cl {T : List Nat} : Cl (E := E) (K := K) env T (NPend T) where
  out := fun _ h h' => absurd h' h
  mark := fun e hp h h' => by have := h h'; rw [hp] at this; cases this
  cancel := fun e h h' => by
    have := h h'
    simp only [Entry.isPending, Entry.upd] at this ⊢
    cases hm : e.mapped <;> simp_all [Mapped.cancel, Mapped.isPending]
  str := fun e h h' => by
    have := h h'
    simp only [Entry.isPending, Entry.upd] at this ⊢
    cases hm : e.mapped <;> simp_all [Mapped.strengthen, Mapped.isPending]
    rename_i v
    cases env.alive v <;> rfl
  add := fun e cb h h' => by
    have := h h'
    simp only [Entry.isPending, Entry.upd] at this ⊢
    cases hm : e.mapped <;> simp_all [Mapped.addCb, Mapped.isPending]

theorem npend_weaken {T : List Nat} (e : Entry K V E) (h : NPend T e) : NPend T (e.upd (if cfg.weaken then .weaken cfg.ptr else .markExpired)) := by
  intro h'
  have := h h'
  simp only [Entry.isPending, Entry.upd] at this ⊢
  split
  · cases hm : e.mapped <;> simp_all [Mapped.weaken, Mapped.isPending]
    cases cfg.ptr <;> rfl
  · cases hm : e.mapped <;> simp_all [Mapped.markExpired, Mapped.isPending]

theorem npend_step (hc : cfg.Ok) (hr : cfg.refresh = none) {T : List Nat} (w : WF1 cfg s) (h : AllE (NPend T) s) (hT : ∀ t ∈ T, t < s.nextId) {o : Op K V E}
    (h1 : ∀ x r, o ≠ .complete x r) (h3 : ∀ r b, o ≠ .tick r b) (h4 : o ≠ .destroy) : AllE (NPend T) (step cfg env s o).1 := by
  cases o with
  | get k r =>
    have q1 := AllE.get_ (cfg := cfg) (env := env) hr npend_cl h k false
    simp only [step, get]
    split
    · refine AllE.link (cfg := cfg) (env := env) npend_cl q1 ?_
      intro q
      have := hT _ q
      have e1 : (get_ cfg env s k false).1.nextId = s.nextId := (get__shr (env := env) hc w k false).same.nextId
      have e2 : ∀ m : Mapped V E, (newEntry (get_ cfg env s k false).1 k m).id = (get_ cfg env s k false).1.nextId := fun _ => rfl
      rw [e2, e1] at this
      exact Nat.lt_irrefl _ this
    all_goals exact q1
  | _ =>
    refine AllE.step hc hr npend_cl w h hT ⟨?_, h1, h3, h4⟩ (.inl npend_weaken)
    intro k r q; cases q

/-- What holds of the cache and the completions that are going on. -/
structure HInv (cfg : Cfg K) (n : HSt K V E) : Prop where
  wf : WF1 cfg n.s
  nd : (n.frames.map (·.tok)).Nodup
  lt : ∀ f ∈ n.frames, f.tok < n.s.nextId
  fl : ∀ f ∈ n.frames, failed f.r = true → Pd f.tok (f.ran ++ f.todo) n.s
  np : AllE (NPend (delivering n)) n.s
  lim : n.s.destroyed = false → LimNP n.s
  des : n.frames ≠ [] → n.s.destroyed = false

theorem hinv_init : HInv cfg ({} : HSt K V E) := by
  refine ⟨wf1_init cfg, ?_, ?_, ?_, ?_, ?_, ?_⟩
  · simp
  · simp
  · simp
  · intro e he; cases he
  · intro _ e he; cases he
  · intro h; exact absurd rfl h

/-- The waiters a step hands in, answers and drops. -/
def askE : Ev K V E → List Nat
  | .op (.asyncGet _ w _) => [w]
  | _ => []
def firE : Ans K V E → List (Nat × Res V E)
  | .out o => o.fired
  | .ran w r => [(w, r)]
  | _ => []
def broE : Ans K V E → List Nat
  | .out o => o.broken
  | _ => []

/-- How often `w` is still to be answered by successful deliveries. -/
abbrev owedN (w : Nat) (n : HSt K V E) : Nat := ((owed n).map (·.1)).count w
/-- How often `w` has been answered by failing deliveries. -/
abbrev earlyN (w : Nat) (n : HSt K V E) : Nat := ((early n).map (·.1)).count w

theorem HInv.op (hc : cfg.Ok) (hr : cfg.refresh = none) (I : HInv cfg n) {o : Op K V E} (hok : Ev.ok cfg n (.op o)) (hj : joinsFailing cfg env n o = false) :
    HInv cfg { n with s := (step cfg env n.s o).1 } := by
  obtain ⟨k1, k2, k3, k4⟩ := hok
  have hle := (step_tokens cfg env n.s o).1
  refine ⟨step_wf1' hc hr I.wf k1, I.nd, fun f hf => Nat.lt_of_lt_of_le (I.lt f hf) hle, ?_, ?_, ?_, ?_⟩
  · intro f hf he
    have hne : n.frames ≠ [] := by intro q; rw [q] at hf; cases hf
    refine (I.fl f hf he).step hc I.wf k2 (k3 f hf) (fun r b q => hne (k4 (.inl ⟨r, b, q⟩))) (fun q => hne (k4 (.inr q))) ?_
    intro k u b q hh
    subst q
    simp only [joinsFailing, hh] at hj
    have : f.tok ∈ failing n := failing_mem.2 ⟨f, hf, he, rfl⟩
    simp [this] at hj
  · by_cases hne : n.frames = []
    · intro e _ hm
      simp [delivering, hne] at hm
    · exact npend_step hc hr I.wf I.np (fun t ht => by obtain ⟨f, hf, _, rfl⟩ := delivering_mem.1 ht; exact I.lt f hf) k2
        (fun r b q => hne (k4 (.inl ⟨r, b, q⟩))) (fun q => hne (k4 (.inr q)))
  · intro hd
    by_cases hx : o = .destroy
    · subst hx; simp [step, destroy] at hd
    · exact lim_step (I.lim ((step_destroyed cfg env n.s o hx).symm.trans hd)) hx
  · intro hne
    exact (step_destroyed cfg env n.s o (fun q => hne (k4 (.inr q)))).trans (I.des hne)

theorem HInv.opWt (hc : cfg.Ok) (hr : cfg.refresh = none) (I : HInv cfg n) {o : Op K V E} (hok : Ev.ok cfg n (.op o)) (w : Nat) :
    Wt w (step cfg env n.s o).1 + ((step cfg env n.s o).2.fired.map (·.1)).count w + (step cfg env n.s o).2.broken.count w = Wt w n.s + (askE (.op o)).count w := by
  cases o with
  | asyncGet k u b => exact Wt_asyncGet hc hr I.wf k u b w
  | tick r b => have := hok.1; simp [Op.ok, hr] at this
  | _ => exact Wt_op hc I.wf _ w (fun _ _ _ q => by cases q) (fun _ _ _ _ q => by cases q)

theorem frame_eq : ∀ {fs : List (Frame V E)}, (fs.map (·.tok)).Nodup → ∀ {f g : Frame V E}, f ∈ fs → g ∈ fs → f.tok = g.tok → f = g
  | [], _, _, _, hf, _, _ => by cases hf
  | a :: l, hn, f, g, hf, hg, h => by
    simp only [List.map_cons, List.nodup_cons, List.mem_map, not_exists, not_and] at hn
    rcases List.mem_cons.1 hf with rfl | hf' <;> rcases List.mem_cons.1 hg with rfl | hg'
    · rfl
    · exact absurd h.symm (hn.1 g hg')
    · exact absurd h (hn.1 f hf')
    · exact frame_eq hn.2 hf' hg' h

theorem np_atId {T : List Nat} (h : AllE (NPend T) s) (i : Nat) {f : Entry K V E → Entry K V E} (hf : ∀ e, e.id = i → (f e).isPending = false) :
    AllE (NPend T) (s.modify i f) := h.modify i f (fun e he _ _ => hf e he)

theorem HInv.begin_ (hr : cfg.refresh = none) (I : HInv cfg n) {x : Nat} {r : Res V E} (hok : Ev.ok cfg n (.begin x r : Ev K V E)) {a : Ans K V E}
    (hb : Handlers.begin_ cfg env n x r = .ok n1 a) :
    HInv cfg n1 ∧ ∀ w, Wt w n1.s + owedN w n1 + ((firE a).map (·.1)).count w + (broE a).count w + earlyN w n = Wt w n.s + owedN w n + earlyN w n1 := by
  simp only [Handlers.begin_] at hb
  split at hb
  · rename_i ho
    split at hb
    · cases hb
    · rename_i e he
      have hmem : e ∈ n.s.ents ++ n.s.limbo := List.mem_of_find?_eq_some he
      have hid : e.id = x := by simpa using List.find?_some he
      have hlt : x < n.s.nextId := hid ▸ I.wf.lt e hmem
      split at hb
      · rename_i p hp
        have hnd : (x :: n.frames.map (·.tok)).Nodup := by
          refine List.nodup_cons.2 ⟨fun q => ?_, I.nd⟩
          obtain ⟨f, hf, hfx⟩ := List.mem_map.1 q
          exact hok f hf hfx
        have hpe : e.isPending = true := by simp [Entry.isPending, hp, Mapped.isPending]
        have hents : e ∈ n.s.ents := by
          rcases List.mem_append.1 hmem with q | q
          · exact q
          · have := I.lim ho.2 e q; rw [hpe] at this; cases this
        cases r with
        | ok v =>
          simp only [Outcome.ok.injEq] at hb
          obtain ⟨rfl, rfl⟩ := hb
          refine ⟨⟨I.wf.modify x (IdKey.upd _), hnd, ?_, ?_, ?_, ?_, fun _ => ho.2⟩, fun w => ?_⟩
          · intro f hf
            rcases List.mem_cons.1 hf with rfl | hf
            · exact hlt
            · exact I.lt f hf
          · intro f hf hfe
            rcases List.mem_cons.1 hf with rfl | hf
            · cases hfe
            · exact (I.fl f hf hfe).modify x (fun _ q => absurd q.symm (hok f hf))
          · intro y hy hT
            have hdl : y.id = x ∨ y.id ∈ delivering n := by
              obtain ⟨f, hf, hfe, hft⟩ := delivering_mem.1 hT
              rcases List.mem_cons.1 hf with rfl | hf
              · exact .inl hft.symm
              · exact .inr (delivering_mem.2 ⟨f, hf, hfe, hft⟩)
            rw [show (n.s.modify x (·.upd (fun _ => .value v))).ents = _ from ents_modify _ _ _,
              show (n.s.modify x (·.upd (fun _ => .value v))).limbo = _ from limbo_modify _ _ _, ← List.map_append] at hy
            obtain ⟨z, hz, rfl⟩ := List.mem_map.1 hy
            unfold atId at hdl ⊢
            split
            · rfl
            · rename_i hne
              rw [if_neg hne] at hdl
              exact I.np z hz (hdl.resolve_left hne)
          · intro hd
            exact (I.lim ho.2).modify x (fun _ _ => rfl)
          · have h1 := Wt_release (w := w) (s := n.s) (f := (·.upd (fun _ => .value v))) I.wf.ids (fun _ => rfl) x
            rw [he] at h1
            simp only [Option.map_some, Option.getD_some, hp, Mapped.cbs] at h1
            simp only [owedN, earlyN, owed, early, List.flatMap_cons, failed, firE, broE, List.map_nil, List.count_nil, List.map_append, List.count_append,
              List.map_map, Bool.false_eq_true, if_false, List.nil_append]
            have e1 : ((fun x : Nat × Res V E => x.1) ∘ fun w => (w, (.ok v : Res V E))) = id := rfl
            rw [e1, List.map_id]
            omega
        | err x' =>
          simp only [Outcome.ok.injEq] at hb
          obtain ⟨rfl, rfl⟩ := hb
          refine ⟨⟨I.wf, hnd, ?_, ?_, ?_, I.lim, fun _ => ho.2⟩, fun w => ?_⟩
          · intro f hf
            rcases List.mem_cons.1 hf with rfl | hf
            · exact hlt
            · exact I.lt f hf
          · intro f hf hfe
            rcases List.mem_cons.1 hf with rfl | hf
            · exact ⟨e, hents, hid, hpe, by simp [hp, Mapped.cbs]⟩
            · exact I.fl f hf hfe
          · intro y hy hT
            refine I.np y hy ?_
            obtain ⟨f, hf, hfe, hft⟩ := delivering_mem.1 hT
            rcases List.mem_cons.1 hf with rfl | hf
            · cases hfe
            · exact delivering_mem.2 ⟨f, hf, hfe, hft⟩
          · simp [owedN, earlyN, owed, early, failed, firE, broE, users]
      · cases hb
  · rename_i ho
    simp only [Outcome.ok.injEq] at hb
    obtain ⟨rfl, rfl⟩ := hb
    refine ⟨⟨complete_wf1' hr I.wf x r, I.nd, ?_, ?_, ?_, ?_, ?_⟩, fun w => ?_⟩
    · intro f hf
      exact Nat.lt_of_lt_of_le (I.lt f hf) (step_tokens cfg env n.s (.complete x r)).1
    · intro f hf hfe
      exact (I.fl f hf hfe).complete (hok f hf) r
    · intro y hy hT
      have hne : n.frames ≠ [] := by
        intro q
        obtain ⟨f, hf, _⟩ := delivering_mem.1 hT
        simp only at hf
        rw [q] at hf; cases hf
      have hx : x ∉ n.s.opens := fun q => ho ⟨q, I.des hne⟩
      have e1 : (complete cfg env n.s x r).1 = n.s := by rw [complete_neg hx]
      simp only at hy
      rw [e1] at hy
      exact I.np y hy hT
    · intro hd
      have e1 := step_destroyed cfg env n.s (.complete x r) (by intro q; cases q)
      exact lim_complete (I.lim (e1.symm.trans hd)) x r
    · intro hne
      exact (step_destroyed cfg env n.s (.complete x r) (by intro q; cases q)).trans (I.des hne)
    · have := Wt_complete (cfg := cfg) (env := env) I.wf.ids w x r
      simp only [firE, broE, owedN, earlyN, owed, early]
      omega

theorem HInv.next_ (I : HInv cfg n) {a : Ans K V E} (hb : Handlers.next_ cfg n = .ok n1 a) :
    HInv cfg n1 ∧ ∀ w, Wt w n1.s + owedN w n1 + ((firE a).map (·.1)).count w + (broE a).count w + earlyN w n = Wt w n.s + owedN w n + earlyN w n1 := by
  simp only [Handlers.next_] at hb
  split at hb
  · simp only [Outcome.ok.injEq] at hb
    obtain ⟨rfl, rfl⟩ := hb
    exact ⟨I, fun w => by simp [firE, broE]⟩
  · rename_i f fs hfs
    -- replacing the innermost completion by one with the same lookup and callbacks
    have key : ∀ (g : Frame V E) (s' : St K V E), g.tok = f.tok → g.r = f.r → g.ran ++ g.todo = f.ran ++ f.todo → WF1 cfg s' → n.s.nextId ≤ s'.nextId →
        (∀ t C, Pd t C n.s → Pd t C s') → (∀ T, AllE (NPend T) n.s → AllE (NPend T) s') → (LimNP n.s → LimNP s') → s'.destroyed = n.s.destroyed →
        HInv cfg ({ s := s', frames := g :: fs } : HSt K V E) := by
      intro g s' h1 h2 h3 w' hle hP hN hL hD
      refine ⟨w', ?_, ?_, ?_, ?_, fun hd => hL (I.lim (hD.symm.trans hd)), fun _ => hD.trans (I.des (by rw [hfs]; simp))⟩
      · have := I.nd; rw [hfs] at this; simpa [h1] using this
      · intro x hx
        rcases List.mem_cons.1 hx with rfl | hx
        · rw [h1]; exact Nat.lt_of_lt_of_le (I.lt f (by rw [hfs]; simp)) hle
        · exact Nat.lt_of_lt_of_le (I.lt x (by rw [hfs]; simp [hx])) hle
      · intro x hx hxe
        rcases List.mem_cons.1 hx with rfl | hx
        · rw [h1, h3]; exact hP _ _ (I.fl f (by rw [hfs]; simp) (h2 ▸ hxe))
        · exact hP _ _ (I.fl x (by rw [hfs]; simp [hx]) hxe)
      · have : delivering ({ s := s', frames := g :: fs } : HSt K V E) = delivering n := by
          simp only [delivering, hfs, List.filter_cons, h2]
          split <;> simp [h1]
        rw [this]
        exact hN _ I.np
    split at hb
    · simp only [Outcome.ok.injEq] at hb
      obtain ⟨rfl, rfl⟩ := hb
      exact ⟨I, fun w => by simp [firE, broE]⟩
    · rename_i u cbs htodo
      split at hb
      · cases hb
      · simp only [Outcome.ok.injEq] at hb
        obtain ⟨rfl, rfl⟩ := hb
        refine ⟨key _ _ rfl rfl (by simp [htodo]) I.wf (Nat.le_refl _) (fun _ _ h => h) (fun _ h => h) (fun h => h) rfl, fun w => ?_⟩
        simp only [owedN, earlyN, owed, early, hfs, List.flatMap_cons, firE, broE, htodo, users_append, List.map_append, List.count_append, List.count_nil]
        cases failed f.r <;> simp [users, List.count_cons, Function.comp_def] <;> omega
    · rename_i old cbs htodo
      simp only [Outcome.ok.injEq] at hb
      obtain ⟨rfl, rfl⟩ := hb
      refine ⟨key _ _ rfl rfl (by simp [htodo]) (runCb_wf1 I.wf _ _) (Nat.le_refl _) (fun _ _ h => h.runCb _ _) ?_ (fun h => lim_runCb h _ _) rfl, fun w => ?_⟩
      · intro T h
        simp only [runCb]
        refine AllE.modify (AllE.modify h _ (fun e => { e with canTp := tpMin e.canTp _ }) (fun e _ he => he)) _ _ (fun e _ he hT => ?_)
        have := he hT
        simp only [Entry.isPending, Entry.upd] at this ⊢
        cases hm : e.mapped <;> simp_all [Mapped.markExpired, Mapped.isPending]
      · simp only [owedN, earlyN, owed, early, hfs, List.flatMap_cons, firE, broE, htodo, users_append, List.map_append, List.count_append, List.count_nil, Wt_runCb]
        cases failed f.r <;> simp [users, Function.comp_def]

theorem settled_np {f : Frame V E} {m : Mapped V E} (h : m.isPending = false) : (settled cfg f m).isPending = false := by
  unfold settled
  split
  · rfl
  · split
    · split
      · cases m <;> first | rfl | cases h
      · rfl
    · exact h

theorem AllE.nassign {T : List Nat} (h : AllE (NPend T) s) (i : Nat) (b : Bool) : AllE (NPend T) (onAssign cfg env s i b) := by
  have h1 : AllE (NPend T) (s.modify i (assignTimes cfg env b)) := h.modify i _ (fun e _ he hT => by
    have hi : (assignTimes cfg env b e).id = e.id := (assignTimes_idKey cfg env b e).1
    rw [hi] at hT
    have := he hT
    unfold Entry.isPending at this ⊢
    rw [(assignTimes_mapped cfg env b e).1]; exact this)
  simp only [onAssign]
  split
  · exact h1
  · exact h1

theorem HInv.finish_ (hr : cfg.refresh = none) (I : HInv cfg n) (hok : Ev.ok cfg n (.finish : Ev K V E)) {a : Ans K V E} (hb : Handlers.finish_ cfg env n = .ok n1 a) :
    HInv cfg n1 ∧ ∀ w, Wt w n1.s + owedN w n1 + ((firE a).map (·.1)).count w + (broE a).count w + earlyN w n = Wt w n.s + owedN w n + earlyN w n1 := by
  obtain ⟨f, fs, hfs, htodo⟩ := hok
  simp only [Handlers.finish_, hfs] at hb
  split at hb
  · cases hb
  · simp only [Outcome.ok.injEq] at hb
    obtain ⟨rfl, rfl⟩ := hb
    have hfm : f ∈ n.frames := by rw [hfs]; simp
    have hd := I.des (by rw [hfs]; simp)
    have hn := I.nd
    rw [hfs] at hn
    simp only [List.map_cons, List.nodup_cons, List.mem_map, not_exists, not_and] at hn
    -- what is known of the entry
    have key : ∀ s1 : St K V E, (∃ g : Mapped V E → Mapped V E, s1 = n.s.modify f.tok (·.upd g) ∧ (∀ m : Mapped V E, m.isPending = false → (g m).isPending = false)) →
        HInv cfg ({ s := { onAssign cfg env s1 f.tok (!failed f.r) with opens := (onAssign cfg env s1 f.tok (!failed f.r)).opens.erase f.tok }, frames := fs } : HSt K V E) := by
      rintro s1 ⟨g, rfl, hg⟩
      have sm := onAssign_same cfg env (n.s.modify f.tok (·.upd g)) f.tok (!failed f.r)
      refine ⟨withOpens_wf1 (assign_wf1 hr (I.wf.modify _ (IdKey.upd _)) _ _) _, hn.2, ?_, ?_, ?_, ?_, ?_⟩
      · intro x hx
        have := I.lt x (by rw [hfs]; simp [hx])
        show x.tok < (onAssign cfg env (n.s.modify f.tok (·.upd g)) f.tok (!failed f.r)).nextId
        rw [sm.nextId]; exact this
      · intro x hx hxe
        have hne : x.tok ≠ f.tok := hn.1 x hx
        exact Pd.same (((I.fl x (by rw [hfs]; simp [hx]) hxe).modify f.tok (fun _ q => absurd q.symm hne)).assign hne _) rfl
      · have h1 : AllE (NPend (delivering n)) (n.s.modify f.tok (·.upd g)) := I.np.modify _ _ (fun e _ he hT => hg _ (he hT))
        have h2 := AllE.nassign (cfg := cfg) (env := env) h1 f.tok (!failed f.r)
        intro e he hT
        refine h2 e he ?_
        obtain ⟨x, hx, h3, h4⟩ := delivering_mem.1 hT
        exact delivering_mem.2 ⟨x, by rw [hfs]; exact List.mem_cons_of_mem _ hx, h3, h4⟩
      · intro _
        have h1 : LimNP (n.s.modify f.tok (·.upd g)) := (I.lim hd).modify _ (fun e he => hg _ he)
        exact (lim_assign (cfg := cfg) (env := env) h1 f.tok (!failed f.r)).same rfl
      · intro _
        show (onAssign cfg env (n.s.modify f.tok (·.upd g)) f.tok (!failed f.r)).destroyed = false
        rw [sm.destroyed]; exact hd
    have wtA : ∀ (w : Nat) (s1 : St K V E), Wt w ({ onAssign cfg env s1 f.tok (!failed f.r) with opens := (onAssign cfg env s1 f.tok (!failed f.r)).opens.erase f.tok } : St K V E) = Wt w s1 := by
      intro w s1
      exact (Wt_congr rfl rfl).trans (Wt_onAssign (cfg := cfg) (env := env) w s1 f.tok (!failed f.r))
    cases hf : failed f.r with
    | true =>
      rw [hf] at key wtA
      simp only [if_true]
      refine ⟨key _ ⟨_, rfl, fun m _ => completed_notPending cfg f.r m⟩, fun w => ?_⟩
      rw [wtA]
      have h1 := Wt_release (w := w) (s := n.s) (f := (·.upd (completed cfg f.r))) I.wf.ids (fun e => cbs_completed _ _) f.tok
      have h2 : cbsOf n.s f.tok = f.ran ++ f.todo := (I.fl f hfm hf).cbsOf I.wf
      simp only [cbsOf] at h2
      rw [h2, htodo, List.append_nil] at h1
      simp only [owedN, earlyN, owed, early, hfs, List.flatMap_cons, firE, broE, hf, if_true, List.map_append, List.count_append, List.count_nil, List.map_nil, List.map_map,
        List.nil_append]
      have e1 : ((fun x : Nat × Res V E => x.1) ∘ fun w => (w, f.r)) = id := rfl
      rw [e1, List.map_id]
      omega
    | false =>
      rw [hf] at key wtA
      simp only [Bool.false_eq_true, if_false]
      refine ⟨key _ ⟨_, rfl, fun m hm => settled_np hm⟩, fun w => ?_⟩
      rw [wtA]
      have hdl : f.tok ∈ delivering n := delivering_mem.2 ⟨f, hfm, hf, rfl⟩
      have h1 : Wt w (n.s.modify f.tok (·.upd (settled cfg f))) = Wt w n.s := by
        cases hfa : n.s.findAny f.tok with
        | none => exact Wt_modify_none hfa
        | some e =>
          have hm : e ∈ n.s.ents ++ n.s.limbo := List.mem_of_find?_eq_some hfa
          have hi : e.id = f.tok := by simpa using List.find?_some hfa
          have h1 := Wt_modify_at (w := w) (f := (·.upd (settled cfg f))) I.wf.ids hm
          have hp : e.isPending = false := I.np e hm (hi ▸ hdl)
          have h2 : wt w e = 0 := by unfold wt; rw [cbs_of_not_pending hp]; rfl
          have h3 : wt w (e.upd (settled cfg f)) = 0 := by
            unfold wt; rw [cbs_of_not_pending (e := e.upd (settled cfg f)) (settled_np hp)]; rfl
          rw [h2, h3, hi] at h1
          simpa using h1
      rw [h1]
      simp only [owedN, earlyN, owed, early, hfs, List.flatMap_cons, firE, broE, hf, htodo, users, Bool.false_eq_true, if_false, List.map_append, List.count_append,
        List.count_nil, List.map_nil, List.filterMap_nil, List.nil_append]
      omega

theorem HInv.next (hc : cfg.Ok) (hr : cfg.refresh = none) (I : HInv cfg n) {e : Ev K V E} (hok : e.ok cfg n) {a : Ans K V E} (hb : Handlers.next cfg env n e = .ok n1 a) :
    HInv cfg n1 ∧ ∀ w, Wt w n1.s + owedN w n1 + ((firE a).map (·.1)).count w + (broE a).count w + earlyN w n = Wt w n.s + owedN w n + earlyN w n1 + (askE e).count w := by
  cases e with
  | op o =>
    simp only [Handlers.next] at hb
    split at hb
    · cases hb
    · rename_i hj
      simp only [Outcome.ok.injEq] at hb
      obtain ⟨rfl, rfl⟩ := hb
      refine ⟨I.op hc hr hok (by simpa using hj), fun w => ?_⟩
      have := I.opWt (env := env) hc hr hok w
      simp only [firE, broE, owedN, earlyN, owed, early]
      omega
  | begin x r => obtain ⟨h1, h2⟩ := I.begin_ hr hok hb; exact ⟨h1, fun w => by simpa [askE] using h2 w⟩
  | next => obtain ⟨h1, h2⟩ := I.next_ hb; exact ⟨h1, fun w => by simpa [askE] using h2 w⟩
  | finish => obtain ⟨h1, h2⟩ := I.finish_ hr hok hb; exact ⟨h1, fun w => by simpa [askE] using h2 w⟩

theorem answeredH_cons (a : Ans K V E) (as : List (Ans K V E)) : answeredH (a :: as) = firE a ++ answeredH as := by
  simp only [answeredH, List.flatMap_cons]; cases a <;> rfl
theorem brokenH_cons (a : Ans K V E) (as : List (Ans K V E)) : brokenH (a :: as) = broE a ++ brokenH as := by
  simp only [brokenH, List.flatMap_cons]; cases a <;> rfl
theorem askedH_cons (env : Env V) (e : Ev K V E) (h : HHist K V E) : askedH ((env, e) :: h) = askE e ++ askedH h := by
  simp only [askedH, List.flatMap_cons]
  cases e with
  | op o => cases o <;> rfl
  | _ => rfl

/-- Every waiter is accounted for. -/
theorem HInv.run (hc : cfg.Ok) (hr : cfg.refresh = none) : ∀ (h : HHist K V E) {n n1 : HSt K V E} {as : List (Ans K V E)}, HInv cfg n → HOk cfg n h → runH cfg n h = some (n1, as) →
    HInv cfg n1 ∧ ∀ w, Wt w n1.s + owedN w n1 + ((answeredH as).map (·.1)).count w + (brokenH as).count w + earlyN w n = Wt w n.s + owedN w n + earlyN w n1 + (askedH h).count w
  | [], n, n1, as, I, _, hh => by
    simp only [runH, Option.some.injEq, Prod.mk.injEq] at hh
    obtain ⟨rfl, rfl⟩ := hh
    exact ⟨I, fun w => by simp [answeredH, brokenH, askedH]⟩
  | (env, e) :: h, n, n1, as, I, hok, hh => by
    simp only [runH] at hh
    cases hs : Handlers.next cfg env n e with
    | ub => rw [hs] at hh; cases hh
    | crash => rw [hs] at hh; cases hh
    | ok m a =>
      rw [hs] at hh
      simp only at hh
      cases hr2 : runH cfg m h with
      | none => rw [hr2] at hh; cases hh
      | some q =>
        obtain ⟨n2, bs⟩ := q
        rw [hr2] at hh
        simp only [Option.some.injEq, Prod.mk.injEq] at hh
        obtain ⟨rfl, rfl⟩ := hh
        obtain ⟨I1, A⟩ := I.next hc hr hok.1 hs
        obtain ⟨I2, B⟩ := HInv.run hc hr h I1 (hok.2 m a hs) hr2
        refine ⟨I2, fun w => ?_⟩
        have := A w; have := B w
        rw [answeredH_cons, brokenH_cons, askedH_cons]
        simp only [List.map_append, List.count_append]
        omega

/-- Those that have been answered by a failing delivery are still in the list of that lookup. -/
theorem early_sum (w : Nat) : ∀ (fs : List (Frame V E)) (l : List (Entry K V E)), (fs.map (·.tok)).Nodup →
    (∀ f ∈ fs, failed f.r = true → ∃ e ∈ l, e.id = f.tok ∧ e.mapped.cbs = f.ran ++ f.todo) →
    ((fs.flatMap (fun f => if failed f.r then (users f.ran).map (fun w => (w, f.r)) else [])).map (·.1)).count w ≤ Wl w l
  | [], _, _, _ => by simp
  | f :: fs, l, hn, h => by
    simp only [List.map_cons, List.nodup_cons, List.mem_map, not_exists, not_and] at hn
    have hrec := fun l' h' => early_sum w fs l' hn.2 h'
    simp only [List.flatMap_cons, List.map_append, List.count_append]
    cases hf : failed f.r with
    | false =>
      simp only [Bool.false_eq_true, if_false, List.map_nil, List.count_nil, Nat.zero_add]
      exact hrec l (fun g hg => h g (List.mem_cons_of_mem _ hg))
    | true =>
      obtain ⟨e, he, hi, hcb⟩ := h f (List.mem_cons_self ..) hf
      obtain ⟨a, b, rfl⟩ := List.append_of_mem he
      have := hrec (a ++ b) (fun g hg hge => by
        obtain ⟨x, hx, hxi, hxc⟩ := h g (List.mem_cons_of_mem _ hg) hge
        refine ⟨x, ?_, hxi, hxc⟩
        simp only [List.mem_append, List.mem_cons] at hx ⊢
        rcases hx with hx | rfl | hx
        · exact .inl hx
        · exact absurd (hxi.symm.trans hi) (hn.1 g hg)
        · exact .inr hx)
      have e1 : ((fun x : Nat × Res V E => x.1) ∘ fun w => (w, f.r)) = id := rfl
      simp only [if_true, List.map_map]
      rw [e1, List.map_id]
      have e2 : (users f.ran).count w ≤ wt w e := by
        unfold wt; rw [hcb, users_append, List.count_append]; omega
      have e3 : Wl w (a ++ e :: b) = Wl w (a ++ b) + wt w e := by
        simp only [Wl, List.map_append, List.map_cons, List.sum_append, List.sum_cons]; omega
      omega

theorem HInv.early_le (I : HInv cfg n) (w : Nat) : earlyN w n ≤ Wt w n.s := by
  have := early_sum w n.frames n.s.ents I.nd (fun f hf he => by
    obtain ⟨e, h1, h2, _, h4⟩ := I.fl f hf he
    exact ⟨e, h1, h2, h4⟩)
  unfold Wt
  simp only [earlyN, early]
  omega

/-- Nobody waits in a destroyed cache. -/
theorem dead_run (hc : cfg.Ok) (hr : cfg.refresh = none) : ∀ (h : HHist K V E) {n n1 : HSt K V E} {as : List (Ans K V E)}, HInv cfg n → (n.s.destroyed = true → ∀ w, Wt w n.s = 0) →
    HOk cfg n h → runH cfg n h = some (n1, as) → n1.s.destroyed = true → ∀ w, Wt w n1.s = 0
  | [], n, n1, as, I, hz, _, hh => by
    simp only [runH, Option.some.injEq, Prod.mk.injEq] at hh
    obtain ⟨rfl, rfl⟩ := hh
    exact hz
  | (env, e) :: h, n, n1, as, I, hz, hok, hh => by
    simp only [runH] at hh
    cases hs : Handlers.next cfg env n e with
    | ub => rw [hs] at hh; cases hh
    | crash => rw [hs] at hh; cases hh
    | ok m a =>
      rw [hs] at hh
      simp only at hh
      cases hr2 : runH cfg m h with
      | none => rw [hr2] at hh; cases hh
      | some q =>
        obtain ⟨n2, bs⟩ := q
        rw [hr2] at hh
        simp only [Option.some.injEq, Prod.mk.injEq] at hh
        obtain ⟨rfl, rfl⟩ := hh
        obtain ⟨I1, A⟩ := I.next hc hr hok.1 hs
        refine dead_run hc hr h I1 ?_ (hok.2 m a hs) hr2
        intro hdm w
        have hno : ∀ x : HSt K V E, x.frames = [] → owedN w x = 0 ∧ earlyN w x = 0 := by
          intro x hx; simp [owedN, earlyN, owed, early, hx]
        have hfm : m.frames = [] := Classical.byContradiction fun q => by have := I1.des q; rw [hdm] at this; cases this
        cases hdn : n.s.destroyed with
        | true =>
          have hfn : n.frames = [] := Classical.byContradiction fun q => by have := I.des q; rw [hdn] at this; cases this
          have h1 := A w
          have hask : askE e = [] := by
            cases e with
            | op o =>
              cases o with
              | asyncGet k u b => have := hok.1.1.2; rw [hdn] at this; cases this
              | _ => rfl
            | _ => rfl
          rw [hz hdn w, hask, (hno n hfn).1, (hno n hfn).2, (hno m hfm).1, (hno m hfm).2] at h1
          simp only [List.count_nil] at h1
          omega
        | false =>
          cases e with
          | op o =>
            simp only [Handlers.next] at hs
            split at hs
            · cases hs
            · simp only [Outcome.ok.injEq] at hs
              obtain ⟨rfl, _⟩ := hs
              by_cases ho : o = .destroy
              · subst ho
                have h1 := I.lim hdn
                simp only [step, destroy]
                unfold Wt
                have h2 : Wl w (dispose cfg ({ n.s with tbl := n.s.tbl.map (fun _ => []) } : St K V E) n.s.ents).ents = 0 := by
                  rw [dispose_ents]
                  have : ({ n.s with tbl := n.s.tbl.map (fun _ => []) } : St K V E).ents = [] := by simp [St.ents]
                  rw [this]; rfl
                have h3 := Wl_dispose (cfg := cfg) w ({ n.s with tbl := n.s.tbl.map (fun _ => []) } : St K V E) n.s.ents
                have h4 : Wl w n.s.limbo = 0 := Wl_zero (fun e he => cbs_of_not_pending (h1 e he))
                have h2' : Wl w ({ dispose cfg ({ n.s with tbl := n.s.tbl.map (fun _ => []) } : St K V E) n.s.ents with destroyed := true } : St K V E).ents = 0 := h2
                simp only [h2', h3, h4]
              · have := step_destroyed cfg env n.s o ho
                simp only at hdm
                rw [this, hdn] at hdm; cases hdm
          | begin x r =>
            exfalso
            simp only [Handlers.next, Handlers.begin_] at hs
            split at hs
            · split at hs
              · cases hs
              · split at hs
                · split at hs <;>
                  · simp only [Outcome.ok.injEq] at hs
                    obtain ⟨rfl, _⟩ := hs
                    exact absurd hfm (by simp)
                · cases hs
            · simp only [Outcome.ok.injEq] at hs
              obtain ⟨rfl, _⟩ := hs
              have := step_destroyed cfg env n.s (.complete x r) (by intro q; cases q)
              simp only [step] at this
              simp only at hdm
              rw [this, hdn] at hdm; cases hdm
          | next =>
            exfalso
            obtain ⟨f, fs, hfs, hne⟩ := hok.1
            simp only [Handlers.next, Handlers.next_, hfs] at hs
            split at hs
            · rename_i q; exact hne q
            · split at hs
              · cases hs
              · simp only [Outcome.ok.injEq] at hs
                obtain ⟨rfl, _⟩ := hs
                exact absurd hfm (by simp)
            · simp only [Outcome.ok.injEq] at hs
              obtain ⟨rfl, _⟩ := hs
              exact absurd hfm (by simp)
          | finish =>
            exfalso
            obtain ⟨f, fs, hfs, _⟩ := hok.1
            simp only [Handlers.next, Handlers.finish_, hfs] at hs
            split at hs
            · cases hs
            · simp only [Outcome.ok.injEq] at hs
              obtain ⟨rfl, _⟩ := hs
              simp only at hdm
              rw [(onAssign_same cfg env _ _ _).destroyed] at hdm
              split at hdm
              · have : n.s.destroyed = true := hdm
                rw [hdn] at this; cases this
              · have : n.s.destroyed = true := hdm
                rw [hdn] at this; cases this

end Hoard.Handlers
