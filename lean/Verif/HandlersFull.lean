import Verif.HandlersInv
/-! No entry is lost: it is in the table or it was unlinked. -/
namespace Hoard.Handlers
open Spec
variable {K V E : Type} {cfg : Cfg K} {env : Env V} {s s' : St K V E}

/-- The entry exists. -/
def Has (i : Nat) (s : St K V E) : Prop := ∃ e ∈ s.ents ++ s.limbo, e.id = i

/-- All entries ever made exist. -/
def Full (s : St K V E) : Prop := ∀ i, i < s.nextId → Has i s

theorem Full.shr {Ef : Eff K V} (h : Full s) (r : Shr cfg env Ef s s') : Full s' := by
  intro i hi
  rw [r.same.nextId] at hi
  obtain ⟨e, he, h1⟩ := h i hi
  obtain ⟨e', he', h2⟩ := r.any e he
  exact ⟨e', he', h2.id.trans h1⟩

theorem Full.modify (h : Full s) (i : Nat) {f : Entry K V E → Entry K V E} (hf : ∀ e, (f e).id = e.id) : Full (s.modify i f) := by
  intro j hj
  obtain ⟨e, he, h1⟩ := h j hj
  refine ⟨atId i f e, ?_, ?_⟩
  · rw [ents_modify, limbo_modify, ← List.map_append]
    exact List.mem_map.2 ⟨e, he, rfl⟩
  · rw [← h1]; unfold atId; split
    · exact hf e
    · rfl

theorem Full.link (h : Full s) (w : WF1 cfg s) {e : Entry K V E} (he : e.id = s.nextId) : Full (Hoard.link cfg env s e) := by
  obtain ⟨_, r, hin, _, hn, _, _⟩ := link_spc (F := ({} : Eff K V)) env w he
  intro i hi
  by_cases hx : i = e.id
  · refine ⟨_, List.mem_append_left _ hin, ?_⟩
    rw [hx, (linkUpd_facts cfg env e).1]
  · rw [hn] at hi
    obtain ⟨a, ha, h1⟩ := h i (by omega)
    obtain ⟨a', ha', h2⟩ := r.any a ha (by rw [h1]; exact hx)
    exact ⟨a', ha', h2.id.trans h1⟩

theorem Full.same (h : Full s) (h1 : s'.tbl = s.tbl) (h2 : s'.limbo = s.limbo) (h3 : s'.nextId = s.nextId) : Full s' := by
  intro i hi
  rw [h3] at hi
  have := h i hi
  unfold Has St.ents at this ⊢
  rw [h1, h2]; exact this

theorem Full.assign (h : Full s) (i : Nat) (b : Bool) : Full (onAssign cfg env s i b) := by
  refine Full.same (s := s.modify i (assignTimes cfg env b)) (h.modify i ?_) ?_ ?_ ?_
  · intro e; simp only [assignTimes]; split <;> (try split) <;> rfl
  all_goals simp only [onAssign]; split <;> rfl

theorem Full.runCbs (h : Full s) (t : Nat) (cbs : List Cb) : Full (Hoard.runCbs s t cbs) := by
  induction cbs generalizing s with
  | nil => exact h
  | cons cb cbs ih =>
    show Full (Hoard.runCbs (runCb s t cb) t cbs)
    apply ih
    cases cb with
    | user w => exact h
    | refresh old =>
      simp only [runCb]
      exact (h.modify t (by simp)).modify _ (by simp [Entry.upd])

theorem Full.complete (h : Full s) (t : Nat) (r : Res V E) : Full (Hoard.complete cfg env s t r).1 := by
  by_cases ho : t ∈ s.opens
  · cases hd : s.destroyed with
    | true => rw [complete_dead ho hd]; exact (h.modify t (by simp [Entry.upd])).same rfl rfl rfl
    | false =>
      rw [complete_pos ho hd]
      exact Full.same (((h.runCbs t _).modify t (by simp [Entry.upd])).assign t r.isOk) rfl rfl rfl
  · rw [complete_neg ho]; exact h

theorem Full.drop (h : Full s) (t : Nat) : Full (Hoard.drop s t).1 := by
  by_cases ho : t ∈ s.opens
  · rw [drop_pos ho]
    exact (h.modify t (by simp [Entry.upd])).same rfl rfl rfl
  · rw [drop_neg ho]; exact h

theorem Full.tryLink (h : Full s) (w : WF1 cfg s) {e : Entry K V E} (he : e.id = s.nextId) (f : Fail) : Full (Hoard.tryLink cfg env s e f).1 := by
  rcases tryLink_cases cfg env s e f with h1 | h1 | h1 <;> rw [h1]
  · exact h.link w he
  · exact h
  · exact h.shr (beforeLink_shr (env := env) (F := ({} : Eff K V)) w)

theorem tryLink_wf1' (w : WF1 cfg s) {e : Entry K V E} (he : e.id = s.nextId) (f : Fail) : WF1 cfg (Hoard.tryLink cfg env s e f).1 := by
  rcases tryLink_cases cfg env s e f with h1 | h1 | h1 <;> rw [h1]
  · exact (link_spc (F := ({} : Eff K V)) env w he).1
  · exact w
  · exact beforeLink_wf1 w env

theorem Full.step (hc : cfg.Ok) (hr : cfg.refresh = none) (w : WF1 cfg s) (h : Full s) {o : Op K V E} (ho : o.ok cfg s) : Full (Hoard.step cfg env s o).1 := by
  cases o with
  | getIfExists k => exact h
  | count => exact h
  | tick r b => simp [Op.ok, hr] at ho
  | get k r =>
    have h1 : Full (get_ cfg env s k false).1 := h.shr (get__shr (env := env) hc w k false)
    have w1 := get__wf1 hc w env k false
    simp only [Hoard.step, get]
    split
    · exact h1.link w1 rfl
    all_goals exact h1
  | complete t r => exact h.complete t r
  | drop t => exact h.drop t
  | destroy =>
    intro i hi
    obtain ⟨e, he, h1⟩ := h i (by simpa [Hoard.step, destroy, (dispose_fields cfg _ _).2.2.1] using hi)
    simp only [Hoard.step, destroy]
    have hl : (dispose cfg { s with tbl := s.tbl.map (fun _ => []) } s.ents).limbo = s.limbo ++ s.ents.map (·.upd .cancel) := (dispose_fields cfg _ _).2.1
    rcases List.mem_append.1 he with he | he
    · refine ⟨e.upd .cancel, List.mem_append_right _ ?_, h1⟩
      show _ ∈ (dispose cfg { s with tbl := s.tbl.map (fun _ => []) } s.ents).limbo
      rw [hl]
      exact List.mem_append_right _ (List.mem_map.2 ⟨e, he, rfl⟩)
    · refine ⟨e, List.mem_append_right _ ?_, h1⟩
      show _ ∈ (dispose cfg { s with tbl := s.tbl.map (fun _ => []) } s.ents).limbo
      rw [hl]
      exact List.mem_append_left _ he
  | erase k => exact h.shr (expire_shr (env := env) (F := { die := fun _ _ _ => True }) hc w k (fun _ _ _ _ => trivial))
  | clear => exact h.shr (clear_shr (env := env) (F := { die := fun _ _ _ => True }) w (fun _ _ _ => trivial))
  | emplace k v f =>
    simp only [Hoard.step, emplace]
    have h1 : Full (expire_ cfg env s k) := h.shr (expire_shr (env := env) (F := { die := fun _ _ _ => True }) hc w k (fun _ _ _ _ => trivial))
    have w1 := expire_wf1 hc w env k
    have h2 := h1.tryLink (env := env) w1 (e := newEntry (expire_ cfg env s k) k (.value v)) rfl f
    have w2 := tryLink_wf1' (env := env) w1 (e := newEntry (expire_ cfg env s k) k (.value v : Mapped V E)) rfl f
    split
    · exact h2.shr (maintenance_shr env w2)
    · exact h2
  | getOrEmplace k v f =>
    have h1 : Full (get_ cfg env s k true).1 := h.shr (get__shr (env := env) hc w k true)
    have w1 := get__wf1 hc w env k true
    simp only [Hoard.step, getOrEmplace]
    generalize Hoard.get_ cfg env s k true = g at *
    obtain ⟨s1, l⟩ := g
    simp only at *
    have h2 := h1.tryLink (env := env) w1 (e := newEntry s1 k (.value v)) rfl f
    have w2 := tryLink_wf1' (env := env) w1 (e := newEntry s1 k (.value v : Mapped V E)) rfl f
    cases l with
    | none =>
      simp only
      split
      · exact h2.shr (maintenance_shr env w2)
      · exact h2
    | _ => exact h1.shr (maintenance_shr env w1)
  | asyncGet k x b =>
    have h1 : Full (get_ cfg env s k true).1 := h.shr (get__shr (env := env) hc w k true)
    have w1 := get__wf1 hc w env k true
    have ha : ∀ {s : St K V E} (i w : Nat) (l : Look V E), Full s → Full (answer s i w l).1 := by
      intro s i w l hs
      cases l with
      | pend => exact hs.modify i (by simp [Entry.upd])
      | _ => exact hs
    simp only [Hoard.step, asyncGet]
    split
    · exact ha _ _ _ h1
    · apply ha
      have h2 : Full (Hoard.link cfg env (get_ cfg env s k true).1 (newEntry (get_ cfg env s k true).1 k (.pending {}))) := h1.link w1 rfl
      simp only [resolveAsync]
      generalize Hoard.link cfg env (get_ cfg env s k true).1 (newEntry (get_ cfg env s k true).1 k (.pending {})) = s2 at h2
      cases b with
      | later => exact h2.same rfl rfl rfl
      | now r => exact Full.complete (s := withOpens (s2.opens ++ [(get_ cfg env s k true).1.nextId]) s2) (h2.same rfl rfl rfl) _ _
      | drop => exact Full.drop (s := withOpens (s2.opens ++ [(get_ cfg env s k true).1.nextId]) s2) (h2.same rfl rfl rfl) _

theorem full_hist (hc : cfg.Ok) (hr : cfg.refresh = none) (F : Hist K V E) (hok : HistOk cfg St.init F) : Full (stateAfter cfg F) := by
  induction F using snoc_ind with
  | h0 => intro i hi; simp [stateAfter, run, St.init] at hi
  | h1 F a ih =>
    obtain ⟨env, o⟩ := a
    rw [HistOk_append] at hok
    rw [stateAfter_snoc]
    exact (ih hok.1).step hc hr (good_any hc F hok.1 env).wf1 hok.2.1

end Hoard.Handlers
