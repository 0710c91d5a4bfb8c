import Verif.Worker
import Verif.ReclaimLemmas
/-! Helper lemmas about the refresh worker. -/
namespace Hoard
variable {K V E : Type} {cfg : Cfg K} {env : Env V} {F : Eff K V} {s s' s'' : St K V E}

/-! ### Due times of the entries of the delay queue -/

/-- No entry gets a new due time and none is added to the delay queue. -/
structure SubQ (s s' : St K V E) : Prop where
  bwd : ∀ e' ∈ s'.ents, ∃ e ∈ s.ents, e.id = e'.id ∧ e.refTp = e'.refTp
  dq : ∀ i ∈ s'.delayQ, i ∈ s.delayQ

/-- Every entry of the delay queue was there before with the same due time, or is due `d` from now. -/
def Back (d : Int) (env : Env V) (s s' : St K V E) : Prop :=
  ∀ e' ∈ s'.ents, e'.id ∈ s'.delayQ → (∃ e ∈ s.ents, e.id = e'.id ∧ e.id ∈ s.delayQ ∧ e.refTp = e'.refTp) ∨ e'.refTp = some (env.now + d)

variable {d : Int}

theorem SubQ.back (h : SubQ s s') : Back d env s s' := by
  intro e' he' hq
  obtain ⟨e, he, hi, ht⟩ := h.bwd e' he'
  exact .inl ⟨e, he, hi, hi ▸ h.dq _ hq, ht⟩

theorem Back.refl (s : St K V E) : Back d env s s := fun e he hq => .inl ⟨e, he, rfl, hq, rfl⟩

theorem Back.trans (h : Back d env s s') (h' : Back d env s' s'') : Back d env s s'' := by
  intro e he hq
  rcases h' e he hq with ⟨e1, h1, h2, h3, h4⟩ | h1
  · rcases h e1 h1 h3 with ⟨e0, h5, h6, h7, h8⟩ | h5
    · exact .inl ⟨e0, h5, h6.trans h2, h7, h8.trans h4⟩
    · exact .inr (h4 ▸ h5)
  · exact .inr h1

theorem Shr.subQ (h : Shr cfg env F s s') : SubQ s s' where
  bwd := by
    intro e' he'
    obtain ⟨e, he, sh⟩ := h.bwd e' he'
    exact ⟨e, he, sh.id.symm, sh.rft.symm⟩
  dq := fun i hi => h.dq.subset hi

theorem SubQ.map {g : Entry K V E → Entry K V E} (hents : s'.ents = s.ents.map g) (hid : ∀ e, (g e).id = e.id ∧ (g e).refTp = e.refTp)
    (hq : s'.delayQ = s.delayQ) : SubQ s s' where
  bwd := by
    intro e he
    rw [hents] at he
    obtain ⟨e0, h0, rfl⟩ := List.mem_map.1 he
    exact ⟨e0, h0, (hid e0).1.symm, (hid e0).2.symm⟩
  dq := fun i hi => hq ▸ hi

/-- `f` keeps id and due time. -/
def IdTp (f : Entry K V E → Entry K V E) : Prop := ∀ e, (f e).id = e.id ∧ (f e).refTp = e.refTp

theorem IdTp.upd (g : Mapped V E → Mapped V E) : IdTp (K := K) (fun e => e.upd g) := fun _ => ⟨rfl, rfl⟩
theorem IdTp.flag : IdTp (fun x : Entry K V E => { x with refreshing := true }) := fun _ => ⟨rfl, rfl⟩
theorem IdTp.can (tp : Option Int) : IdTp (fun x : Entry K V E => { x with canTp := tpMin x.canTp tp }) := fun _ => ⟨rfl, rfl⟩

theorem SubQ.modify (s : St K V E) (i : Nat) {f : Entry K V E → Entry K V E} (hf : IdTp f) :
    SubQ s (s.modify i f) := by
  refine .map (g := atId i f) (ents_modify _ _ _) (fun e => ?_) rfl
  unfold atId; split
  · exact hf e
  · exact ⟨rfl, rfl⟩

/-- An effect that allows everything, except taking entries off the delay queue. -/
def anyEff : Eff K V := { die := fun _ _ _ => True, hit := fun _ => True, vic := fun _ => True, flag := fun _ => True }

theorem onHit_subQ (i : Nat) : SubQ s (onHit cfg env s i) := by
  refine .map (g := atId i (hitUpd cfg env)) (onHit_ents _ _ _ _) (fun e => ?_) ?_
  · unfold atId; split
    · unfold hitUpd; simp only
      repeat' split
      all_goals exact ⟨rfl, rfl⟩
    · exact ⟨rfl, rfl⟩
  · unfold onHit; simp only; repeat' split
    all_goals rfl

theorem onCreate_subQ (i : Nat) : SubQ s (onCreate cfg env s i) := by
  refine .map (g := creUpd (strId cfg s i) env) (onCreate_ents _ _ _ _) (fun e => ?_) ?_
  · unfold creUpd; split <;> exact ⟨rfl, rfl⟩
  · unfold onCreate; simp only; repeat' split
    all_goals rfl

theorem onAssign_back {d I : Int} (hr : cfg.refresh = some (d, I)) (i : Nat) (b : Bool) : Back d env s (onAssign cfg env s i b) := by
  intro e' he' hq
  rw [onAssign_ents] at he'
  obtain ⟨e, he, rfl⟩ := List.mem_map.1 he'
  have hid : (atId i (assignTimes cfg env b) e).id = e.id := ((assignTimes_idKey cfg env b).atId i e).1
  rw [hid] at hq ⊢
  cases b with
  | false =>
    refine .inl ⟨e, he, rfl, ?_, ?_⟩
    · unfold onAssign at hq; simpa [St.modify] using hq
    · unfold atId; split
      · unfold assignTimes; simp [hr]
      · rfl
  | true =>
    by_cases hi : e.id = i
    · right
      simp [atId, hi, assignTimes, hr]
    · refine .inl ⟨e, he, rfl, ?_, ?_⟩
      · unfold onAssign at hq; simpa [St.modify, hr, hi] using hq
      · simp [atId, hi]

theorem evictAll_subQ (vs : List Nat) : SubQ s (evictAll cfg s vs) := by
  have tr : ∀ {a b c : St K V E}, SubQ a b → SubQ b c → SubQ a c := by
    intro a b c h h'
    refine ⟨fun e he => ?_, fun i hi => h.dq i (h'.dq i hi)⟩
    obtain ⟨e1, h1, h2, h3⟩ := h'.bwd e he
    obtain ⟨e0, h4, h5, h6⟩ := h.bwd e1 h1
    exact ⟨e0, h4, h5.trans h2, h6.trans h3⟩
  unfold evictAll
  induction vs generalizing s with
  | nil => exact ⟨fun e he => ⟨e, he, rfl, rfl⟩, fun _ h => h⟩
  | cons i vs ih =>
    rw [List.foldl_cons]
    exact tr (.modify _ _ (.upd _)) ih

theorem maintenance_back : Back d env s (maintenance cfg s) := by
  unfold maintenance; split
  · exact .refl _
  · exact (evictAll_subQ _).back

theorem get__back (h : WF1 cfg s) (k : K) (incl : Bool) : Back d env s (get_ cfg env s k incl).1 := by
  have hw : Back d env s (walked cfg env s k incl) := (walked_shr (F := anyEff) h k incl).subQ.back
  unfold get_; simp only
  split
  · exact hw
  · exact hw.trans (onHit_subQ _).back

theorem expire__back (hc : cfg.Ok) (h : WF1 cfg s) (k : K) : Back d env s (expire_ cfg env s k) :=
  (expire_shr (F := anyEff) hc h k (fun _ _ _ _ => trivial)).subQ.back

theorem link_back {d I : Int} (hr : cfg.refresh = some (d, I)) (h : WF1 cfg s) {e : Entry K V E} (he : e.id = s.nextId) : Back d env s (link cfg env s e) := by
  have f1 : SubQ s (maybeRehash cfg env s) := (maybeRehash_shr (F := anyEff) h).subQ
  have hne := maybeRehash_ne (cfg := cfg) env s
  have hnq : e.id ∉ (maybeRehash cfg env s).delayQ := fun hh => next_not_queued h (he ▸ f1.dq _ hh)
  unfold link; simp only
  generalize maybeRehash cfg env s = s1 at *
  have f2 : Back d env s1 { s1 with tbl := place cfg s1.tbl e, nextId := s1.nextId + 1 } := by
    have hp : St.ents { s1 with tbl := place cfg s1.tbl e, nextId := s1.nextId + 1 } |>.Perm (s1.ents ++ [e]) :=
      Buckets.perm_place (fun e : Entry K V E => cfg.hash e.key) hne e
    intro x hx hq
    rcases List.mem_append.1 (hp.mem_iff.1 hx) with h | h
    · exact .inl ⟨x, h, rfl, hq, rfl⟩
    · rw [List.mem_singleton] at h; subst h
      exact absurd hq hnq
  have f3 := (f1.back.trans f2).trans (onCreate_subQ (cfg := cfg) (env := env) e.id).back
  split
  · exact f3
  · exact f3.trans (onAssign_back hr _ _)

theorem tryLink_back {d I : Int} (hr : cfg.refresh = some (d, I)) (h : WF1 cfg s) {e : Entry K V E} (he : e.id = s.nextId) (f : Fail) :
    Back d env s (tryLink cfg env s e f).1 := by
  rcases tryLink_cases cfg env s e f with h1 | h1 | h1 <;> rw [h1]
  · exact link_back hr h he
  · exact .refl _
  · exact (beforeLink_shr (F := anyEff) h).subQ.back

theorem runCb_back (i : Nat) (cb : Cb) : Back d env s (runCb s i cb) := by
  cases cb with
  | user w => exact .refl _
  | refresh old =>
    simp only [runCb]
    refine Back.trans (s' := s.modify i _) (SubQ.modify _ _ ?_).back (SubQ.modify _ _ ?_).back
    · exact .can _
    · exact .upd _

theorem runCbs_back (i : Nat) (cbs : List Cb) : Back d env s (runCbs s i cbs) := by
  unfold runCbs
  induction cbs generalizing s with
  | nil => exact .refl _
  | cons c cbs ih => rw [List.foldl_cons]; exact (runCb_back i c).trans ih

theorem complete_back {d I : Int} (hr : cfg.refresh = some (d, I)) (tok : Nat) (r : Res V E) : Back d env s (complete cfg env s tok r).1 := by
  unfold complete; simp only
  split
  · have h0 : Back d env s { s with opens := s.opens.erase tok } := fun e he hq => .inl ⟨e, he, rfl, hq, rfl⟩
    split
    · exact h0.trans (SubQ.modify _ _ (.upd _)).back
    · exact ((h0.trans (runCbs_back tok _)).trans (SubQ.modify _ _ (.upd _)).back).trans (onAssign_back hr _ _)
  · exact .refl _

theorem drop_back (tok : Nat) : Back d env s (drop s tok).1 := by
  unfold drop; simp only
  split
  · have h0 : Back d env s { s with opens := s.opens.erase tok } := fun e he hq => .inl ⟨e, he, rfl, hq, rfl⟩
    exact h0.trans (SubQ.modify _ _ (.upd _)).back
  · exact .refl _

theorem resolveAsync_back {d I : Int} (hr : cfg.refresh = some (d, I)) (h : WF1 cfg s) (k : K) (b : Beh V E) : Back d env s (resolveAsync cfg env s k b).1 := by
  have f1 : Back d env s (link cfg env s (newEntry s k (.pending {}))) := link_back hr h rfl
  have f2 : Back d env s ({ link cfg env s (newEntry s k (.pending {})) with opens := (link cfg env s (newEntry s k (.pending {}))).opens ++ [s.nextId] } : St K V E) := f1
  cases b with
  | later => exact f2
  | now r => exact f2.trans (complete_back hr _ r)
  | drop => exact f2.trans (drop_back _)

theorem answer_back (i w : Nat) (l : Look V E) : Back d env s (answer s i w l).1 := by
  cases l with
  | pend => exact (SubQ.modify _ _ (.upd _)).back
  | _ => exact .refl _

theorem refresh_back {d I : Int} (hr : cfg.refresh = some (d, I)) (h : WF1 cfg s) (e : Entry K V E) (r : Res V E) (b : Beh V E) :
    Back d env s (refresh cfg env s e r b).1 := by
  unfold refresh
  split
  · exact .refl _
  · have f1 : Back d env s (if cfg.resolver = .async then resolveAsync cfg env s e.key b else resolveSync cfg env s e.key r).1 := by
      split
      · exact resolveAsync_back hr h _ _
      · exact link_back hr h rfl
    simp only
    generalize (if cfg.resolver = .async then resolveAsync cfg env s e.key b else resolveSync cfg env s e.key r) = g at *
    obtain ⟨s1, tok⟩ := g
    simp only at *
    have f2 : Back d env s (s1.modify e.id (fun x => { x with refreshing := true })) := f1.trans (SubQ.modify s1 e.id .flag).back
    repeat' split
    · exact f2.trans (SubQ.modify _ _ (.upd _)).back
    · exact f2.trans (runCb_back tok (.refresh e.id))
    · exact f2

theorem WF1.pop {i : Nat} {q : List Nat} (h : WF1 cfg s) (hdq : s.delayQ = i :: q) : WF1 cfg { s with delayQ := q } :=
  ⟨h.ids, h.lt, h.placed, h.sorted, h.bq, (by have := h.dqN; rw [hdq] at this; exact (List.nodup_cons.1 this).2),
    fun j hj => h.dqM j (by rw [hdq]; exact List.mem_cons_of_mem _ hj)⟩

/-- Every operation. -/
theorem step_back (hc : cfg.Ok) {d I : Int} (hr : cfg.refresh = some (d, I)) (h : WF1 cfg s) (o : Op K V E) : Back d env s (step cfg env s o).1 := by
  cases o with
  | getIfExists k => exact .refl _
  | count => exact .refl _
  | get k r =>
    simp only [step, get]
    have := get__back (d := d) (env := env) h k false
    split
    · exact this.trans (link_back hr (get__wf1 hc h env k false) rfl)
    all_goals exact this
  | asyncGet k w b =>
    simp only [step, asyncGet]
    have := get__back (d := d) (env := env) h k true
    split
    · exact this.trans (answer_back _ _ _)
    · exact (this.trans (resolveAsync_back hr (get__wf1 hc h env k true) _ _)).trans (answer_back _ _ _)
  | emplace k v f =>
    simp only [step, emplace]
    have f2 := (expire__back (d := d) (env := env) hc h k).trans
      (tryLink_back (env := env) hr (expire_wf1 hc h env k) (e := newEntry (expire_ cfg env s k) k (.value v)) rfl f)
    split
    · exact f2.trans maintenance_back
    · exact f2
  | getOrEmplace k v f =>
    simp only [step, getOrEmplace]
    have f1 := get__back (d := d) (env := env) h k true
    split
    · exact f1.trans maintenance_back
    · have f2 := f1.trans (tryLink_back (env := env) hr (get__wf1 hc h env k true) (e := newEntry (get_ cfg env s k true).1 k (.value v)) rfl f)
      split
      · exact f2.trans maintenance_back
      · exact f2
    · exact f1.trans maintenance_back
  | erase k => exact expire__back hc h k
  | clear => exact (clear_shr (env := env) (F := anyEff) h (fun _ _ _ => trivial)).subQ.back
  | complete tok r => exact complete_back hr tok r
  | drop tok => exact drop_back tok
  | tick r b =>
    simp only [step, tick]; repeat' split
    · exact .refl _
    · exact .refl _
    · rename_i q hq _ e _ _
      have f0 : Back d env s { s with delayQ := q } := fun e he hm => .inl ⟨e, he, rfl, by rw [hq]; exact List.mem_cons_of_mem _ hm, rfl⟩
      exact f0.trans (refresh_back hr (h.pop hq) _ _ _)
    · exact .refl _
  | destroy =>
    intro e he
    simp only [step, destroy] at he
    rw [St.ents, (dispose_fields cfg s.ents _).1] at he
    obtain ⟨l, h1, h2⟩ := List.mem_flatten.1 he
    obtain ⟨_, _, rfl⟩ := List.mem_map.1 h1
    cases h2

/-! ### The first entry of the delay queue -/

/-- `i` is the first of the delay queue, or not linked. -/
def Head (i : Nat) (s : St K V E) : Prop := (∃ q, s.delayQ = i :: q) ∨ Out_ s i

/-- An old `i` that is first or not linked stays so. -/
def HeadK (i : Nat) (s s' : St K V E) : Prop := i < s.nextId → i < s'.nextId ∧ (Head i s → Head i s')

variable {i : Nat}

theorem HeadK.refl (s : St K V E) : HeadK i s s := fun h => ⟨h, fun h => h⟩

theorem HeadK.trans (h : HeadK i s s') (h' : HeadK i s' s'') : HeadK i s s'' :=
  fun hi => ⟨(h' (h hi).1).1, fun hh => (h' (h hi).1).2 ((h hi).2 hh)⟩

theorem HeadK.map {g : Entry K V E → Entry K V E} (hents : s'.ents = s.ents.map g) (hid : ∀ e, (g e).id = e.id)
    (hn : s'.nextId = s.nextId) (hq : ∃ q, s'.delayQ = s.delayQ ++ q) : HeadK i s s' := by
  intro hi
  refine ⟨by omega, fun hh => ?_⟩
  rcases hh with ⟨q, hh⟩ | hh
  · obtain ⟨q', hq⟩ := hq
    exact .inl ⟨q ++ q', by rw [hq, hh]; rfl⟩
  · right
    intro e he
    rw [hents] at he
    obtain ⟨e0, h0, rfl⟩ := List.mem_map.1 he
    rw [hid]; exact hh e0 h0

theorem HeadK.modify (s : St K V E) (j : Nat) {f : Entry K V E → Entry K V E} (hf : IdTp f) : HeadK i s (s.modify j f) := by
  refine .map (g := atId j f) (ents_modify _ _ _) (fun e => ?_) rfl ⟨[], by simp [St.modify]⟩
  unfold atId; split
  · exact (hf e).1
  · rfl

theorem head_of_sublist {q l : List Nat} (h : l.Sublist (i :: q)) (hn : i ∉ q) (hi : i ∈ l) : ∃ q', l = i :: q' := by
  cases h with
  | cons _ h => exact absurd (h.subset hi) hn
  | cons_cons _ h => exact ⟨_, rfl⟩

theorem Shr.headK (w : WF1 cfg s) (h : Shr cfg env anyEff s s') : HeadK i s s' := by
  intro hi
  refine ⟨by rw [h.same.nextId]; exact hi, fun hh => ?_⟩
  rcases hh with ⟨q, hh⟩ | hh
  · rcases h.dqk i (by rw [hh]; simp) with h1 | h1 | h1
    · have hn := w.dqN
      rw [hh, List.nodup_cons] at hn
      exact .inl (head_of_sublist (hh ▸ h.dq) hn.1 h1)
    · exact .inr fun e he h2 => h1 (List.mem_map.2 ⟨e, he, h2⟩)
    · exact h1.elim
  · right
    intro e' he'
    obtain ⟨e, he, sh⟩ := h.bwd e' he'
    rw [sh.id]; exact hh e he

theorem onHit_headK (j : Nat) : HeadK i s (onHit cfg env s j) := by
  refine .map (g := atId j (hitUpd cfg env)) (onHit_ents _ _ _ _) (fun e => ?_) (by simp) ⟨[], ?_⟩
  · exact ((hitUpd_idKey cfg env).atId j e).1
  · unfold onHit; simp only; repeat' split
    all_goals simp [St.modify]

theorem onCreate_headK (j : Nat) : HeadK i s (onCreate cfg env s j) := by
  refine .map (g := creUpd (strId cfg s j) env) (onCreate_ents _ _ _ _) (fun e => ?_) (by simp) ⟨[], ?_⟩
  · unfold creUpd; split <;> rfl
  · unfold onCreate; simp only; repeat' split
    all_goals simp [St.modify]

theorem onAssign_headK (j : Nat) (b : Bool) : HeadK i s (onAssign cfg env s j b) := by
  refine .map (g := atId j (assignTimes cfg env b)) (onAssign_ents _ _ _ _ _) (fun e => ?_) (by simp) ?_
  · exact ((assignTimes_idKey cfg env b).atId j e).1
  · unfold onAssign; simp only; split
    · exact ⟨[j], by simp [St.modify]⟩
    · exact ⟨[], by simp [St.modify]⟩

theorem evictAll_headK (vs : List Nat) : HeadK i s (evictAll cfg s vs) := by
  unfold evictAll
  induction vs generalizing s with
  | nil => exact .refl _
  | cons j vs ih =>
    rw [List.foldl_cons]
    exact HeadK.trans (.modify _ _ (.upd _)) ih

theorem maintenance_headK : HeadK i s (maintenance cfg s) := by
  unfold maintenance; split
  · exact .refl _
  · exact evictAll_headK _

theorem get__headK (h : WF1 cfg s) (k : K) (incl : Bool) : HeadK i s (get_ cfg env s k incl).1 := by
  have hw : HeadK i s (walked cfg env s k incl) := (walked_shr (env := env) h k incl).headK h
  unfold get_; simp only
  split
  · exact hw
  · exact hw.trans (onHit_headK _)

theorem expire__headK (hc : cfg.Ok) (h : WF1 cfg s) (k : K) : HeadK i s (expire_ cfg env s k) :=
  (expire_shr (env := env) hc h k (fun _ _ _ _ => trivial)).headK h

theorem link_headK (h : WF1 cfg s) {e : Entry K V E} (he : e.id = s.nextId) : HeadK i s (link cfg env s e) := by
  have f1 : HeadK i s (maybeRehash cfg env s) := (maybeRehash_shr (env := env) h).headK h
  have hne := maybeRehash_ne (cfg := cfg) env s
  have hn : (maybeRehash cfg env s).nextId = s.nextId := by simp
  unfold link; simp only
  generalize maybeRehash cfg env s = s1 at *
  have f2 : HeadK i s1 { s1 with tbl := place cfg s1.tbl e, nextId := s1.nextId + 1 } := by
    have hp : St.ents { s1 with tbl := place cfg s1.tbl e, nextId := s1.nextId + 1 } |>.Perm (s1.ents ++ [e]) :=
      Buckets.perm_place (fun e : Entry K V E => cfg.hash e.key) hne e
    intro hi
    refine ⟨Nat.lt_succ_of_lt hi, fun hh => ?_⟩
    rcases hh with ⟨q, hh⟩ | hh
    · exact .inl ⟨q, hh⟩
    · right
      intro x hx
      rcases List.mem_append.1 (hp.mem_iff.1 hx) with h | h
      · exact hh x h
      · rw [List.mem_singleton] at h; subst h; omega
  have f3 := (f1.trans f2).trans (onCreate_headK (cfg := cfg) (env := env) e.id)
  split
  · exact f3
  · exact f3.trans (onAssign_headK _ _)

theorem tryLink_headK (h : WF1 cfg s) {e : Entry K V E} (he : e.id = s.nextId) (f : Fail) : HeadK i s (tryLink cfg env s e f).1 := by
  rcases tryLink_cases cfg env s e f with h1 | h1 | h1 <;> rw [h1]
  · exact link_headK h he
  · exact .refl _
  · exact (beforeLink_shr (env := env) h).headK h

theorem runCb_headK (j : Nat) (cb : Cb) : HeadK i s (runCb s j cb) := by
  cases cb with
  | user w => exact .refl _
  | refresh old =>
    simp only [runCb]
    exact HeadK.trans (s' := s.modify j _) (.modify _ _ (.can _)) (.modify _ _ (.upd _))

theorem runCbs_headK (j : Nat) (cbs : List Cb) : HeadK i s (runCbs s j cbs) := by
  unfold runCbs
  induction cbs generalizing s with
  | nil => exact .refl _
  | cons c cbs ih => rw [List.foldl_cons]; exact (runCb_headK j c).trans ih

theorem complete_headK (tok : Nat) (r : Res V E) : HeadK i s (complete cfg env s tok r).1 := by
  unfold complete; simp only
  split
  · have h0 : HeadK i s { s with opens := s.opens.erase tok } := fun hi => ⟨hi, fun h => h⟩
    split
    · exact h0.trans (.modify _ _ (.upd _))
    · exact ((h0.trans (runCbs_headK tok _)).trans (.modify _ _ (.upd _))).trans (onAssign_headK _ _)
  · exact .refl _

theorem drop_headK (tok : Nat) : HeadK i s (drop s tok).1 := by
  unfold drop; simp only
  split
  · have h0 : HeadK i s { s with opens := s.opens.erase tok } := fun hi => ⟨hi, fun h => h⟩
    exact h0.trans (.modify _ _ (.upd _))
  · exact .refl _

theorem resolveAsync_headK (h : WF1 cfg s) (k : K) (b : Beh V E) : HeadK i s (resolveAsync cfg env s k b).1 := by
  have f1 : HeadK i s (link cfg env s (newEntry s k (.pending {}))) := link_headK h rfl
  have f2 : HeadK i s ({ link cfg env s (newEntry s k (.pending {})) with opens := (link cfg env s (newEntry s k (.pending {}))).opens ++ [s.nextId] } : St K V E) := f1
  cases b with
  | later => exact f2
  | now r => exact f2.trans (complete_headK _ r)
  | drop => exact f2.trans (drop_headK _)

theorem answer_headK (j w : Nat) (l : Look V E) : HeadK i s (answer s j w l).1 := by
  cases l with
  | pend => exact .modify _ _ (.upd _)
  | _ => exact .refl _

/-- Every operation of the other threads. -/
theorem step_headK (hc : cfg.Ok) (h : WF1 cfg s) (o : Op K V E) (ht : ∀ r b, o ≠ .tick r b) : HeadK i s (step cfg env s o).1 := by
  cases o with
  | getIfExists k => exact .refl _
  | count => exact .refl _
  | get k r =>
    simp only [step, get]
    have := get__headK (i := i) (env := env) h k false
    split
    · exact this.trans (link_headK (get__wf1 hc h env k false) rfl)
    all_goals exact this
  | asyncGet k w b =>
    simp only [step, asyncGet]
    have := get__headK (i := i) (env := env) h k true
    split
    · exact this.trans (answer_headK _ _ _)
    · exact (this.trans (resolveAsync_headK (get__wf1 hc h env k true) _ _)).trans (answer_headK _ _ _)
  | emplace k v f =>
    simp only [step, emplace]
    have f2 := (expire__headK (i := i) (env := env) hc h k).trans
      (tryLink_headK (env := env) (expire_wf1 hc h env k) (e := newEntry (expire_ cfg env s k) k (.value v)) rfl f)
    split
    · exact f2.trans maintenance_headK
    · exact f2
  | getOrEmplace k v f =>
    simp only [step, getOrEmplace]
    have f1 := get__headK (i := i) (env := env) h k true
    split
    · exact f1.trans maintenance_headK
    · have f2 := f1.trans (tryLink_headK (env := env) (get__wf1 hc h env k true) (e := newEntry (get_ cfg env s k true).1 k (.value v)) rfl f)
      split
      · exact f2.trans maintenance_headK
      · exact f2
    · exact f1.trans maintenance_headK
  | erase k => exact expire__headK hc h k
  | clear => exact (clear_shr (env := env) h (fun _ _ _ => trivial)).headK h
  | complete tok r => exact complete_headK tok r
  | drop tok => exact drop_headK tok
  | tick r b => exact absurd rfl (ht r b)
  | destroy =>
    have hd : (step cfg env s (Op.destroy : Op K V E)).1.ents = [] := by
      simp only [step, destroy]
      rw [St.ents, (dispose_fields cfg s.ents _).1]
      simp [List.flatten_eq_nil_iff]
    have hn : (step cfg env s (Op.destroy : Op K V E)).1.nextId = s.nextId := by simp [step, destroy]
    exact fun hi => ⟨by rw [hn]; exact hi, fun _ => .inr (fun e he => by rw [hd] at he; cases he)⟩

end Hoard
