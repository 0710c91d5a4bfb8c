import Verif.EventsFail
import Verif.EventsNestedLemmas
import Verif.AbortLemmas
import Verif.ThrowAcc
/-!
Lemmas for C115.
-/
namespace Hoard.Events
open Spec Throw Abort
variable {K V E : Type} {cfg : Cfg K} {env : Env V} {s : St K V E} {Z : Nat → Prop}

/-! ## Calls left in the middle of a walk -/

theorem applyWalk_ids (i : Nat) (w : Walk K V E) (hp : ((s.bucket i).map (·.id)).Perm (w.kept.map (·.id) ++ w.removed.map (·.id))) :
    (ids s).Perm (ids (applyWalk cfg s i w) ++ w.removed.map (·.id)) := by
  unfold ids applyWalk
  rw [dispose_ents]
  by_cases hi : i < s.tbl.length
  · have := flatten_set_perm (s.tbl.map (·.map (·.id))) i ((s.bucket i).map (·.id)) (w.kept.map (·.id)) (w.removed.map (·.id)) (by simp [bucket_some hi]) hp
    have e1 : s.ents.map (·.id) = (s.tbl.map (·.map (·.id))).flatten := by simp [St.ents, List.map_flatten]
    have e2 : (s.setBucket i w.kept).ents.map (·.id) = ((s.tbl.map (·.map (·.id))).set i (w.kept.map (·.id))).flatten := by
      simp [St.ents, St.setBucket, List.map_flatten, List.map_set]
    rw [e1, e2]; exact this
  · rw [bucket_empty (by omega)] at hp
    have hr : w.removed = [] := by
      have := hp.length_eq; simp at this; exact List.length_eq_zero_iff.1 (by omega)
    have : s.tbl.set i w.kept = s.tbl := List.set_eq_of_length_le (by omega)
    rw [hr]
    simp [St.ents, St.setBucket, this]

theorem stop_ids (hc : cfg.Ok) {o : AOp K V E} {i : Nat} {wk : Walk K V E} (hw : stopWalk cfg env s o = some (i, wk)) :
    (ids s).Perm (ids (applyWalk cfg s i wk) ++ wk.removed.map (·.id)) := by
  cases o with
  | plain p => cases hw
  | look k incl n =>
    refine applyWalk_ids i wk ?_
    simp only [stopWalk, Option.map_eq_some_iff, Prod.mk.injEq] at hw
    obtain ⟨w', hw, rfl, rfl⟩ := hw
    have := (lookStop_cut cfg env k incl _ n w' hw).perm.map (·.id)
    rwa [List.map_append] at this
  | emplace k n =>
    refine applyWalk_ids i wk ?_
    simp only [stopWalk, Option.map_eq_some_iff, Prod.mk.injEq] at hw
    obtain ⟨w', hw, rfl, rfl⟩ := hw
    obtain ⟨pre, rest, q1, q2, q3⟩ := removeStop_cut env k _ n w' hw
    obtain ⟨h1, h2⟩ := expireWalk_eq hc env k pre
    rw [q1, q2, q3, h1, h2]
    simp only [List.map_append, List.map_map]
    have h3 := (filter_append_not pre (fun e => if cfg.eqv e.key k then e.isPending else !stale env e)).map (·.id)
    have h4 : (fun e : Entry K V E => !(if cfg.eqv e.key k then e.isPending else !stale env e)) =
        (fun e => if cfg.eqv e.key k then !e.isPending else stale env e) := by
      funext e; split <;> simp
    rw [h4, List.map_append] at h3
    refine (h3.append_right _).trans ?_
    rw [List.append_assoc, List.append_assoc]
    refine List.Perm.append (List.Perm.of_eq ?_) List.perm_append_comm
    apply List.map_congr_left
    intro e _
    simp only [Function.comp]
    split <;> rfl

theorem stop_seg (hc : cfg.Ok) (w : WF1 cfg s) {o : AOp K V E} {i : Nat} {wk : Walk K V E} (hw : stopWalk cfg env s o = some (i, wk)) :
    Seg Z s (applyWalk cfg s i wk) (unlinks wk.removed) := by
  have hi := stop_ids hc hw
  cases o with
  | plain p => cases hw
  | look k incl n => exact .unlinks hi ⟨by simp, by simp⟩ (.of_shr (look_facts (F := ({} : Eff K V)) w hw).2.1)
  | emplace k n =>
    obtain ⟨R, hR⟩ := emplace_reached hc w hw
    exact .unlinks hi ⟨by simp, by simp⟩ (.of_shr hR.shr)

theorem left_seg (hc : cfg.Ok) {M : Md V} {X : Nat → Prop} {L : Ledger K V} (g : Good cfg M X s L) (o : AOp K V E) (ho : o.ok cfg env s) :
    Seg Z s (astep cfg env s o).1 (left cfg env s o) := by
  by_cases hp : ∃ p, o = .plain p
  · obtain ⟨p, rfl⟩ := hp
    exact step_seg hc g p ho
  · have hp' : ∀ p, o ≠ .plain p := fun p h => hp ⟨p, h⟩
    obtain ⟨i, wk, h1, h2⟩ := astep_stop ho hp'
    have h3 : left cfg env s o = unlinks wk.removed := by
      cases o with
      | plain p => exact absurd rfl (hp' p)
      | _ => simp only [left, h1]
    rw [h2, h3]
    exact stop_seg hc g.wf1 h1

theorem left_fol (o : AOp K V E) (hm : cfg.maxSize.isSome = true) : (astep cfg env s o).1.bq = recency s.bq (left cfg env s o) := by
  have key : ∀ o : AOp K V E, (match stopWalk cfg env s o with | some (i, w) => (applyWalk cfg s i w, ({ ret := .throws } : Out K V E)) | none => (s, {})).1.bq =
      recency s.bq (match stopWalk cfg env s o with | some (_, w) => unlinks w.removed | none => []) := by
    intro o
    cases stopWalk cfg env s o with
    | none => rfl
    | some p => exact (applyWalk_fol p.1 p.2).bq hm
  cases o with
  | plain p => exact step_bq hm p
  | look k incl n => exact key (.look k incl n)
  | emplace k n => exact key (.emplace k n)

theorem leftTrace_snoc (s : St K V E) (h : AHist K V E) (env : Env V) (o : AOp K V E) :
    leftTrace cfg s (h ++ [(env, o)]) = leftTrace cfg s h ++ left cfg env (arun cfg s h).1 o := by
  induction h generalizing s with
  | nil => simp [leftTrace, arun]
  | cons p h ih => obtain ⟨e1, o⟩ := p; simp [leftTrace, arun, ih]

theorem left_knows (hc : cfg.Ok) (h : AHist K V E) (hok : AHistOk cfg St.init h) :
    Book.accepts {} (leftTrace cfg St.init h) ∧ Knows (fun _ => False) (Book.notes {} (leftTrace cfg St.init h)) (astateAfter cfg h) := by
  induction h using snoc_ind with
  | h0 => exact ⟨trivial, knows_init⟩
  | h1 h p ih =>
    obtain ⟨env, o⟩ := p
    rw [AHistOk_append] at hok
    obtain ⟨ha, hk⟩ := ih hok.1
    obtain ⟨_, _, g⟩ := agood hc False False (fun q => q.elim) h env hok.1 (fun q => q.elim) (fun q => q.elim)
    obtain ⟨h1, h2⟩ := left_seg (env := env) hc g o hok.2.1 _ hk
    rw [leftTrace_snoc, accepts_append, notes_append, astateAfter_snoc]
    exact ⟨⟨ha, h1⟩, h2⟩

/-! ## Failing calls -/

theorem failed_val (ptr keeps : Bool) (m : Mapped V E) : (failed ptr keeps m).val?.isSome = true → m.val?.isSome = true := by
  cases m <;> cases ptr <;> cases keeps <;> simp [failed, Mapped.val?]

theorem getFail_seg (hc : cfg.Ok) (nx : Bool) {x : XSt K V E} (w : WF1 cfg x.s) (hr : cfg.resolver = .sync) (hno : x.s.nextId ∉ x.s.opens) (k : K) (r : Res V E) (f : SyncFail) :
    Seg Z x.s (getFail cfg env nx x k r f).1.s (getFailed cfg env x.s k r f) := by
  have h1 := lookup_seg (Z := Z) (env := env) hc w k false
  have hw := get__wf1 hc w env k false
  have hiff := hit_none_iff (cfg := cfg) (env := env) (s := x.s) (k := k) (incl := false)
  have hno1 : (get_ cfg env x.s k false).1.nextId ∉ (get_ cfg env x.s k false).1.opens := by simpa using hno
  unfold getFailed
  refine h1.trans ?_
  by_cases hn : (get_ cfg env x.s k false).2 = .none
  · rw [if_pos (hiff.2 hn)]
    cases f with
    | grow =>
      unfold getFail Hoard.get
      simp only [hr]
      generalize get_ cfg env x.s k false = g at *
      obtain ⟨s1, l⟩ := g
      simp only at hn; subst hn
      simp only
      by_cases hg : mustGrow cfg (beforeLink cfg env s1) = true
      · rw [if_pos hg, if_pos hg]; exact before_seg hw
      · rw [if_neg hg, if_neg hg]; exact resolveSync_seg hw hno1 k r
    | _ =>
      unfold getFail
      generalize get_ cfg env x.s k false = g at *
      obtain ⟨s1, l⟩ := g
      simp only at hn; subst hn
      exact .refl _
  · rw [if_neg (fun h => hn (hiff.1 h))]
    have : (getFail cfg env nx x k r f).1.s = (get_ cfg env x.s k false).1 := by
      unfold getFail
      generalize get_ cfg env x.s k false = g at *
      obtain ⟨s1, l⟩ := g
      cases l with
      | none => exact absurd rfl hn
      | _ => rfl
    rw [this]; exact .refl _

theorem asyncFail_seg (hc : cfg.Ok) (w : WF1 cfg s) (hN : s.opens.Nodup) (hno : s.nextId ∉ s.opens) (k : K) (u : Nat) (b : Beh V E) (f : AsyncFail) :
    Seg Z s (asyncFail cfg env s k u b f).1 (asyncFailed cfg env s k b f) := by
  have h1 := lookup_seg (Z := Z) (env := env) hc w k true
  have hw := get__wf1 hc w env k true
  have hN1 : (get_ cfg env s k true).1.opens.Nodup := by simpa using hN
  have hno1 : (get_ cfg env s k true).1.nextId ∉ (get_ cfg env s k true).1.opens := by simpa using hno
  have hra := resolveAsync_seg (Z := Z) (env := env) hw hN1 hno1 k b
  unfold asyncFailed asyncFail
  refine h1.trans ?_
  cases hh : (getWalk cfg env k true (s.bucket (s.bucketFor (cfg.hash k)))).hit with
  | some p =>
    obtain ⟨id, l⟩ := p
    simp only [Option.isNone_some, Bool.false_eq_true, if_false]
    split
    · exact .refl _
    · exact answer_seg _ _ _
  | none =>
    have hA : Seg Z (get_ cfg env s k true).1 (asyncGet cfg env s k u b).1 (resolveAsync cfg env (get_ cfg env s k true).1 k b) := by
      have := hra.trans (answer_seg (Z := Z) (Hoard.resolveAsync cfg env (get_ cfg env s k true).1 k b).2 u
        (match (Hoard.resolveAsync cfg env (get_ cfg env s k true).1 k b).1.find (Hoard.resolveAsync cfg env (get_ cfg env s k true).1 k b).2 with
          | some e => e.mapped.get env true
          | none => .none))
      rw [List.append_nil] at this
      unfold asyncGet
      simp only [hh]
      exact this
    simp only [Option.isNone_none, if_true]
    cases f with
    | alloc => exact .refl _
    | grow =>
      simp only
      by_cases hg : mustGrow cfg (beforeLink cfg env (get_ cfg env s k true).1) = true
      · rw [if_pos hg, if_pos hg]; exact before_seg hw
      · rw [if_neg hg, if_neg hg]; exact hA
    | functor => exact hra
    | register => cases b with
      | now r => exact hA
      | _ => exact hra

theorem assignFail_seg {x : XSt K V E} (hN : x.s.opens.Nodup) (tok : Nat) (keeps : Bool) (v : V) :
    Seg Z x.s (assignFail cfg env x tok keeps v).1.s [] := by
  unfold assignFail
  by_cases ht : tok ∈ x.s.opens
  · rw [if_pos ht]
    cases hd : x.s.destroyed with
    | true =>
      have h := complete_seg (Z := Z) (cfg := cfg) (env := env) tok (.ok v) hN (fun h => by rw [hd] at h; cases h)
      simp only [completed, ht, hd, if_true] at h
      exact h
    | false =>
      simp only [Bool.false_eq_true, if_false]
      refine .neutral (by rw [ids_modify _ (IdKey.upd _)]; exact .refl _) rfl ?_ ?_
      · intro t h
        cases keeps
        · exact List.mem_of_mem_erase h
        · exact h
      · exact Vals.trans (s' := ({ x.s with opens := if keeps then x.s.opens else x.s.opens.erase tok } : St K V E))
          (fun e he hv => .inr ⟨e, he, rfl, hv⟩) (upd_vals tok (failed_val _ _))
  · rw [if_neg ht]
    split
    · split <;> exact .refl _
    · exact .refl _

theorem failing_seg (hc : cfg.Ok) (nx : Bool) {x : XSt K V E} (w : WF1 cfg x.s) (hN : x.s.opens.Nodup) (hno : x.s.nextId ∉ x.s.opens)
    (hop : x.s.destroyed = false → ∀ t ∈ x.s.opens, t ∈ ids x.s) (o : XOp K V E) (ho : o.ok cfg x) :
    Seg Z x.s (xstep cfg nx env x o).1.s (failing cfg env x o) := by
  have hpl : ∀ o : Op K V E, o.ok cfg x.s → Seg Z x.s (step cfg env x.s o).1 (events cfg env x.s o) := fun o ho =>
    step_seg' hc w hN (fun _ => hno) o ho (fun t _ _ hd ht => hop hd t ht)
  cases o with
  | plain p =>
    cases p with
    | complete tok r =>
      simp only [xstep, failing]
      by_cases hd : tok ∈ x.dead
      · rw [if_pos hd, if_pos hd]
        have : (completeDead x tok r).1.s = x.s := by
          unfold completeDead; split
          · rfl
          · cases r <;> rfl
        rw [this]; exact .refl _
      · rw [if_neg hd, if_neg hd]
        exact complete_seg tok r hN (fun hd ht => hop hd tok ht)
    | drop tok =>
      simp only [xstep, failing]
      by_cases hd : tok ∈ x.dead
      · rw [if_pos hd]; exact .refl _
      · rw [if_neg hd]; exact drop_seg tok
    | _ => exact hpl _ ho.2
  | getFail k r f => exact getFail_seg hc nx w ho.2.1 hno k r f
  | asyncFail k u b f => exact asyncFail_seg hc w hN hno k u b f
  | assignFail tok keeps v => exact assignFail_seg hN tok keeps v

/-! ## What is needed of the state, whatever fails -/

def P1 (t : Nat) (s : St K V E) : Prop := ∃ e ∈ s.ents, e.id = t ∧ e.isPending = true

/-- The lookups in flight are in the table and do not wait to be refreshed. -/
structure Lite (cfg : Cfg K) (s : St K V E) : Prop where
  wf : WF1 cfg s
  nd : s.opens.Nodup
  lt : ∀ t ∈ s.opens, t < s.nextId
  pe : s.destroyed = false → ∀ t ∈ s.opens, P1 t s
  dq : ∀ t ∈ s.opens, t ∉ s.delayQ

variable {s' : St K V E}

theorem Lite.next (h : Lite cfg s) (w : WF1 cfg s') (ho : s'.opens.Sublist s.opens) (hn : s.nextId ≤ s'.nextId) (hd : s'.destroyed = s.destroyed)
    (hp : ∀ t ∈ s'.opens, P1 t s → P1 t s') (hq : ∀ t ∈ s'.opens, t ∈ s'.delayQ → t ∈ s.delayQ) : Lite cfg s' :=
  ⟨w, h.nd.sublist ho, fun t ht => Nat.lt_of_lt_of_le (h.lt t (ho.subset ht)) hn, fun hd' t ht => hp t ht (h.pe (hd ▸ hd') t (ho.subset ht)),
    fun t ht hh => h.dq t (ho.subset ht) (hq t ht hh)⟩

theorem P1.shr {F : Eff K V} {t : Nat} (r : Shr cfg env F s s') (h : P1 t s) : P1 t s' := by
  obtain ⟨e, he, h1, h2⟩ := h
  obtain ⟨e', he', sh⟩ := r.keepP e he h2
  exact ⟨e', he', sh.id.trans h1, sh.pend.trans h2⟩

theorem P1.spc {F : Eff K V} {t x : Nat} (r : Spc cfg env F x s s') (hx : t ≠ x) (h : P1 t s) : P1 t s' := by
  obtain ⟨e, he, h1, h2⟩ := h
  obtain ⟨e', he', sh⟩ := r.keepP e he (h1 ▸ hx) h2
  exact ⟨e', he', sh.id.trans h1, sh.pend.trans h2⟩

theorem P1.modify {t : Nat} (i : Nat) {f : Entry K V E → Entry K V E} (hf : ∀ e, i = t → (f e).id = e.id ∧ (e.isPending = true → (f e).isPending = true))
    (h : P1 t s) : P1 t (s.modify i f) := by
  obtain ⟨e, he, h1, h2⟩ := h
  refine ⟨atId i f e, ?_, ?_⟩
  · rw [ents_modify]; exact List.mem_map.2 ⟨e, he, rfl⟩
  · unfold atId; split
    · rename_i hi
      obtain ⟨a, b⟩ := hf e (hi.symm.trans h1)
      exact ⟨a.trans h1, b h2⟩
    · exact ⟨h1, h2⟩

theorem Lite.shr {F : Eff K V} (h : Lite cfg s) (w : WF1 cfg s') (r : Shr cfg env F s s') : Lite cfg s' :=
  h.next w (by rw [r.same.opens]; exact .refl _) (by rw [r.same.nextId]; exact Nat.le_refl _) r.same.destroyed (fun _ _ q => q.shr r) (fun _ _ q => r.dq.subset q)

theorem Lite.modify (h : Lite cfg s) (i : Nat) {f : Entry K V E → Entry K V E} (hf : IdKey f) (hp : i ∈ s.opens → ∀ e, e.isPending = true → (f e).isPending = true) :
    Lite cfg (s.modify i f) :=
  h.next (h.wf.modify i hf) (List.Sublist.refl _) (Nat.le_refl _) rfl
    (fun _ ht q => q.modify i (fun e hi => ⟨(hf e).1, hp (hi ▸ ht) e⟩)) (fun _ _ q => q)

theorem Lite.get_ (hc : cfg.Ok) (h : Lite cfg s) (k : K) (incl : Bool) : Lite cfg (get_ cfg env s k incl).1 :=
  h.shr (get__wf1 hc h.wf env k incl) (get__shr (env := env) hc h.wf k incl)
theorem Lite.expire (hc : cfg.Ok) (h : Lite cfg s) (k : K) : Lite cfg (expire_ cfg env s k) :=
  h.shr (expire_wf1 hc h.wf env k) (expire_shr (env := env) (F := { die := fun _ _ _ => True }) hc h.wf k (fun _ _ _ _ => trivial))
theorem Lite.before (h : Lite cfg s) : Lite cfg (beforeLink cfg env s) :=
  h.shr (beforeLink_wf1 h.wf env) (beforeLink_shr (env := env) (F := ({} : Eff K V)) h.wf)
theorem Lite.evict (env : Env V) (h : Lite cfg s) : Lite cfg (maintenance cfg s) := h.shr (maintenance_wf1 h.wf) (maintenance_shr env h.wf)

theorem Lite.link (h : Lite cfg s) {e : Entry K V E} (he : e.id = s.nextId) : Lite cfg (link cfg env s e) := by
  obtain ⟨w, sp, _, ho, hn, hd, _⟩ := link_spc (F := ({} : Eff K V)) env h.wf he
  have hne : ∀ t ∈ (Hoard.link cfg env s e).opens, t ≠ e.id := by
    intro t ht; rw [ho] at ht; rw [he]; exact Nat.ne_of_lt (h.lt t ht)
  exact h.next w (by rw [ho]; exact .refl _) (by omega) hd (fun t ht q => q.spc sp (hne t ht)) (fun t ht q => sp.dqm t q (hne t ht))

theorem Lite.try (h : Lite cfg s) {e : Entry K V E} (he : e.id = s.nextId) (f : Fail) : Lite cfg (tryLink cfg env s e f).1 := by
  rcases tryLink_cases cfg env s e f with h1 | h1 | h1 <;> rw [h1]
  · exact h.link he
  · exact h
  · exact h.before

theorem Lite.runCb (h : Lite cfg s) (i : Nat) (c : Cb) : Lite cfg (runCb s i c) := by
  cases c with
  | user _ => exact h
  | refresh old =>
    simp only [Hoard.runCb]
    refine Lite.modify (Lite.modify h i (f := fun e => { e with canTp := tpMin e.canTp _ }) (fun _ => ⟨rfl, rfl⟩) (fun _ _ hp => hp)) old (f := (·.upd .markExpired)) (IdKey.upd _) (fun _ e hp => ?_)
    simp only [Entry.isPending, Entry.upd] at hp ⊢
    cases hm : e.mapped <;> rw [hm] at hp <;> first | exact hp | cases hp

theorem Lite.runCbs (i : Nat) (cs : List Cb) : ∀ {s : St K V E}, Lite cfg s → Lite cfg (runCbs s i cs) := by
  induction cs with
  | nil => intro s h; exact h
  | cons c cs ih => intro s h; exact ih (s := Hoard.runCb s i c) (h.runCb i c)

/-- A lookup ends. -/
theorem Lite.close (h : Lite cfg s) (t : Nat) {f : Entry K V E → Entry K V E} (hf : IdKey f) :
    Lite cfg (Handlers.withOpens (s.opens.erase t) (s.modify t f)) := by
  have hne : ∀ u ∈ s.opens.erase t, u ≠ t := fun u hu hh => by rw [hh] at hu; exact ((List.Nodup.mem_erase_iff h.nd).1 hu).1 rfl
  refine h.next (Handlers.withOpens_wf1 (h.wf.modify t hf) _) List.erase_sublist (Nat.le_refl _) rfl ?_ (fun _ _ q => q)
  intro u hu q
  exact P1.modify t (fun e hi => absurd hi.symm (hne u hu)) q

theorem runCbs_opens (i : Nat) (cs : List Cb) : ∀ {s : St K V E}, (runCbs s i cs).opens = s.opens := by
  induction cs with
  | nil => intro s; rfl
  | cons c cs ih => intro s; rw [show Hoard.runCbs s i (c :: cs) = Hoard.runCbs (Hoard.runCb s i c) i cs from rfl, ih]; cases c <;> rfl

theorem Lite.complete (h : Lite cfg s) (t : Nat) (r : Res V E) : Lite cfg (complete cfg env s t r).1 := by
  by_cases ht : t ∈ s.opens
  · cases hd : s.destroyed with
    | true => rw [Handlers.complete_dead ht hd]; exact h.close t (IdKey.upd _)
    | false =>
      rw [Handlers.complete_pos ht hd]
      have h1 := Lite.runCbs t (Handlers.cbsOf s t) h
      have ho := runCbs_opens t (Handlers.cbsOf s t) (s := s)
      have hq := (runCbs_queues t (Handlers.cbsOf s t) (s := s)).2
      have hid := runCbs_ids t (Handlers.cbsOf s t) (s := s)
      generalize Hoard.runCbs s t (Handlers.cbsOf s t) = s1 at *
      have h2 := h1.close t (f := (·.upd (Hoard.completed cfg r))) (IdKey.upd _)
      rw [ho] at h2
      have htd : t ∉ (s1.modify t (·.upd (Hoard.completed cfg r))).delayQ := by
        show t ∉ s1.delayQ
        rw [hq]; exact h.dq t ht
      have hti : t ∈ (s1.modify t (·.upd (Hoard.completed cfg r))).ents.map (·.id) := by
        have := ids_modify (s := s1) t (IdKey.upd (Hoard.completed cfg r))
        unfold ids at this hid
        rw [this, hid]
        obtain ⟨e, he, hi, _⟩ := h.pe hd t ht
        exact List.mem_map.2 ⟨e, he, hi⟩
      have w := onAssign_wf1 env (h1.wf.modify t (IdKey.upd (Hoard.completed cfg r))) r.isOk hti htd
      have sp := onAssign_spc (F := ({} : Eff K V)) (cfg := cfg) env (s1.modify t (·.upd (Hoard.completed cfg r))) t r.isOk
      have hne : ∀ u ∈ s.opens.erase t, u ≠ t := fun u hu hh => by rw [hh] at hu; exact ((List.Nodup.mem_erase_iff h.nd).1 hu).1 rfl
      refine h2.next (Handlers.withOpens_wf1 w _) (List.Sublist.refl _) ?_ ?_ ?_ ?_
      · show s1.nextId ≤ (onAssign cfg env _ t r.isOk).nextId
        simp
      · show (onAssign cfg env _ t r.isOk).destroyed = _
        simp [Handlers.withOpens]
      · intro u hu q
        exact P1.spc (s := s1.modify t (·.upd (Hoard.completed cfg r))) (s' := onAssign cfg env (s1.modify t (·.upd (Hoard.completed cfg r))) t r.isOk) sp (hne u hu) q
      · intro u hu q
        exact sp.dqm u q (hne u hu)
  · rw [Handlers.complete_neg ht]; exact h

theorem Lite.drop (h : Lite cfg s) (t : Nat) : Lite cfg (drop s t).1 := by
  by_cases ht : t ∈ s.opens
  · rw [Handlers.drop_pos ht]; exact h.close t (IdKey.upd _)
  · rw [Handlers.drop_neg ht]; exact h

theorem Lite.resolveAsync (h : Lite cfg s) (k : K) (b : Beh V E) : Lite cfg (Hoard.resolveAsync cfg env s k b).1 := by
  obtain ⟨w, sp, hin, ho, hn, hd, hdq⟩ := link_spc (F := ({} : Eff K V)) env h.wf (e := newEntry s k (.pending {})) rfl
  have h1 := h.link (env := env) (e := newEntry s k (.pending {})) rfl
  have hno : s.nextId ∉ s.opens := fun hm => Nat.lt_irrefl _ (h.lt _ hm)
  have h2 : Lite cfg (Handlers.withOpens (s.opens ++ [s.nextId]) (Hoard.link cfg env s (newEntry s k (.pending {})))) := by
    refine ⟨Handlers.withOpens_wf1 w _, (List.perm_append_singleton _ _).nodup_iff.2 (List.nodup_cons.2 ⟨hno, h.nd⟩), ?_, ?_, ?_⟩
    · intro t ht
      show t < (Hoard.link cfg env s (newEntry s k (.pending {}))).nextId
      rcases List.mem_append.1 ht with ht | ht
      · have := h.lt t ht; omega
      · simp at ht; omega
    · intro hd' t ht
      rcases List.mem_append.1 ht with ht | ht
      · exact h1.pe hd' t (by rw [ho]; exact ht)
      · simp at ht
        exact ⟨_, hin, by rw [ht]; rfl, by rfl⟩
    · intro t ht
      rcases List.mem_append.1 ht with ht | ht
      · exact h1.dq t (by rw [ho]; exact ht)
      · simp at ht
        rw [ht]
        intro hm
        have := hdq.1 hm
        simp [newEntry, Entry.isPending, Mapped.isPending] at this
  unfold Hoard.resolveAsync
  simp only
  rw [← ho] at h2
  cases b with
  | later => exact h2
  | now r => exact h2.complete s.nextId r
  | drop => exact h2.drop s.nextId

theorem Lite.answer (h : Lite cfg s) (i u : Nat) (l : Look V E) : Lite cfg (answer s i u l).1 := by
  cases l with
  | pend =>
    refine Lite.modify h i (f := (·.upd (.addCb (.user u)))) (IdKey.upd _) (fun _ e hp => ?_)
    simp only [Entry.isPending, Entry.upd] at hp ⊢
    cases hm : e.mapped <;> rw [hm] at hp <;> first | exact hp | cases hp
  | _ => exact h

theorem Lite.asyncGet (hc : cfg.Ok) (h : Lite cfg s) (k : K) (u : Nat) (b : Beh V E) : Lite cfg (asyncGet cfg env s k u b).1 := by
  have h1 := h.get_ (env := env) hc k true
  simp only [Hoard.asyncGet]
  split
  · exact h1.answer _ _ _
  · exact (h1.resolveAsync k b).answer _ _ _

theorem Lite.tick (h : Lite cfg s) (r : Res V E) (b : Beh V E) : Lite cfg (tick cfg env s r b).1 := by
  simp only [Hoard.tick]
  cases hq : s.delayQ with
  | nil => exact h
  | cons i q =>
    simp only
    cases s.find i with
    | none => exact h
    | some e =>
      simp only
      split
      · have hqn := h.wf.dqN
        have hqm := h.wf.dqM
        rw [hq] at hqn hqm
        have w' : WF1 cfg ({ s with delayQ := q } : St K V E) :=
          ⟨h.wf.ids, h.wf.lt, h.wf.placed, h.wf.sorted, h.wf.bq, (List.nodup_cons.1 hqn).2, fun j hj => hqm j (List.mem_cons_of_mem _ hj)⟩
        have h' : Lite cfg ({ s with delayQ := q } : St K V E) :=
          h.next w' (List.Sublist.refl _) (Nat.le_refl _) rfl (fun _ _ p => p) (fun t _ p => by rw [hq]; exact List.mem_cons_of_mem _ p)
        simp only [Hoard.refresh]
        split
        · exact h'
        · have h2 : Lite cfg (if cfg.resolver = .async then Hoard.resolveAsync cfg env ({ s with delayQ := q } : St K V E) e.key b
              else Hoard.resolveSync cfg env ({ s with delayQ := q } : St K V E) e.key r).1 := by
            split
            · exact h'.resolveAsync e.key b
            · exact h'.link rfl
          generalize (if cfg.resolver = .async then Hoard.resolveAsync cfg env ({ s with delayQ := q } : St K V E) e.key b
              else Hoard.resolveSync cfg env ({ s with delayQ := q } : St K V E) e.key r) = g at h2
          obtain ⟨s1, tok⟩ := g
          have h3 : Lite cfg (s1.modify e.id (fun x => { x with refreshing := true })) := Lite.modify h2 e.id (fun _ => ⟨rfl, rfl⟩) (fun _ _ hp => hp)
          simp only
          split
          · split
            · refine Lite.modify h3 tok (IdKey.upd _) (fun _ e hp => ?_)
              simp only [Entry.isPending, Entry.upd] at hp ⊢
              cases hm : e.mapped <;> rw [hm] at hp <;> first | exact hp | cases hp
            · exact h3.runCb tok (.refresh e.id)
          · exact h3
      · exact h

theorem Lite.destroy (h : Lite cfg s) : Lite cfg (destroy cfg s).1 := by
  have w := Nested.destroy_wf1 (cfg := cfg) h.wf
  have ho : (Hoard.destroy cfg s).1.opens = s.opens := by simp [Hoard.destroy]
  have hn : (Hoard.destroy cfg s).1.nextId = s.nextId := by simp [Hoard.destroy]
  refine ⟨w, by rw [ho]; exact h.nd, by rw [ho, hn]; exact h.lt, fun hd => by simp [Hoard.destroy] at hd, ?_⟩
  intro t ht hm
  have := w.dqM t hm
  have he : (Hoard.destroy cfg s).1.ents = [] := by
    show (dispose cfg { s with tbl := s.tbl.map (fun _ => []) } s.ents).ents = []
    rw [dispose_ents]; simp [St.ents]
  rw [he] at this; cases this

theorem Lite.step (hc : cfg.Ok) (h : Lite cfg s) (o : Op K V E) : Lite cfg (step cfg env s o).1 := by
  cases o with
  | getIfExists k => exact h
  | count => exact h
  | get k r =>
    have h1 := h.get_ (env := env) hc k false
    simp only [Hoard.step, Hoard.get]
    split
    · exact h1.link rfl
    all_goals exact h1
  | asyncGet k u b => exact h.asyncGet hc k u b
  | emplace k v f =>
    simp only [Hoard.step, Hoard.emplace]
    have h2 := (h.expire (env := env) hc k).try (env := env) (e := newEntry (expire_ cfg env s k) k (.value v : Mapped V E)) rfl f
    split
    · exact h2.evict env
    · exact h2
  | getOrEmplace k v f =>
    have h1 := h.get_ (env := env) hc k true
    simp only [Hoard.step, Hoard.getOrEmplace]
    generalize Hoard.get_ cfg env s k true = g at *
    obtain ⟨s1, l⟩ := g
    simp only at *
    have h2 := h1.try (env := env) (e := newEntry s1 k (.value v : Mapped V E)) rfl f
    cases l with
    | none =>
      simp only
      split
      · exact h2.evict env
      · exact h2
    | _ => exact h1.evict env
  | erase k => exact h.expire hc k
  | clear => exact h.shr (clear_wf1 h.wf) (clear_shr (env := env) (F := { die := fun _ _ _ => True }) h.wf (fun _ _ _ => trivial))
  | complete t r => exact h.complete t r
  | drop t => exact h.drop t
  | tick r b => exact h.tick r b
  | destroy => exact h.destroy

theorem Lite.xstep (hc : cfg.Ok) (nx : Bool) {x : XSt K V E} (h : Lite cfg x.s) (o : XOp K V E) (ho : o.ok cfg x) : Lite cfg (xstep cfg nx env x o).1.s := by
  cases o with
  | plain p =>
    cases p with
    | complete tok r =>
      simp only [Throw.xstep]
      split
      · have : (completeDead x tok r).1.s = x.s := by
          unfold completeDead; split
          · rfl
          · cases r <;> rfl
        rw [this]; exact h
      · exact h.complete tok r
    | drop tok =>
      simp only [Throw.xstep]
      split
      · exact h
      · exact h.drop tok
    | getIfExists k => exact h.step (env := env) hc (.getIfExists k)
    | get k r => exact h.step hc (.get k r)
    | asyncGet k u b => exact h.step hc (.asyncGet k u b)
    | emplace k v f => exact h.step hc (.emplace k v f)
    | getOrEmplace k v f => exact h.step hc (.getOrEmplace k v f)
    | erase k => exact h.step hc (.erase k)
    | clear => exact h.step (env := env) hc .clear
    | count => exact h.step (env := env) hc .count
    | tick r b => exact h.step hc (.tick r b)
    | destroy => exact h.step (env := env) hc .destroy
  | getFail k r f =>
    have h1 := h.get_ (env := env) hc k false
    simp only [Throw.xstep, getFail, Hoard.get, ho.2.1]
    generalize Hoard.get_ cfg env x.s k false = g at *
    obtain ⟨s1, l⟩ := g
    cases l with
    | none =>
      cases f with
      | grow =>
        simp only
        split
        · exact h1.before
        · exact h1.link rfl
      | _ => exact h1
    | _ => exact h1
  | asyncFail k u b f =>
    have h1 := h.get_ (env := env) hc k true
    have hA := h.asyncGet (env := env) hc k u b
    simp only [Throw.xstep, asyncFail]
    split
    · split
      · exact h1
      · exact h1.answer _ _ _
    · split
      · exact h1
      · split
        · exact h1.before
        · exact hA
      · exact h1.resolveAsync k b
      · split
        · exact hA
        · exact h1.resolveAsync k b
  | assignFail tok keeps v =>
    simp only [Throw.xstep, assignFail]
    split
    · split
      · exact h.complete tok (.ok v)
      · cases keeps with
        | false => exact h.close tok (f := (·.upd (failed cfg.ptr false))) (IdKey.upd _)
        | true =>
          refine Lite.modify h tok (f := (·.upd (failed cfg.ptr true))) (IdKey.upd _) (fun _ e hp => ?_)
          simp only [Entry.isPending, Entry.upd] at hp ⊢
          cases hm : e.mapped <;> rw [hm] at hp <;> first | rfl | cases hp
    · split
      · split <;> exact h
      · exact h

theorem lite_init : Lite cfg (St.init : St K V E) :=
  ⟨wf1_init cfg, List.nodup_nil, fun _ h => (by cases h), fun _ _ h => (by cases h), fun _ h => (by cases h)⟩

theorem failTrace_snoc (nx : Bool) (x : XSt K V E) (h : XHist K V E) (env : Env V) (o : XOp K V E) :
    failTrace cfg nx x (h ++ [(env, o)]) = failTrace cfg nx x h ++ failing cfg env (xrun cfg nx x h).1 o := by
  induction h generalizing x with
  | nil => simp [failTrace, xrun]
  | cons p h ih => obtain ⟨e1, o⟩ := p; simp [failTrace, xrun, ih]

theorem fail_knows (hc : cfg.Ok) (nx : Bool) (h : XHist K V E) (hok : XHistOk cfg nx {} h) :
    Book.accepts {} (failTrace cfg nx {} h) ∧ Knows (fun _ => False) (Book.notes {} (failTrace cfg nx {} h)) (xstateAfter cfg nx h).s ∧ Lite cfg (xstateAfter cfg nx h).s := by
  induction h using snoc_ind with
  | h0 => exact ⟨trivial, knows_init, lite_init⟩
  | h1 h p ih =>
    obtain ⟨env, o⟩ := p
    rw [XHistOk_append] at hok
    obtain ⟨ha, hk, hl⟩ := ih hok.1
    have hop : (xstateAfter cfg nx h).s.destroyed = false → ∀ t ∈ (xstateAfter cfg nx h).s.opens, t ∈ ids (xstateAfter cfg nx h).s := by
      intro hd t ht
      obtain ⟨e, he, hi, _⟩ := hl.pe hd t ht
      exact List.mem_map.2 ⟨e, he, hi⟩
    obtain ⟨h1, h2⟩ := failing_seg (env := env) hc nx hl.wf hl.nd (fun hm => Nat.lt_irrefl _ (hl.lt _ hm)) hop o hok.2.1 _ hk
    rw [failTrace_snoc, accepts_append, notes_append, xstateAfter_snoc]
    exact ⟨⟨ha, h1⟩, h2, hl.xstep hc nx o hok.2.1⟩

/-! ## The recency queue -/

theorem getFail_fol (nx : Bool) (x : XSt K V E) (hr : cfg.resolver = .sync) (k : K) (r : Res V E) (f : SyncFail) :
    Fol cfg x.s (getFail cfg env nx x k r f).1.s (getFailed cfg env x.s k r f) := by
  have h1 := lookup_fol (cfg := cfg) (env := env) (s := x.s) k false
  have hiff := hit_none_iff (cfg := cfg) (env := env) (s := x.s) (k := k) (incl := false)
  unfold getFailed
  refine h1.trans ?_
  by_cases hn : (get_ cfg env x.s k false).2 = .none
  · rw [if_pos (hiff.2 hn)]
    cases f with
    | grow =>
      unfold getFail Hoard.get
      simp only [hr]
      generalize get_ cfg env x.s k false = g at *
      obtain ⟨s1, l⟩ := g
      simp only at hn; subst hn
      simp only
      by_cases hg : mustGrow cfg (beforeLink cfg env s1) = true
      · rw [if_pos hg, if_pos hg]; exact before_fol
      · rw [if_neg hg, if_neg hg]; exact link_fol _
    | _ =>
      unfold getFail
      generalize get_ cfg env x.s k false = g at *
      obtain ⟨s1, l⟩ := g
      simp only at hn; subst hn
      exact .refl _
  · rw [if_neg (fun h => hn (hiff.1 h))]
    unfold getFail
    generalize get_ cfg env x.s k false = g at *
    obtain ⟨s1, l⟩ := g
    cases l with
    | none => exact absurd rfl hn
    | _ => exact .refl _

theorem asyncFail_fol (k : K) (u : Nat) (b : Beh V E) (f : AsyncFail) :
    Fol cfg s (asyncFail cfg env s k u b f).1 (asyncFailed cfg env s k b f) := by
  have h1 := lookup_fol (cfg := cfg) (env := env) (s := s) k true
  have hra := resolveAsync_fol (cfg := cfg) (env := env) (s := (get_ cfg env s k true).1) k b
  unfold asyncFailed asyncFail
  refine h1.trans ?_
  cases hh : (getWalk cfg env k true (s.bucket (s.bucketFor (cfg.hash k)))).hit with
  | some p =>
    obtain ⟨id, l⟩ := p
    simp only [Option.isNone_some, Bool.false_eq_true, if_false]
    split
    · exact .refl _
    · exact .same (answer_queues _ _ _).1 (answer_queues _ _ _).2
  | none =>
    have hA : Fol cfg (get_ cfg env s k true).1 (asyncGet cfg env s k u b).1 (resolveAsync cfg env (get_ cfg env s k true).1 k b) := by
      unfold asyncGet
      simp only [hh]
      exact hra.then_same (answer_queues _ _ _).1 (answer_queues _ _ _).2
    simp only [Option.isNone_none, if_true]
    cases f with
    | alloc => exact .refl _
    | grow =>
      simp only
      by_cases hg : mustGrow cfg (beforeLink cfg env (get_ cfg env s k true).1) = true
      · rw [if_pos hg, if_pos hg]; exact before_fol
      · rw [if_neg hg, if_neg hg]; exact hA
    | functor => exact hra
    | register => cases b with
      | now r => exact hA
      | _ => exact hra

theorem assignFail_fol (x : XSt K V E) (tok : Nat) (keeps : Bool) (v : V) : Fol cfg x.s (assignFail cfg env x tok keeps v).1.s [] := by
  simp only [assignFail]
  split
  · split
    · rename_i ht hd
      have := complete_fol (cfg := cfg) (env := env) (s := x.s) tok (.ok v)
      simp only [completed, ht, hd, if_true] at this
      exact this
    · exact .same rfl rfl
  · split
    · split <;> exact .refl _
    · exact .refl _

theorem failing_bq (hm : cfg.maxSize.isSome = true) (nx : Bool) (x : XSt K V E) (o : XOp K V E) (ho : o.ok cfg x) :
    (xstep cfg nx env x o).1.s.bq = recency x.s.bq (failing cfg env x o) := by
  cases o with
  | plain p =>
    cases p with
    | complete tok r =>
      simp only [Throw.xstep, failing]
      by_cases hd : tok ∈ x.dead
      · rw [if_pos hd, if_pos hd]
        unfold completeDead; split
        · rfl
        · cases r <;> rfl
      · rw [if_neg hd, if_neg hd]
        exact (complete_fol tok r).bq hm
    | drop tok =>
      simp only [Throw.xstep, failing]
      split
      · rfl
      · exact (drop_queues tok).1
    | getIfExists k => exact step_bq (env := env) hm (.getIfExists k)
    | get k r => exact step_bq hm (.get k r)
    | asyncGet k u b => exact step_bq hm (.asyncGet k u b)
    | emplace k v f => exact step_bq hm (.emplace k v f)
    | getOrEmplace k v f => exact step_bq hm (.getOrEmplace k v f)
    | erase k => exact step_bq hm (.erase k)
    | clear => exact step_bq (env := env) hm .clear
    | count => exact step_bq (env := env) hm .count
    | tick r b => exact step_bq hm (.tick r b)
    | destroy => exact step_bq (env := env) hm .destroy
  | getFail k r f => exact (getFail_fol nx x ho.2.1 k r f).bq hm
  | asyncFail k u b f => exact (asyncFail_fol k u b f).bq hm
  | assignFail tok keeps v => exact (assignFail_fol x tok keeps v).bq hm

/-! ## Which entries are assigned -/

/-- The entries assigned by these calls are all in `P`. -/
def Asg (P : Nat → Prop) (evs : List Ev) : Prop := ∀ i v c, .assign i v c ∈ evs → P i

variable {P : Nat → Prop}

theorem Asg.nil : Asg P [] := fun _ _ _ h => (by cases h)
theorem Asg.append {xs ys : List Ev} (h : Asg P xs) (h' : Asg P ys) : Asg P (xs ++ ys) := fun i v c hm => (List.mem_append.1 hm).elim (h i v c) (h' i v c)
theorem asg_unlinks (es : List (Entry K V E)) : Asg P (unlinks es) := by
  intro i v c h; obtain ⟨e, _, he⟩ := List.mem_map.1 h; cases he
theorem asg_lookup (k : K) (incl : Bool) : Asg P (lookup cfg env s k incl) := by
  unfold lookup
  refine (asg_unlinks _).append (fun i v c h => ?_)
  rw [List.mem_singleton] at h
  split at h <;> cases h
theorem asg_before : Asg P (before cfg env s) := by
  unfold before; split
  · exact asg_unlinks _
  · exact .nil
theorem asg_linked {e : Entry K V E} (h : P e.id) : Asg P (linked cfg env s e) := by
  unfold linked
  refine asg_before.append ?_
  intro i v c hm
  split at hm
  · simp at hm
  · simp at hm; rw [hm.1]; exact h
theorem asg_tried {e : Entry K V E} (h : P e.id) (f : Fail) : Asg P (tried cfg env s e f) := by
  cases f with
  | none => exact asg_linked h
  | alloc => exact .nil
  | grow => simp only [tried]; split
            · exact asg_before
            · exact asg_linked h
theorem asg_completed {t : Nat} (r : Res V E) (h : t ∈ s.opens → P t) : Asg P (completed s t r) := by
  unfold completed
  split
  · rename_i ht
    split
    · exact .nil
    · intro i v c hm; simp at hm; rw [hm.1]; exact h ht
  · exact .nil
theorem asg_async (k : K) (b : Beh V E) (h : P s.nextId) : Asg P (resolveAsync cfg env s k b) := by
  unfold resolveAsync
  refine Asg.append (asg_linked h) ?_
  cases b with
  | now r => exact asg_completed r (fun _ => h)
  | _ => exact .nil

/-- Only lookups in flight and new entries are assigned. -/
theorem asg_events (o : Op K V E) : Asg (fun i => i ∈ s.opens ∨ i = s.nextId) (events cfg env s o) := by
  cases o with
  | getIfExists k => exact .nil
  | count => exact .nil
  | get k r =>
    refine (asg_lookup k false).append ?_
    split
    · exact asg_linked (.inr (by simp [newEntry]))
    · exact .nil
  | asyncGet k u b =>
    refine (asg_lookup k true).append ?_
    split
    · exact asg_async k b (.inr (by simp))
    · exact .nil
  | emplace k v f => exact (asg_unlinks _).append (asg_tried (.inr (by simp [newEntry])) f)
  | getOrEmplace k v f =>
    refine (asg_lookup k true).append ?_
    split
    · exact asg_tried (.inr (by simp [newEntry])) f
    · exact .nil
  | erase k => exact asg_unlinks _
  | clear => exact asg_unlinks _
  | complete t r => exact asg_completed r .inl
  | drop t => exact .nil
  | tick r b =>
    simp only [events]
    split
    · exact .nil
    · split
      · exact .nil
      · split
        · unfold refresh
          split
          · exact .nil
          · split
            · exact asg_async _ b (.inr rfl)
            · exact asg_linked (.inr rfl)
        · exact .nil
  | destroy => exact asg_unlinks _

theorem asg_failing (x : XSt K V E) (o : XOp K V E) : Asg (fun i => i ∈ x.s.opens ∨ i = x.s.nextId) (failing cfg env x o) := by
  cases o with
  | plain p =>
    by_cases hp : ∃ t r, p = .complete t r
    · obtain ⟨t, r, rfl⟩ := hp
      simp only [failing]
      split
      · exact .nil
      · exact asg_completed r .inl
    · have : failing cfg env x (.plain p) = events cfg env x.s p := by
        cases p with
        | complete t r => exact absurd ⟨t, r, rfl⟩ hp
        | _ => rfl
      rw [this]; exact asg_events p
  | getFail k r f =>
    refine (asg_lookup k false).append ?_
    split
    · split
      · split
        · exact asg_before
        · exact asg_linked (.inr (by simp [newEntry]))
      · exact .nil
    · exact .nil
  | asyncFail k u b f =>
    refine (asg_lookup k true).append ?_
    split
    · split
      · exact .nil
      · split
        · exact asg_before
        · exact asg_async k b (.inr (by simp))
      · exact asg_async k b (.inr (by simp))
    · exact .nil
  | assignFail tok keeps v => exact .nil

/-- A lookup that is over is not assigned. -/
def Over (t : Nat) (s : St K V E) : Prop := t ∉ s.opens ∧ t < s.nextId

theorem Over.go {t : Nat} (h : Over t s) (ho : ∀ u ∈ s'.opens, u ∈ s.opens ∨ s.nextId ≤ u) (hn : s.nextId ≤ s'.nextId) : Over t s' :=
  ⟨fun hm => (ho t hm).elim h.1 (fun q => by have := h.2; omega), Nat.lt_of_lt_of_le h.2 hn⟩

theorem Over.xstep (nx : Bool) {x : XSt K V E} {t : Nat} (h : Over t x.s) (o : XOp K V E) (ho : o.ok cfg x) : Over t (xstep cfg nx env x o).1.s := by
  have hpl : ∀ o : Op K V E, Over t (step cfg env x.s o).1 := fun o => by
    obtain ⟨h1, h2, _⟩ := step_tokens cfg env x.s o
    exact h.go (fun u hu => (h2 u hu).imp_right (fun q => by omega)) h1
  cases o with
  | plain p =>
    cases p with
    | complete tok r =>
      simp only [Throw.xstep]
      split
      · have : (completeDead x tok r).1.s = x.s := by
          unfold completeDead; split
          · rfl
          · cases r <;> rfl
        rw [this]; exact h
      · exact hpl (.complete tok r)
    | drop tok =>
      simp only [Throw.xstep]
      split
      · exact h
      · exact hpl (.drop tok)
    | getIfExists k => exact hpl (.getIfExists k)
    | get k r => exact hpl (.get k r)
    | asyncGet k u b => exact hpl (.asyncGet k u b)
    | emplace k v f => exact hpl (.emplace k v f)
    | getOrEmplace k v f => exact hpl (.getOrEmplace k v f)
    | erase k => exact hpl (.erase k)
    | clear => exact hpl .clear
    | count => exact hpl .count
    | tick r b => exact hpl (.tick r b)
    | destroy => exact hpl .destroy
  | getFail k r f =>
    rcases getFail_cases (cfg := cfg) (nx := nx) (x := x) ho.2.1 env k r f with ⟨_, q⟩ | ⟨_, _, _, q1, q2, _⟩
    · simp only [Throw.xstep, q]; exact hpl (.get k r)
    · exact h.go (fun u hu => .inl (by simp only [Throw.xstep] at hu; rwa [q1] at hu)) (by simp only [Throw.xstep]; omega)
  | asyncFail k u b f =>
    obtain ⟨h1, h2, _⟩ := asyncFail_tokens (cfg := cfg) (s := x.s) env k u b f
    exact h.go (fun u hu => (h2 u hu).imp_right (fun q => by omega)) h1
  | assignFail tok keeps v =>
    simp only [Throw.xstep, assignFail]
    split
    · split
      · exact hpl (.complete tok (.ok v))
      · refine h.go (fun u hu => .inl ?_) (Nat.le_refl _)
        cases keeps
        · exact List.mem_of_mem_erase hu
        · exact hu
    · split
      · split <;> exact h
      · exact h

theorem over_silent (nx : Bool) {t : Nat} (h : XHist K V E) : ∀ {x : XSt K V E}, Over t x.s → XHistOk cfg nx x h → ∀ v c, Ev.assign t v c ∉ failTrace cfg nx x h := by
  induction h with
  | nil => intro x _ _ v c hm; cases hm
  | cons p h ih =>
    obtain ⟨env, o⟩ := p
    intro x ho hok v c hm
    rcases List.mem_append.1 hm with hm | hm
    · rcases asg_failing x o t v c hm with q | q
      · exact ho.1 q
      · have := ho.2; omega
    · exact ih (ho.xstep nx o hok.1) hok.2 v c hm

theorem failTrace_append (nx : Bool) (h1 h2 : XHist K V E) : ∀ x : XSt K V E,
    failTrace cfg nx x (h1 ++ h2) = failTrace cfg nx x h1 ++ failTrace cfg nx (xrun cfg nx x h1).1 h2 := by
  induction h1 with
  | nil => intro x; rfl
  | cons p h1 ih => obtain ⟨e, o⟩ := p; intro x; simp [failTrace, xrun, ih]

theorem given_of_assign (i : Nat) (v c : Bool) (evs : List Ev) : ∀ b : Book, .assign i v c ∈ evs ∨ i ∈ b.given → i ∈ (b.notes evs).given := by
  induction evs with
  | nil => intro b h; exact h.elim (fun h => by cases h) id
  | cons e evs ih =>
    intro b h
    apply ih
    rcases h with h | h
    · rcases List.mem_cons.1 h with rfl | h
      · exact .inr List.mem_cons_self
      · exact .inl h
    · right
      cases e with
      | assign j a d => exact List.mem_cons_of_mem _ h
      | _ => exact h

/-- The callback objects whose entries hold no lookup any more: these entries were never assigned. -/
structure Husk (b : Book) (x : XSt K V E) : Prop where
  ov : ∀ t ∈ x.dead, Over t x.s
  gi : ∀ t ∈ x.dead, t ∉ b.given

end Hoard.Events
