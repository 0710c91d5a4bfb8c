import Verif.InvLed
/-! Every operation preserves the invariant and agrees with the ledger: insertion,
lookup, removal. -/
namespace Hoard
open Spec
variable {K V E : Type}
variable {cfg : Cfg K} {M : Md V} {F : Eff K V} {L L' : Ledger K V} {s s' : St K V E}

/-- Neither a value nor a valid lookup of the key is stored. -/
def Clean (cfg : Cfg K) (s : St K V E) (k : K) : Prop :=
  ∀ e ∈ s.ents, cfg.eqv e.key k = true → e.mapped.val? = none ∧ e.mapped.live = false

theorem Clean.of_shrE {env : Env V} {e e' : Entry K V E} (sh : ShrE cfg env F e e') (h : e.mapped.val? = none ∧ e.mapped.live = false) :
    e'.mapped.val? = none ∧ e'.mapped.live = false := by
  constructor
  · cases hv : e'.mapped.val? with
    | none => rfl
    | some v => rw [sh.val v hv] at h; cases h.1
  · cases hv : e'.mapped.live
    · rfl
    · rw [sh.live hv] at h; cases h.2

theorem Clean.shr {env : Env V} {k : K} (h : Clean cfg s k) (r : Shr cfg env F s s') : Clean cfg s' k := by
  intro e' he' hk
  obtain ⟨e, he, sh⟩ := r.bwd e' he'
  exact Clean.of_shrE sh (h e he (sh.key ▸ hk))

theorem Clean.spc {env : Env V} {x : Nat} {k : K} (h : Clean cfg s k) (r : Spc cfg env F x s s') :
    ∀ e' ∈ s'.ents, e'.id ≠ x → cfg.eqv e'.key k = true → e'.mapped.val? = none ∧ e'.mapped.live = false := by
  intro e' he' hx hk
  obtain ⟨e, he, sh⟩ := r.bwd e' he' hx
  exact Clean.of_shrE sh (h e he (sh.key ▸ hk))

theorem Mapped.cbs_nil {m : Mapped V E} (h : m.isPending = false) : m.cbs = [] := by
  cases m <;> first | rfl | cases h

theorem assignTimes_mapped (cfg : Cfg K) (env : Env V) (b : Bool) (e : Entry K V E) :
    (assignTimes cfg env b e).mapped = e.mapped ∧ (assignTimes cfg env b e).refreshing = e.refreshing := by
  unfold assignTimes; simp only; split
  · exact ⟨rfl, rfl⟩
  · split <;> exact ⟨rfl, rfl⟩

theorem linkUpd_facts (cfg : Cfg K) (env : Env V) (e : Entry K V E) :
    (linkUpd cfg env e).id = e.id ∧ (linkUpd cfg env e).key = e.key ∧ (linkUpd cfg env e).mapped = e.mapped ∧
    (linkUpd cfg env e).refreshing = e.refreshing ∧ (e.isPending = true → linkUpd cfg env e = e) := by
  unfold linkUpd
  split
  · exact ⟨rfl, rfl, rfl, rfl, fun _ => rfl⟩
  · rename_i h
    have := assignTimes_idKey cfg env (e.mapped.holdsValue env) e
    have h2 := assignTimes_mapped cfg env (e.mapped.holdsValue env) e
    exact ⟨this.1, this.2, h2.1, h2.2, fun hp => absurd hp h⟩

/-- Creating an entry does nothing of importance to the others. -/
theorem onCreate_shr (env : Env V) (s : St K V E) (i : Nat) : Shr cfg env F s (onCreate cfg env s i) := by
  unfold onCreate; split
  · simp only; split
    · exact .perm ⟨rfl, rfl, rfl⟩ (.refl _) rfl rfl
    · exact Shr.trans (b := { s with bq := (s.bq.onCreate i).1 }) (.perm ⟨rfl, rfl, rfl⟩ (.refl _) rfl rfl)
        (.modify _ _ _ (fun e _ _ => .strengthen e) (fun e _ _ w => .strengthen e w.exp)
          (fun e _ _ => ⟨(ShrE.strengthen (cfg := cfg) e).lim, (ShrE.strengthen (cfg := cfg) (F := F) (env := env) e).cbs⟩))
  · exact .refl _

theorem onAssign_spc (env : Env V) (s : St K V E) (i : Nat) (b : Bool) : Spc cfg env F i s (onAssign cfg env s i b) := by
  have h1 : Spc cfg env F i s (s.modify i (assignTimes cfg env b)) :=
    .modify s (assignTimes_idKey cfg env b) (fun e _ => .inr (fun h => by rw [(assignTimes_mapped cfg env b e).1]; exact h))
  unfold onAssign; simp only; split
  · exact h1.trans (.delayQ _)
  · exact h1

theorem place_spc (env : Env V) (s : St K V E) (e : Entry K V E) (hn : s.tbl ≠ []) :
    Spc cfg env F e.id s { s with tbl := place cfg s.tbl e, nextId := s.nextId + 1 } := by
  have hp : ({ s with tbl := place cfg s.tbl e, nextId := s.nextId + 1 } : St K V E).ents.Perm (s.ents ++ [e]) :=
    Buckets.perm_place (fun e : Entry K V E => cfg.hash e.key) hn e
  refine ⟨rfl, ?_, ?_, ?_, ⟨s.delayQ, 0, .refl _, by simp⟩, fun _ h _ => .inl h, fun _ _ => Iff.rfl, fun h => h, ?_⟩
  · intro e' he' hx
    rcases List.mem_append.1 (hp.mem_iff.1 he') with h | h
    · exact ⟨e', h, .refl _⟩
    · simp at h; subst h; exact absurd rfl hx
  · intro e1 h1 _ _; exact ⟨e1, hp.mem_iff.2 (List.mem_append_left _ h1), .refl _⟩
  · intro e1 h1 _ w; exact ⟨e1, hp.mem_iff.2 (List.mem_append_left _ h1), .refl _, rfl, rfl, w.exp⟩
  · intro o ho _
    refine ⟨o, ?_, .refl _⟩
    rcases List.mem_append.1 ho with h | h
    · exact List.mem_append_left _ (hp.mem_iff.2 (List.mem_append_left _ h))
    · exact List.mem_append_right _ h

theorem link_spc (env : Env V) (h : WF1 cfg s) {e : Entry K V E} (he : e.id = s.nextId) :
    WF1 cfg (link cfg env s e) ∧ Spc cfg env F e.id s (link cfg env s e) ∧ linkUpd cfg env e ∈ (link cfg env s e).ents ∧
    (link cfg env s e).opens = s.opens ∧ (link cfg env s e).nextId = s.nextId + 1 ∧ (link cfg env s e).destroyed = s.destroyed ∧
    (e.id ∈ (link cfg env s e).delayQ ↔ (cfg.refresh.isSome && !e.isPending && e.mapped.holdsValue env) = true) := by
  obtain ⟨w, ho, hd, hn, kept, o, hdr, hp, _, _, hdq⟩ := link_spec env h he
  refine ⟨w, ?_, hp.mem_iff.2 (by simp), ho, hn, hd, ?_⟩
  · unfold link
    simp only
    have h1 : Spc cfg env F e.id s (maybeRehash cfg env s) := (maybeRehash_shr h).spc _
    have h3 := (h1.trans (place_spc env _ e (maybeRehash_ne env s))).trans ((onCreate_shr env _ e.id).spc e.id)
    split
    · exact h3
    · exact h3.trans (onAssign_spc env _ _ _)
  · have hnd : e.id ∉ (maybeRehash cfg env s).delayQ := by
      intro hm
      have hm := (maybeRehash_shr (env := env) (F := ({} : Eff K V)) h).dq.subset hm
      obtain ⟨x, hx, hxe⟩ := List.mem_map.1 (h.dqM _ hm)
      have := h.lt x (List.mem_append_left _ hx); omega
    rw [hdq, List.mem_append]
    constructor
    · rintro (h | h)
      · exact absurd h hnd
      · split at h
        · assumption
        · cases h
    · intro h; right; rw [if_pos h]; simp

/-- Deadlines of a new entry. -/
theorem linkUpd_times (env : Env V) (s : St K V E) (k : K) {m : Mapped V E} (hv : m.holdsValue env = true) (hm : m.isPending = false) (L : Ledger K V) (o : Option V)
    {a : K} (ha : cfg.eqv a k = true) :
    (linkUpd cfg env (newEntry s k m)).expTp = (L.put cfg.eqv env.now false k o).ageLimit cfg.maxAge cfg.wall a ∧
    (linkUpd cfg env (newEntry s k m)).canTp = (L.put cfg.eqv env.now false k o).idleLimit cfg.refresh a ∧
    (linkUpd cfg env (newEntry s k m)).refTp = (L.put cfg.eqv env.now false k o).dueAt cfg.refresh a := by
  unfold linkUpd
  have : (newEntry s k m).isPending = false := hm
  simp only [this, Bool.false_eq_true, if_false]
  have hv' : (newEntry s k m).mapped.holdsValue env = true := hv
  rw [hv']
  simp only [assignTimes, newEntry, Ledger.ageLimit, Ledger.idleLimit, Ledger.dueAt, Ledger.put, ha, if_true, ageTp]
  cases h1 : cfg.maxAge <;> cases h2 : cfg.refresh <;> simp [deadMin, tpMin]
  all_goals (rename_i p; obtain ⟨d, i⟩ := p; simp; try (split <;> simp_all))

/-- Insertion of something that is not a lookup in flight. -/
theorem insert_ok (hc : cfg.Ok) {X} (h : Good cfg M X s L) (hd : s.destroyed = false) {k : K} (hcl : Clean cfg s k) {m : Mapped V E}
    (hm : m.isPending = false) (hst : m.strong = true) (hnvd : m.isVoid = false) :
    Good cfg M X (link cfg M.env s (newEntry s k m)) (L.put cfg.eqv M.env.now false k m.val?) := by
  obtain ⟨w, r, hin, hop, hnx, hdes, hdq⟩ := link_spc (F := ({} : Eff K V)) M.env h.wf1 (e := newEntry s k m) rfl
  obtain ⟨f1, f2, f3, f4, _⟩ := linkUpd_facts cfg M.env (newEntry s k m)
  have hmm : (linkUpd cfg M.env (newEntry s k m)).mapped = m := f3
  have hnp : (linkUpd cfg M.env (newEntry s k m)).isPending = false := by simp only [Entry.isPending, hmm, hm]
  have hnl : m.live = false := by
    cases hh : m.live
    · rfl
    · rw [Mapped.live_pending hh] at hm; cases hm
  have hcl' := hcl.spc r
  have hid : (newEntry s k m).id = s.nextId := rfl
  have hkey : (linkUpd cfg M.env (newEntry s k m)).key = k := f2
  have hxo : s.nextId ∉ (link cfg M.env s (newEntry s k m)).opens := by
    rw [hop]; intro ho
    obtain ⟨e, he, hid, _⟩ := h.wf2.opE hd _ ho
    exact id_ne_next h.wf1 he hid
  have hhv : m.val? ≠ none → m.holdsValue M.env = true := by
    intro hv; cases m <;> first | rfl | exact absurd rfl hv | cases hst
  have hn : SpcN cfg s (link cfg M.env s (newEntry s k m)) s.nextId (linkUpd cfg M.env (newEntry s k m)) := by
    refine ⟨hin, f1, by rw [hop]; exact h.wf2.opN, fun ho => absurd ho hxo, ?_, fun _ => hnp, ?_, ?_,
      fun e he _ => cb_ne_next h.wf1 h.wf2 he, ?_, ?_, ?_⟩
    · intro hp; rw [hnp] at hp; cases hp
    · intro old ho; rw [hmm, Mapped.cbs_nil hm] at ho; cases ho
    · intro a b ha; rw [hmm, Mapped.cbs_nil hm] at ha; cases ha
    · intro e' he' hx hk _; exact (hcl' e' he' hx (by rw [hkey] at hk; exact hk)).2
    · intro e' he' hx hk _; exact (hcl' e' he' hx (by rw [hkey] at hk; exact hk)).1
    · intro e' he' hx hk hl; rw [hmm, hnl] at hl; cases hl
  refine h.put hc hd w r hn ?_ (k := k) (by rw [hkey]; exact hc.refl _) ⟨fun _ h => h, fun _ _ h => h.elim, fun _ _ h => h.elim, fun _ _ _ => .inr (fun h => h)⟩
    hxo (by omega) (by omega) (fun e he hh => absurd hh (id_ne_next h.wf1 he)) (fun a _ => h.fresh a) hnp (by rw [hmm]; exact fun _ h => h) (by rw [hmm]; exact fun _ => rfl)
    (by rw [hmm]; exact fun _ _ => hst) hcl' ?_
  · refine h.dq.special w r hin f1 ?_ (fun _ _ h => h.elim) (fun _ _ _ hx _ _ => hx) ?_ ?_ (fun hv => absurd hv (by rw [hmm, hnvd]; simp))
    · intro hm
      obtain ⟨x, hx, hxe⟩ := List.mem_map.1 (h.wf1.dqM _ hm)
      exact id_ne_next h.wf1 hx hxe
    · intro d i hr hq
      have h2 := hdq.1 hq
      simp only [Bool.and_eq_true] at h2
      have := (linkUpd_times M.env s k (m := m) h2.2 hm L none (hc.refl k)).2.2
      rw [this]; simp [Ledger.dueAt, hr, Ledger.put, hc.refl]
    · intro hr hv _
      left; apply hdq.2
      rw [hmm] at hv
      have h1 : (newEntry s k m).isPending = false := hm
      have h2 : (newEntry s k m).mapped.holdsValue M.env = true := hhv hv
      simp [hr, h1, h2]
  · intro hv
    rw [hmm] at hv
    exact ⟨f4, fun a ha => linkUpd_times M.env s k (hhv hv) hm L _ ha⟩

theorem expire_clean (hc : cfg.Ok) (h : WF1 cfg s) (env : Env V) (k : K) :
    Clean cfg (expire_ cfg env s k) k := by
  obtain ⟨kept, rem, h1, h2, h3, h4⟩ := expire_spec hc h env k
  intro e' he' hk
  obtain ⟨e, he, rfl⟩ := List.mem_map.1 (h2.mem_iff.1 he')
  rw [(expUpd_idKey cfg k e).2] at hk
  have hp := h4 e he hk
  simp only [expUpd, hk, if_true, Entry.upd]
  cases hm : e.mapped <;> simp_all [Entry.isPending, Mapped.isPending, Mapped.markExpired, Mapped.val?, Mapped.live]

theorem expire_ok (hc : cfg.Ok) {X} (h : Good cfg M X s L) (k : K) :
    Good cfg M X (expire_ cfg M.env s k) (L.put cfg.eqv M.env.now false k none) ∧ Clean cfg (expire_ cfg M.env s k) k ∧
    (expire_ cfg M.env s k).destroyed = s.destroyed := by
  have r := expire_shr (env := M.env) (F := { die := fun _ k' _ => cfg.eqv k' k = true }) hc h.wf1 k (fun _ _ _ h => h)
  have hcl := expire_clean hc h.wf1 M.env k
  exact ⟨h.erased hc (expire_wf1 hc h.wf1 M.env k) r ⟨fun _ h => h, fun _ _ h => h.elim, fun _ _ h => h, fun _ _ _ => .inr (fun h => h)⟩
    (fun _ h => h) hcl, hcl, r.same.destroyed⟩

theorem put_put (eqv : K → K → Bool) (now : Time) (L : Ledger K V) (k : K) (o o' : Option V) :
    (L.put eqv now false k o).put eqv now false k o' = L.put eqv now false k o' := by
  simp only [Ledger.put, Ledger.mk.injEq, true_and]
  refine ⟨?_, ?_, ?_, ?_, ?_, ?_⟩ <;> (funext x; split <;> simp_all)

theorem maintenance_size (cfg : Cfg K) (s : St K V E) : (maintenance cfg s).size = s.size := by
  unfold maintenance
  split
  · rfl
  · generalize St.bq s = q
    generalize q.victims _ = vs
    unfold evictAll
    induction vs generalizing s with
    | nil => rfl
    | cons v vs ih =>
      rw [List.foldl_cons, ih, St.size, ents_modify, List.length_map]; rfl

theorem victims_zero (b : BQ) : b.victims 0 = [] := by
  unfold BQ.victims; cases b.q.reverse <;> rfl

theorem evEff_quiet (hn : M.ex → NoEvict cfg s) : Quiet cfg M (evEff cfg M.env (victimIds cfg s)) s L := by
  have key : M.ex → (victimIds cfg s = [] ∨ cfg.maxSize.isSome = true ∧ cfg.weaken = true ∧ cfg.ptr = true) := by
    intro hex
    cases hm : cfg.maxSize with
    | none => left; simp [victimIds, hm]
    | some N =>
      rcases hn hex N hm with h | h
      · left; simp only [victimIds, hm]
        rw [show s.size - N = 0 by omega]; exact victims_zero _
      · right; exact ⟨rfl, h⟩
  refine ⟨fun _ h => h, fun _ h => h, ?_, ?_, ?_⟩
  · intro hex e he v hv _ hd
    obtain ⟨hd1, hd2⟩ := hd
    rcases key hex with h | ⟨h1, h2, h3⟩
    · rw [h] at hd1; cases hd1
    · refine .inr (.inr ⟨h1, h2, h3, ?_⟩)
      cases ha : M.env.alive v
      · rfl
      · exfalso; apply hd2
        exact ⟨h2, .inr ⟨h3, fun u hu => by cases hu; exact ha⟩⟩
  · intro hex e he hl hd
    obtain ⟨hd1, hd2⟩ := hd
    rcases key hex with h | ⟨h1, h2, h3⟩
    · rw [h] at hd1; cases hd1
    · exact hd2 ⟨h2, .inl rfl⟩
  · intro hex hcnd i
    rcases key hex with h | ⟨h1, h2, h3⟩
    · right; show ¬ i ∈ victimIds cfg s; simp [h]
    · rcases hcnd with hh | hh | hh
      · exact .inl hh
      · rw [h3] at hh; cases hh
      · rw [hh] at h1; cases h1

theorem maintenance_ok (hc : cfg.Ok) {X} (h : Good cfg M X s L) (hn : M.ex → NoEvict cfg (maintenance cfg s)) : Good cfg M X (maintenance cfg s) L :=
  h.shr hc (maintenance_wf1 h.wf1) (maintenance_shr M.env h.wf1) (evEff_quiet (fun hex N hm => by have := hn hex N hm; rwa [maintenance_size] at this))
    (fun _ h => h) (fun _ _ h => h.elim)

theorem tryLink_cases (cfg : Cfg K) (env : Env V) (s : St K V E) (e : Entry K V E) (f : Fail) :
    tryLink cfg env s e f = (link cfg env s e, true) ∨ tryLink cfg env s e f = (s, false) ∨
    tryLink cfg env s e f = (beforeLink cfg env s, false) := by
  cases f with
  | none => exact .inl rfl
  | alloc => exact .inr (.inl rfl)
  | grow =>
    simp only [tryLink]
    split
    · exact .inr (.inr rfl)
    · exact .inl rfl

theorem beforeLink_ok (hc : cfg.Ok) {X} (h : Good cfg M X s L) : Good cfg M X (beforeLink cfg M.env s) L :=
  h.shr hc (beforeLink_wf1 h.wf1 M.env) (beforeLink_shr (F := {}) h.wf1) .idle (fun _ h => h) (fun _ _ h => h.elim)

theorem emplace_ok (hc : cfg.Ok) {X} (h : Good cfg M X s L) (hd : s.destroyed = false) (k : K) (v : V) (f : Fail)
    (hn : M.ex → NoEvict cfg (emplace cfg M.env s k v f).1) :
    Good cfg M X (emplace cfg M.env s k v f).1
      (L.put cfg.eqv M.env.now false k (if (emplace cfg M.env s k v f).2.made then some v else none)) := by
  obtain ⟨g1, c1, d1⟩ := expire_ok hc h k
  have hd1 := d1.trans hd
  have g2 := insert_ok hc g1 hd1 c1 (m := .value v) rfl rfl rfl
  rw [put_put] at g2
  have good : (M.ex → NoEvict cfg (maintenance cfg (link cfg M.env (expire_ cfg M.env s k) (newEntry (expire_ cfg M.env s k) k (.value v))))) →
      Good cfg M X (maintenance cfg (link cfg M.env (expire_ cfg M.env s k) (newEntry (expire_ cfg M.env s k) k (.value v)))) (L.put cfg.eqv M.env.now false k (some v)) :=
    fun hn => maintenance_ok hc g2 hn
  rcases tryLink_cases cfg M.env (expire_ cfg M.env s k) (newEntry (expire_ cfg M.env s k) k (.value v)) f with hh | hh | hh
  · have he : emplace cfg M.env s k v f = (maintenance cfg (link cfg M.env (expire_ cfg M.env s k) (newEntry (expire_ cfg M.env s k) k (.value v))), { made := true }) := by
      simp only [emplace, hh]; rfl
    rw [he] at hn ⊢; exact good hn
  · have he : emplace cfg M.env s k v f = (expire_ cfg M.env s k, { ret := .throws }) := by simp only [emplace, hh]; rfl
    rw [he]; exact g1
  · have he : emplace cfg M.env s k v f = (beforeLink cfg M.env (expire_ cfg M.env s k), { ret := .throws }) := by simp only [emplace, hh]; rfl
    rw [he]; exact beforeLink_ok hc g1

/-! ### Lookups -/

/-- What is not expired and holds a value is found. -/
theorem isHit_of_val {env : Env V} {k : K} {incl : Bool} {e : Entry K V E} (hk : cfg.eqv e.key k = true)
    (he : e.expired env = false) {v : V} (hv : e.mapped.val? = some v) : isHit cfg env k incl e = true ∧ e.mapped.get env incl = .val v := by
  simp only [Entry.expired, Bool.or_eq_false_iff] at he
  have : e.mapped.get env incl = .val v := by
    cases hm : e.mapped <;> simp_all [Mapped.val?, Mapped.get, Mapped.expired]
  simp [isHit, hk, this, Entry.expired, he]

theorem expired_of_live {env : Env V} {e : Entry K V E} (hl : e.mapped.live = true) (h1 : e.expTp = none) (h2 : e.canTp = none) :
    e.expired env = false := by
  cases hm : e.mapped <;> simp_all [Mapped.live, Entry.expired, Mapped.expired, Mapped.holdsError, reached]

theorem isHit_of_live {env : Env V} {k : K} {e : Entry K V E} (hk : cfg.eqv e.key k = true)
    (hl : e.mapped.live = true) (h1 : e.expTp = none) (h2 : e.canTp = none) :
    isHit cfg env k true e = true ∧ e.mapped.get env true = .pend := by
  have : e.mapped.get env true = .pend := by
    cases hm : e.mapped <;> simp_all [Mapped.live, Mapped.get]
  simp [isHit, hk, this, expired_of_live hl h1 h2]

/-- After a miss neither a value nor a valid lookup of the key is stored. -/
theorem miss_clean (hc : cfg.Ok) (env : Env V) (h : WF1 cfg s) (h2 : WF2 cfg s) (k : K) (incl : Bool)
    (hi : incl = true ∨ cfg.resolver ≠ .async)
    (hm : s.ents.find? (isHit cfg env k incl) = none) : Clean cfg (walked cfg env s k incl) k := by
  intro e he hk
  have hs := walked_miss hc h.placed env k incl hm e he hk
  have he0 := (walked_drops (cfg := cfg) s env k incl).mem he
  have hnh := List.find?_eq_none.1 hm e he0
  constructor
  · cases hv : e.mapped.val? with
    | none => rfl
    | some v =>
      exfalso
      have hnp : e.isPending = false := Mapped.val_not_pending hv
      have hex : e.expired env = false := by simpa [stale, hnp] using hs
      exact hnh (isHit_of_val hk hex hv).1
  · cases hl : e.mapped.live
    · rfl
    · exfalso
      have hp := Mapped.live_pending hl
      rcases hi with rfl | ha
      · obtain ⟨p1, p2, _⟩ := h2.pen e he0 hp
        exact hnh (isHit_of_live hk hl p1 p2).1
      · have := (h2.noA ha).2 e he0; rw [Entry.isPending, hp] at this; cases this

theorem hit_facts {env : Env V} {k : K} {incl : Bool} {s : St K V E} {e : Entry K V E}
    (h : s.ents.find? (isHit cfg env k incl) = some e) :
    e ∈ s.ents ∧ cfg.eqv e.key k = true ∧ e.expired env = false ∧
    ((∃ v, e.mapped.val? = some v ∧ e.mapped.get env incl = .val v) ∨
     (incl = true ∧ e.mapped.live = true ∧ e.mapped.get env incl = .pend)) := by
  have h1 := List.find?_some h
  simp only [isHit, Bool.and_eq_true] at h1
  obtain ⟨⟨hk, hx⟩, hg⟩ := h1
  have hx : e.expired env = false := by simpa using hx
  refine ⟨List.mem_of_find?_eq_some h, hk, hx, ?_⟩
  simp only [Entry.expired, Bool.or_eq_false_iff] at hx
  cases hm : e.mapped <;> cases incl <;> simp_all [Mapped.get, Mapped.val?, Mapped.live, Mapped.expired, Mapped.holdsError]

theorem eq_of_id_any (h : WF1 cfg s) {a b : Entry K V E} (ha : a ∈ s.ents ++ s.limbo) (hb : b ∈ s.ents ++ s.limbo)
    (hab : a.id = b.id) : a = b := by
  have hn := h.ids
  obtain ⟨i, hi, rfl⟩ := List.mem_iff_getElem.1 ha
  obtain ⟨j, hj, rfl⟩ := List.mem_iff_getElem.1 hb
  have : i = j := by
    rw [List.nodup_iff_pairwise_ne, List.pairwise_iff_getElem] at hn
    rcases Nat.lt_trichotomy i j with h | h | h
    · exact absurd (by rw [List.getElem_map, List.getElem_map]; exact hab) (hn i j (by simpa using hi) (by simpa using hj) h)
    · exact h
    · exact absurd (by rw [List.getElem_map, List.getElem_map]; exact hab.symm) (hn j i (by simpa using hj) (by simpa using hi) h)
  subst this; rfl

/-- The user reads the value of the entry `e0`. -/
theorem hit_ok (hc : cfg.Ok) {X} (h : Good cfg M X s L) {k : K} {incl : Bool} {e0 : Entry K V E}
    (hf : s.ents.find? (isHit cfg M.env k incl) = some e0) {v : V} (hv : e0.mapped.val? = some v) :
    Good cfg M X (onHit cfg M.env (walked cfg M.env s k incl) e0.id) (L.touch cfg.eqv M.env.now k) ∧ L.cur k = some v ∧
    ¬ (M.env.now.past (L.ageLimit cfg.maxAge cfg.wall k) = true ∨ reached M.env.now (L.idleLimit cfg.refresh k) = true) ∧ (M.mo → L.gone k = false) := by
  obtain ⟨he0, hk0, hx0, _⟩ := hit_facts hf
  have hm0 := hit_mem_walked (cfg := cfg) hf
  have ww := walked_wf1 h.wf1 M.env k incl
  have r : Shr cfg M.env { hit := fun i => i = e0.id } s (onHit cfg M.env (walked cfg M.env s k incl) e0.id) :=
    (walked_shr h.wf1 k incl).trans (onHit_shr hc ww hm0 hx0 (.inl rfl))
  have w := onHit_wf1 M.env ww hm0
  have w2 := h.wf2.shr r
  obtain ⟨q1, q2, q3, q4, q5⟩ := (h.v k).c1 e0 he0 hk0 v hv
  have hn' : ∀ e ∈ (onHit cfg M.env (walked cfg M.env s k incl) e0.id).ents, e.id ≠ s.nextId := by
    intro e he; rw [← r.same.nextId]; exact id_ne_next w he
  have hgone : M.mo → L.gone k = false := by
    intro hm
    cases hg : L.gone k
    · rfl
    · rw [(h.v k).g1 hm e0 he0 hk0 (by simp [hv]) hg] at hx0; cases hx0
  -- the entry after the hit
  have hin : hitUpd cfg M.env e0 ∈ (onHit cfg M.env (walked cfg M.env s k incl) e0.id).ents := by
    rw [onHit_ents]; exact List.mem_map.2 ⟨e0, hm0, by simp [atId]⟩
  obtain ⟨hs1, hs2, hs3⟩ := hitUpd_facts (cfg := cfg) (F := { hit := fun i => i = e0.id }) e0 hx0 (.inl rfl)
  have hkp := hs2 hc.idle
  have hcan : ∀ a, cfg.eqv a k = true → (hitUpd cfg M.env e0).canTp = (L.touch cfg.eqv M.env.now k).idleLimit cfg.refresh a := by
    intro a ha
    rw [hs3 (by simp [hv])]
    simp only [Ledger.idleLimit, Ledger.touch, ha, if_true]
    rw [q3]
    unfold Ledger.idleLimit
    cases hr : cfg.refresh with
    | none => rfl
    | some p => obtain ⟨d, i⟩ := p; simp only; split <;> rfl
  refine ⟨⟨w, w2, h.dq.shr r (fun _ h => h) (fun _ _ h => h.elim), ?_, ?_, ?_⟩, q1, ?_, hgone⟩
  · exact h.g.spc (r.spc s.nextId) (h.g.rsp.touch hc _ _) (fun _ _ => rfl) (fun _ _ => rfl) (by rw [r.same.nextId]; exact Nat.le_refl _)
      (fun _ => h.g.wf _ (Nat.le_refl _)) (fun n hn hid => absurd hid (hn' n hn)) (fun _ _ _ => .inr (fun h => h))
  · intro a
    by_cases hak : cfg.eqv a k = true
    · have hka := hc.symm _ _ hak
      have h0a : cfg.eqv e0.key a = true := hc.trans _ _ _ hk0 hka
      refine ⟨?_, ?_, ?_⟩
      · intro e' he' hea u hu
        obtain ⟨e, he, sh⟩ := r.bwd e' he'
        have hid : e.id = e0.id := h.wf2.va e he e0 he0 u v (sh.val u hu) hv
          (hc.trans _ _ _ (sh.key ▸ hea) (hc.symm _ _ h0a))
        obtain rfl := eq_of_id h.wf1 he he0 hid
        have : e' = hitUpd cfg M.env e := eq_of_id w he' hin (by rw [sh.id, hs1.id])
        subst this
        obtain ⟨a1, a2, a3, a4, a5⟩ := (h.v a).c1 e he h0a u (sh.val u hu)
        exact ⟨a1, by rw [sh.ext]; exact a2, hcan a hak, by rw [sh.rft]; exact a4, by rw [sh.rfe (fun h => h)]; exact a5⟩
      · intro hm e' he' hea hne hmo
        exfalso
        have : L.gone a = false := by rw [(h.g.rsp a k hak).2.2.2.1]; exact hgone hm
        simp only [Ledger.touch] at hmo
        rw [this] at hmo; cases hmo
      · intro hex u hu
        have : L.cur a = some v := by rw [(h.g.rsp a k hak).1]; exact q1
        have hu : L.cur a = some u := hu
        rw [this] at hu; cases hu
        exact .inr ⟨_, hin, by rw [hs1.key]; exact h0a, by rw [hkp.val]; exact hv⟩
    · have hak : cfg.eqv a k = false := by simpa using hak
      refine (h.v a).frame h.g.st (r.spc s.nextId) ⟨rfl, rfl, by simp [Ledger.touch, hak], rfl, fun h => h⟩ (fun e he hh => absurd hh (id_ne_next h.wf1 he)) (fun e he hh => absurd hh (hn' e he))
        ?_ (fun e _ _ _ hf => hf.elim) (fun _ e _ _ _ _ _ hd => hd.elim)
      intro e he hea _ hh
      obtain rfl := eq_of_id h.wf1 he he0 hh
      rw [hc.trans _ _ _ (hc.symm _ _ hea) hk0] at hak; cases hak
  · intro a
    refine (h.p a).frame0 h.wf2 w w2 (r.spc s.nextId) rfl (by rw [r.same.nextId]; exact Nat.le_refl _)
      (fun e he hh => absurd hh (hn' e he)) (h.fresh a) (fun n hn hid => absurd hid (hn' n hn)) hc ?_ (fun _ T hT _ hl hd => hd)
    intro T' hT' T hT hTx sh hTa hl old ho
    by_cases hak : cfg.eqv a k = true
    · have h0T : cfg.eqv e0.key T.key = true := hc.trans _ _ _ hk0 (hc.symm _ _ (hc.trans _ _ _ hTa hak))
      have hcb := (h.wf2.vc e0 he0 T hT v hv hl h0T).1
      have := h.wf2.one T hT _ _ ho hcb
      subst this
      exact ⟨_, List.mem_append_left _ hin, hs1.id, by rw [hs1.key]; exact hc.trans _ _ _ hk0 (hc.symm _ _ hak), hcan a hak⟩
    · have hak : cfg.eqv a k = false := by simpa using hak
      obtain ⟨o, hom, hoid, hoa, hoc⟩ := (h.p a).t4 T hT hTa hl old ho
      obtain ⟨o', ho', le⟩ := r.any o hom
      refine ⟨o', ho', le.id.trans hoid, by rw [le.key]; exact hoa, ?_⟩
      have hne : ¬ o.id = e0.id := by
        intro hh
        have : o = e0 := eq_of_id_any h.wf1 hom (List.mem_append_left _ he0) hh
        subst this
        rw [hc.trans _ _ _ (hc.symm _ _ hoa) hk0] at hak; cases hak
      rw [le.can hne, hoc]
      simp [Ledger.idleLimit, Ledger.touch, hak]
  · rw [← q2, ← q3]
    simp only [Entry.expired, Bool.or_eq_false_iff] at hx0
    rw [hx0.1.2, hx0.2]; simp

theorem walked_ok (hc : cfg.Ok) {X} (h : Good cfg M X s L) (k : K) (incl : Bool) : Good cfg M X (walked cfg M.env s k incl) L :=
  h.shr hc (walked_wf1 h.wf1 _ _ _) (walked_shr (F := {}) h.wf1 _ _) .idle (fun _ h => h) (fun _ _ h => h.elim)

theorem pendHit_ok (hc : cfg.Ok) {X} (h : Good cfg M X s L) {k : K} {incl : Bool} {e0 : Entry K V E}
    (hf : s.ents.find? (isHit cfg M.env k incl) = some e0) (hp : e0.isPending = true) :
    Good cfg M X (onHit cfg M.env (walked cfg M.env s k incl) e0.id) L := by
  obtain ⟨he0, hk0, hx0, _⟩ := hit_facts hf
  have hm0 := hit_mem_walked (cfg := cfg) hf
  have hw := walked_ok hc h k incl
  exact hw.shr hc (onHit_wf1 M.env hw.wf1 hm0) (onHit_shr (F := {}) hc hw.wf1 hm0 hx0 (.inr hp)) .idle (fun _ h => h) (fun _ _ h => h.elim)

/-- After a miss every stored value of the key is expired. -/
theorem miss_expired {k : K} {incl : Bool} {env : Env V} (hf : s.ents.find? (isHit cfg env k incl) = none) :
    ∀ e ∈ s.ents, cfg.eqv e.key k = true → e.mapped.val? ≠ none → e.expired env = true := by
  intro e he hk hv
  obtain ⟨v, hv⟩ := Option.ne_none_iff_exists'.1 hv
  cases hx : e.expired env
  · exact absurd (isHit_of_val hk hx hv).1 (List.find?_eq_none.1 hf e he)
  · rfl

/-- A miss means there is no value, for reasons known to the ledger. -/
theorem miss_dead {X} (h : Good cfg M X s L) (hex : M.ex) {k : K}
    (hf : ∀ e ∈ s.ents, cfg.eqv e.key k = true → e.mapped.val? ≠ none → e.expired M.env = true) {v : V} (hv : L.cur k = some v) : DeadL cfg M.env L k v := by
  rcases (h.v k).x1 hex v hv with hd | ⟨e, he, hk, hv'⟩
  · exact hd
  · obtain ⟨_, h2, h3, _, _⟩ := (h.v k).c1 e he hk v hv'
    exact deadL_of_expired (fun hh => h.g.st hex hh e he) hv' h2 h3 (hf e he hk (by simp [hv']))

/-- The value of a key is found before the lookup that refreshes it. -/
theorem value_first (hc : cfg.Ok) (w : WF1 cfg s) (w2 : WF2 cfg s) {env : Env V} {k : K} {incl : Bool} {e : Entry K V E}
    (hf : s.ents.find? (isHit cfg env k incl) = some e) (hl : e.mapped.live = true) :
    ∀ a ∈ s.ents, cfg.eqv a.key k = true → a.mapped.val? ≠ none → a.expired env = true := by
  intro a ha hk hv
  cases hx : a.expired env
  · exfalso
    obtain ⟨v, hv⟩ := Option.ne_none_iff_exists'.1 hv
    obtain ⟨he, hek, _, _⟩ := hit_facts hf
    obtain ⟨_, as, bs, heq, hno⟩ := List.find?_eq_some_iff_append.1 hf
    have hh := (isHit_of_val (incl := incl) hk hx hv).1
    have hcb := (w2.vc a ha e he v hv hl (hc.trans _ _ _ hk (hc.symm _ _ hek))).1
    have hlt := (w2.cb e he a.id hcb).1
    rw [heq] at ha
    rcases List.mem_append.1 ha with h | h
    · have := hno a h; rw [hh] at this; cases this
    · rcases List.mem_cons.1 h with h | h
      · rw [h] at hlt; omega
      · have hs := w.sorted (cfg.hash k)
        rw [heq, List.filter_append, List.map_append, List.pairwise_append] at hs
        have h1 : (cfg.hash e.key == cfg.hash k) = true := by simp [hc.hash _ _ hek]
        have h2 : (cfg.hash a.key == cfg.hash k) = true := by simp [hc.hash _ _ hk]
        rw [List.filter_cons, if_pos h1, List.map_cons, List.pairwise_cons] at hs
        have := hs.2.1.1 a.id (List.mem_map.2 ⟨a, List.mem_filter.2 ⟨h, h2⟩, rfl⟩)
        omega
  · rfl

/-- The result of `get_` and what it means. -/
theorem get__ok (hc : cfg.Ok) {X} (h : Good cfg M X s L) (k : K) (incl : Bool) (hi : incl = true ∨ cfg.resolver ≠ .async) :
    (get_ cfg M.env s k incl).1.destroyed = s.destroyed ∧ (get_ cfg M.env s k incl).1.nextId = s.nextId ∧
    ((∃ v, (get_ cfg M.env s k incl).2 = .val v ∧ L.cur k = some v ∧
        ¬ (M.env.now.past (L.ageLimit cfg.maxAge cfg.wall k) = true ∨ reached M.env.now (L.idleLimit cfg.refresh k) = true) ∧ (M.mo → L.gone k = false) ∧
        Good cfg M X (get_ cfg M.env s k incl).1 (L.touch cfg.eqv M.env.now k)) ∨
     ((get_ cfg M.env s k incl).2 = .pend ∧ incl = true ∧ (∃ t, L.valid k = some t) ∧ Good cfg M X (get_ cfg M.env s k incl).1 L ∧
       (M.ex → ∀ v, L.cur k = some v → DeadL cfg M.env L k v)) ∨
     ((get_ cfg M.env s k incl).2 = .none ∧ Good cfg M X (get_ cfg M.env s k incl).1 L ∧ Clean cfg (get_ cfg M.env s k incl).1 k ∧
       (M.ex → ∀ v, L.cur k = some v → DeadL cfg M.env L k v))) := by
  rw [get__eq hc h.wf1.placed]
  cases hf : s.ents.find? (isHit cfg M.env k incl) with
  | none =>
    have hs := walked_same cfg s M.env k incl
    refine ⟨hs.destroyed, hs.nextId, .inr (.inr ⟨rfl, walked_ok hc h k incl, miss_clean hc M.env h.wf1 h.wf2 k incl hi hf, ?_⟩)⟩
    intro hex v hv
    exact miss_dead h hex (miss_expired hf) hv
  | some e =>
    have hs := (walked_same cfg s M.env k incl).trans (onHit_same cfg M.env _ e.id)
    refine ⟨hs.destroyed, hs.nextId, ?_⟩
    obtain ⟨he, hk, hx, ⟨v, h1, h2⟩ | ⟨h1, h2, h3⟩⟩ := hit_facts hf
    · obtain ⟨g1, g2, g3, g4⟩ := hit_ok hc h hf h1
      exact .inl ⟨v, h2, g2, g3, g4, g1⟩
    · exact .inr (.inl ⟨h3, h1, ⟨e.id, (h.p k).c2 e he hk h2⟩, pendHit_ok hc h hf (Mapped.live_pending h2),
        fun hex v hv => miss_dead h hex (value_first hc h.wf1 h.wf2 hf h2) hv⟩)

/-- The insertion meets no failure. -/
def Fail.isNone : Fail → Bool
  | .none => true
  | _ => false

/-- What a lookup that found a value says about the ledger before. -/
def Valid (cfg : Cfg K) (M : Md V) (L : Ledger K V) (k : K) (v : V) : Prop :=
  L.cur k = some v ∧ ¬ (M.env.now.past (L.ageLimit cfg.maxAge cfg.wall k) = true ∨ reached M.env.now (L.idleLimit cfg.refresh k) = true) ∧
  (M.mo → L.gone k = false)

theorem getOrEmplace_ok (hc : cfg.Ok) {X} (h : Good cfg M X s L) (hd : s.destroyed = false) (k : K) (v : V) (f : Fail)
    (hn : M.ex → NoEvict cfg (getOrEmplace cfg M.env s k v f).1) :
    let r := getOrEmplace cfg M.env s k v f
    Good cfg M X r.1 (L.after cfg.eqv cfg.resolver M.env.now (.getOrEmplace k v f) r.2) ∧
    ((∃ u, r.2.ret = .val u ∧ Valid cfg M L k u ∧ r.2.made = false) ∨
     (r.2.ret = .throws ∧ r.2.made = false ∧ (f.isNone = true → (∃ t, L.valid k = some t) ∧ (M.ex → ∀ u, L.cur k = some u → DeadL cfg M.env L k u))) ∨
     ((r.2.made = true ∧ r.2.ret = .val v) ∧ (M.ex → L.valid k = none ∧ ∀ u, L.cur k = some u → DeadL cfg M.env L k u))) := by
  obtain ⟨d1, n1, hg⟩ := get__ok hc h k true (.inl rfl)
  unfold getOrEmplace at hn ⊢
  generalize get_ cfg M.env s k true = g at *
  obtain ⟨s1, l⟩ := g
  simp only at *
  have hd1 := d1.trans hd
  rcases hg with ⟨u, rfl, hu, hna, hgo, g1⟩ | ⟨rfl, _, hpv, g1, hdp⟩ | ⟨rfl, g1, c1, hdd⟩
  · exact ⟨maintenance_ok hc g1 hn, .inl ⟨u, rfl, ⟨hu, hna, hgo⟩, rfl⟩⟩
  · exact ⟨maintenance_ok hc g1 hn, .inr (.inl ⟨rfl, rfl, fun _ => ⟨hpv, hdp⟩⟩)⟩
  · have hnov : M.ex → L.valid k = none := by
      intro hex
      cases ht : L.valid k with
      | none => rfl
      | some t =>
        obtain ⟨_, T, hT, _, _, hk, hl, _⟩ := (g1.p k).c3 hd1 t ht
        rw [(c1 T hT hk).2] at hl
        exact absurd (hl hex) (by simp)
    have g2 := insert_ok hc g1 hd1 c1 (m := .value v) rfl rfl rfl
    have hf : (tryLink cfg M.env s1 (newEntry s1 k (.value v)) f).2 = false → f.isNone = true → False := by
      intro h1 h2; cases f <;> first | cases h1; done | cases h2; done
    rcases tryLink_cases cfg M.env s1 (newEntry s1 k (.value v)) f with hh | hh | hh <;> rw [hh] at hn hf ⊢
    · exact ⟨maintenance_ok hc g2 hn, .inr (.inr ⟨⟨rfl, rfl⟩, fun hex => ⟨hnov hex, hdd hex⟩⟩)⟩
    · exact ⟨g1, .inr (.inl ⟨rfl, rfl, fun h => (hf rfl h).elim⟩)⟩
    · exact ⟨beforeLink_ok hc g1, .inr (.inl ⟨rfl, rfl, fun h => (hf rfl h).elim⟩)⟩

theorem syncMapped_facts (r : Res V E) : (syncMapped r).isPending = false ∧ (syncMapped r).val? = value? r ∧ (syncMapped r).strong = true := by
  cases r <;> simp [syncMapped, Mapped.isPending, Mapped.val?, value?, Mapped.strong]

theorem get_ok (hc : cfg.Ok) {X} (h : Good cfg M X s L) (hd : s.destroyed = false) (hr : cfg.resolver ≠ .async) (k : K) (r : Res V E) :
    let g := get cfg M.env s k r
    Good cfg M X g.1 (L.after cfg.eqv cfg.resolver M.env.now (.get k r) g.2) ∧
    ((∃ u, g.2.ret = .val u ∧ Valid cfg M L k u ∧ g.2.calls = []) ∨
     ((g.2.ret = .miss ∧ g.2.calls = [] ∧ cfg.resolver = .none ∨ g.2.ret = resRet r ∧ g.2.calls = [(k, s.nextId)] ∧ cfg.resolver = .sync) ∧
       (M.ex → ∀ u, L.cur k = some u → DeadL cfg M.env L k u))) := by
  obtain ⟨d1, n1, hg⟩ := get__ok hc h k false (.inr hr)
  unfold get
  generalize hgg : get_ cfg M.env s k false = g at *
  obtain ⟨s1, l⟩ := g
  simp only at *
  have hd1 := d1.trans hd
  rcases hg with ⟨u, rfl, hu, hna, hgo, g1⟩ | ⟨rfl, hf, _⟩ | ⟨rfl, g1, c1, hdd⟩
  · cases hk : cfg.resolver with
    | async => exact absurd hk hr
    | none => exact ⟨g1, .inl ⟨u, rfl, ⟨hu, hna, hgo⟩, rfl⟩⟩
    | sync => exact ⟨g1, .inl ⟨u, rfl, ⟨hu, hna, hgo⟩, rfl⟩⟩
  · cases hf
  · cases hk : cfg.resolver with
    | async => exact absurd hk hr
    | none =>
      refine ⟨?_, .inr ⟨.inl ⟨rfl, rfl, rfl⟩, hdd⟩⟩
      exact g1.missed hc (fun e he hek hv => absurd (c1 e he hek).1 hv)
    | sync =>
      obtain ⟨f1, f2, f3⟩ := syncMapped_facts r
      have g2 := insert_ok hc g1 hd1 c1 f1 f3 (by cases r <;> rfl)
      rw [f2] at g2
      refine ⟨g2, .inr ⟨.inr ⟨by cases r <;> rfl, ?_, rfl⟩, hdd⟩⟩
      show [(k, s1.nextId)] = _
      rw [n1]

/-- `get_if_exists`. -/
theorem getIfExists_ok (hc : cfg.Ok) {X} (h : Good cfg M X s L) (k : K) :
    Good cfg M X s (L.after cfg.eqv cfg.resolver M.env.now (.getIfExists k : Op K V E) (getIfExists cfg M.env s k)) ∧
    ((∃ u, (getIfExists cfg M.env s k).ret = .val u ∧ Valid cfg M L k u) ∨
     ((getIfExists cfg M.env s k).ret = .miss ∧ (M.ex → ∀ u, L.cur k = some u → DeadL cfg M.env L k u))) := by
  rw [getIfExists_eq hc h.wf1.placed]
  cases hf : s.ents.find? (isHit cfg M.env k false) with
  | none =>
    refine ⟨?_, .inr ⟨rfl, fun hex u hu => miss_dead h hex (miss_expired hf) hu⟩⟩
    exact h.missed hc (miss_expired hf)
  | some e =>
    obtain ⟨he, hk, hx, ⟨v, h1, h2⟩ | ⟨h1, _⟩⟩ := hit_facts hf
    · obtain ⟨g1, g2, g3, g4⟩ := hit_ok hc h hf h1
      simp only [Option.map_some, Option.getD_some, h2, optRet]
      exact ⟨h, .inl ⟨v, rfl, g2, g3, g4⟩⟩
    · cases h1

end Hoard
