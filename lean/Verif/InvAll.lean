import Verif.InvFull
/-! Refreshing, clearing and destruction; the invariant and the ledger along all histories. -/
namespace Hoard
open Spec
variable {K V E : Type}
variable {cfg : Cfg K} {M : Md V} {F : Eff K V} {L L' : Ledger K V} {s s' : St K V E} {X0 : Nat → Prop}

theorem setRefreshing_shr {env : Env V} {i : Nat} (hnp : ∀ e ∈ s.ents, e.id = i → e.isPending = false) (hf : F.flag i) :
    Shr cfg env F s (s.modify i (fun x => { x with refreshing := true })) :=
  Shr.modify s i _ (fun e he hi => ⟨rfl, rfl, rfl, fun _ h => h, fun h => h, rfl,
    (fun hp => by rw [hnp e he hi] at hp; cases hp), fun _ => rfl, rfl, rfl, fun h => h, fun _ => rfl, fun _ h => h,
    (fun h => absurd (hi ▸ hf) h), fun h => h⟩)
    (fun _ _ _ w => ⟨rfl, rfl, w.exp⟩) (fun _ _ _ => ⟨⟨rfl, rfl, fun _ => rfl⟩, rfl⟩)

theorem setRefreshing_flag {i : Nat} : ∀ e ∈ (s.modify i (fun x => { x with refreshing := true })).ents,
    e.id = i → e.refreshing = true := by
  intro e he hi
  rw [ents_modify] at he
  obtain ⟨e0, h0, rfl⟩ := List.mem_map.1 he
  by_cases hh : e0.id = i
  · simp [atId, hh]
  · simp [atId, hh] at hi

/-- The facts about the entry being refreshed. -/
structure Refr (cfg : Cfg K) (s : St K V E) (e : Entry K V E) : Prop where
  mem : e ∈ s.ents
  np : e.isPending = false
  val : e.mapped.val? ≠ none
  fresh : ∀ e' ∈ s.ents, cfg.eqv e'.key e.key = true → e'.mapped.live = false
  only : ∀ e' ∈ s.ents, cfg.eqv e'.key e.key = true → e'.mapped.val? ≠ none → e'.id = e.id

theorem refr_of (hc : cfg.Ok) {env : Env V} (h : WF2 cfg s) {e : Entry K V E} (he : e ∈ s.ents)
    (hp : e.isPending = false) (hr : e.refreshing = false) (hx : e.expired env = false) (hnv : e.mapped.isVoid = false) : Refr cfg s e := by
  have hv : ∃ v, e.mapped.val? = some v := by
    simp only [Entry.expired, Bool.or_eq_false_iff] at hx
    cases hm : e.mapped <;> simp_all [Entry.isPending, Mapped.isPending, Mapped.val?, Mapped.expired, Mapped.holdsError, Mapped.isVoid]
  obtain ⟨v, hv⟩ := hv
  refine ⟨he, hp, by simp [hv], ?_, ?_⟩
  · intro e' he' hk
    cases hl : e'.mapped.live
    · rfl
    · have := (h.vc e he e' he' v hv hl (hc.symm _ _ hk)).2
      rw [hr] at this; cases this
  · intro e' he' hk hv'
    obtain ⟨u, hu⟩ := Option.ne_none_iff_exists'.1 hv'
    exact h.va e' he' e he u v hu hv hk

/-- The entry taken off the delay queue needs no exception any more. -/
theorem Good.dropX {X X' : Nat → Prop} (h : Good cfg M X s L)
    (hX : ∀ a ∈ s.ents, X a.id → a.mapped.val? ≠ none → a.refreshing = false → a.expired M.env = true ∨ X' a.id) : Good cfg M X' s L := by
  refine ⟨h.wf1, h.wf2, ⟨h.dq.dl1, h.dq.dl2, ?_, h.dq.nv⟩, h.g, h.v, h.p⟩
  intro hm hr a ha hv hf
  rcases h.dq.dl3 hm hr a ha hv hf with h1 | h1 | h1
  · exact .inl h1
  · exact .inr (.inl h1)
  · exact .inr (hX a ha h1 hv hf)

/-- The effect of a refresh. -/
def refEff (K V : Type) (i : Nat) : Eff K V := { die := fun j _ _ => j = i, flag := fun j => j = i }

/-- From `s` to `s'` the entry `x` was added and otherwise only the entry `i` was affected. -/
def Loc (cfg : Cfg K) (env : Env V) (i x : Nat) (s s' : St K V E) : Prop :=
  ∃ F, Spc cfg env F x s s' ∧ (∀ j k o, F.die j k o → j = i) ∧ (∀ j, F.flag j → j = i) ∧ ∀ j, ¬ F.pop j

/-- The lookup of a refresh delivers at once: the old entry is replaced. -/
theorem refresh_write (hc : cfg.Ok) {X : Nat → Prop} {s1 : St K V E} {e : Entry K V E} (h : Good cfg M (fun j => j = e.id ∨ X j) s L)
    (hd : s.destroyed = false) (he : Refr cfg s e) (w1 : WF1 cfg s1) (r1 : Spc cfg M.env (refEff K V e.id) s.nextId s s1)
    (hnx : s1.nextId = s.nextId + 1) (hop : s1.opens = s.opens) {n : Entry K V E} (hn : n ∈ s1.ents) (hid : n.id = s.nextId)
    (hk : n.key = e.key) (hnp : n.mapped.isPending = false) (hst : n.mapped.strong = true) (hnr : n.refreshing = false) (hnvd : n.mapped.isVoid = false)
    (ht : n.mapped.val? ≠ none → ∀ a, cfg.eqv a e.key = true →
      n.expTp = (L.put cfg.eqv M.env.now false e.key n.mapped.val?).ageLimit cfg.maxAge cfg.wall a ∧
      n.canTp = (L.put cfg.eqv M.env.now false e.key n.mapped.val?).idleLimit cfg.refresh a ∧
      n.refTp = (L.put cfg.eqv M.env.now false e.key n.mapped.val?).dueAt cfg.refresh a)
    (hrf : ∀ d i, cfg.refresh = some (d, i) → s.nextId ∈ s1.delayQ → n.refTp = some (M.env.now + d))
    (hdq : cfg.refresh.isSome = true → n.mapped.val? ≠ none → s.nextId ∈ s1.delayQ) :
    let s2 := s1.modify e.id (fun x => { x with refreshing := true })
    s2.find s.nextId = some n ∧
    Good cfg M X (runCb s2 s.nextId (.refresh e.id)) (L.put cfg.eqv M.env.now true e.key n.mapped.val?) ∧
    Loc cfg M.env e.id s.nextId s (runCb s2 s.nextId (.refresh e.id)) := by
  have hlt := h.wf1.lt e (List.mem_append_left _ he.mem)
  have hne : e.id ≠ s.nextId := by omega
  have hnp1 : ∀ e' ∈ s1.ents, e'.id = e.id → e'.isPending = false := by
    intro e' he' hi
    obtain ⟨e0, h0, sh⟩ := r1.bwd e' he' (by omega)
    have : e0 = e := eq_of_id h.wf1 h0 he.mem (sh.id.symm.trans hi)
    rw [sh.pend, this]; exact he.np
  simp only
  have w2 := w1.modify e.id (f := fun x => { x with refreshing := true }) (fun _ => ⟨rfl, rfl⟩)
  have r2 := r1.trans ((setRefreshing_shr (F := refEff K V e.id) hnp1 rfl).spc s.nextId)
  have hn2 : n ∈ (s1.modify e.id (fun x => { x with refreshing := true })).ents := by
    rw [ents_modify]; exact List.mem_map.2 ⟨n, hn, by simp [atId, hid, Ne.symm hne]⟩
  have hop2 : (s1.modify e.id (fun x => { x with refreshing := true })).opens = s.opens := hop
  have hnx2 : (s1.modify e.id (fun x => { x with refreshing := true })).nextId = s.nextId + 1 := hnx
  have hdq2 : (s1.modify e.id (fun x => { x with refreshing := true })).delayQ = s1.delayQ := rfl
  generalize hs2 : s1.modify e.id (fun x => { x with refreshing := true }) = s2 at *
  obtain ⟨a1, a2, a3, a4, a5, ⟨c, hm, hcp⟩, kill⟩ :=
    runCbs_spc (F := refEff K V e.id) M.env (x := s.nextId) [.refresh e.id] w2 hn2 hid
      (by intro old ho; simp at ho; subst ho; exact ⟨hne, fun _ _ => rfl⟩)
  have heq : runCbs s2 s.nextId [.refresh e.id] = runCb s2 s.nextId (.refresh e.id) := rfl
  rw [heq] at a1 a2 a3 a4 a5 hm kill
  have hc2 : c = tpMin n.canTp e.canTp := by
    refine hcp.2 e.canTp ⟨e.id, by simp⟩ ?_
    intro old ho
    simp at ho; subst ho
    obtain ⟨o', ho', lo⟩ := r2.any e (List.mem_append_left _ he.mem) hne
    exact ⟨o', ho', lo.id, lo.can (fun h => h)⟩
  have r3 := r2.trans a2
  generalize runCb s2 s.nextId (.refresh e.id) = s3 at *
  have hxo : s.nextId ∉ s3.opens := by
    rw [a3, hop2]; exact next_not_open h.wf1 h.wf2 hd
  have hml : n.mapped.live = false := by
    cases hh : n.mapped.live
    · rfl
    · have := Mapped.live_pending hh; rw [this] at hnp; cases hnp
  have hoth : ∀ e' ∈ s3.ents, e'.id ≠ s.nextId → cfg.eqv e'.key e.key = true → e'.mapped.val? = none ∧ e'.mapped.live = false := by
    intro e' he' hx hk'
    obtain ⟨e0, h0, sh⟩ := r3.bwd e' he' hx
    rw [sh.key] at hk'
    constructor
    · cases hv : e'.mapped.val? with
      | none => rfl
      | some v =>
        have := he.only e0 h0 hk' (by simp [sh.val v hv])
        rw [kill e' he' (by rw [sh.id, this]; simp)] at hv; cases hv
    · cases hlv : e'.mapped.live
      · rfl
      · have := sh.live hlv
        rw [he.fresh e0 h0 hk'] at this; cases this
  refine ⟨by rw [← hid]; exact find_mem w2 hn2, ?_, refEff K V e.id, r3, fun _ _ _ h => h, fun _ h => h, fun _ h => h⟩
  have hsn : SpcN cfg s s3 s.nextId { n with canTp := c } := by
    refine ⟨hm, hid, by rw [a3, hop2]; exact h.wf2.opN, fun hh => absurd hh hxo, ?_, fun _ => hnp, ?_, ?_,
      fun e he _ => cb_ne_next h.wf1 h.wf2 he, ?_, ?_, ?_⟩
    · intro hh; have hh : n.mapped.isPending = true := hh; rw [hnp] at hh; cases hh
    · intro old hh; have hh : Cb.refresh old ∈ n.mapped.cbs := hh; rw [Mapped.cbs_nil hnp] at hh; cases hh
    · intro a b hh; have hh : Cb.refresh a ∈ n.mapped.cbs := hh; rw [Mapped.cbs_nil hnp] at hh; cases hh
    · intro e' he' hx hk' _; exact (hoth e' he' hx (hk ▸ hk')).2
    · intro e' he' hx hk' _; exact (hoth e' he' hx (hk ▸ hk')).1
    · intro e' he' hx hk' hh; have hh : n.mapped.live = true := hh; rw [hml] at hh; cases hh
  have hdq3 : s3.delayQ = s1.delayQ := a5.trans hdq2
  refine h.put hc hd a1 r3 hsn (X' := X) ?_ (k := e.key) (by show cfg.eqv n.key e.key = true; rw [hk]; exact hc.refl _)
    ⟨fun _ h => h, ?_, ?_, fun _ _ _ => .inr (fun h => h)⟩ hxo (by omega) (by omega) (fun e he hh => absurd hh (id_ne_next h.wf1 he))
    (fun a _ => h.fresh a) hnp (fun _ h => h) (fun _ => rfl) (fun _ _ => hst) hoth ?_
  · refine h.dq.special a1 r3 hm hid (next_not_queued h.wf1) (fun _ _ h => h.elim) ?_ ?_ ?_ (fun hv => absurd hv (by simp [hnvd]))
    · intro e' he' hx hX hv _
      rcases hX with hX | hX
      · exact absurd (kill e' he' (by rw [hX]; simp)) hv
      · exact hX
    · intro d i hr hq; rw [hdq3] at hq; exact hrf d i hr hq
    · intro hr hv _; rw [hdq3]; exact .inl (hdq hr hv)
  · intro e0 h0 hi
    have hi : e0.id = e.id := hi
    rw [eq_of_id h.wf1 h0 he.mem hi]; exact hc.refl _
  · intro e0 h0 hi
    have hi : e0.id = e.id := hi
    rw [eq_of_id h.wf1 h0 he.mem hi]; exact hc.refl _
  · intro hv
    refine ⟨hnr, fun a ha => ?_⟩
    obtain ⟨t1, t2, t3⟩ := ht hv a ha
    refine ⟨?_, ?_, ?_⟩
    · refine t1.trans ?_
      simp [Ledger.ageLimit, Ledger.put, ha]
    · show c = _
      obtain ⟨v, hve⟩ := Option.ne_none_iff_exists'.1 he.val
      have := ((h.v a).c1 e he.mem (hc.symm _ _ ha) v hve).2.2.1
      rw [hc2, t2, this]
      simp only [Ledger.idleLimit, Ledger.put, ha, if_true]
      cases cfg.refresh with
      | none => rfl
      | some p =>
        obtain ⟨d, i⟩ := p
        simp only
        by_cases hi : i = 0
        · simp [hi, tpMin]
        · simp [hi, tpMin]; omega
    · refine t3.trans ?_
      simp [Ledger.dueAt, Ledger.put, ha]

/-- The lookup of a refresh stays pending (or was dropped). -/
theorem refresh_pend (hc : cfg.Ok) {X : Nat → Prop} {e : Entry K V E} (h : Good cfg M (fun j => j = e.id ∨ X j) s L)
    (hd : s.destroyed = false) (ha : cfg.resolver = .async) (he : Refr cfg s e) (b : Beh V E)
    (hb : b = .later ∨ b = .drop) :
    let s1 := (resolveAsync cfg M.env s e.key b).1
    let s2 := s1.modify e.id (fun x => { x with refreshing := true })
    (∃ n, s2.find s.nextId = some n ∧ n.isPending = true) ∧
    Good cfg M X (s2.modify s.nextId (·.upd (.addCb (.refresh e.id)))) (L.lookup cfg.eqv M.env.now true e.key s.nextId b) ∧
    Loc cfg M.env e.id s.nextId s (s2.modify s.nextId (·.upd (.addCb (.refresh e.id)))) := by
  let F : Eff K V := { flag := fun j => j = e.id }
  obtain ⟨ht, w1, r1, hnx, hop, hn, hdq⟩ := resolveAsync_spc (F := F) M.env h.wf1 h.wf2 hd e.key b
  obtain ⟨hid, hk, hnm, hnr⟩ := behEntry_facts cfg M.env s e.key b
  have hpn := behEntry_pen cfg M.env s e.key b
  have hxs := next_not_open h.wf1 h.wf2 hd
  have hlt := h.wf1.lt e (List.mem_append_left _ he.mem)
  have hne : e.id ≠ s.nextId := by omega
  simp only
  generalize (resolveAsync cfg M.env s e.key b).1 = s1 at *
  generalize behEntry cfg M.env s e.key b = n at *
  have hnp1 : ∀ e' ∈ s1.ents, e'.id = e.id → e'.isPending = false := by
    intro e' he' hi
    obtain ⟨e0, h0, sh⟩ := r1.bwd e' he' (by omega)
    have : e0 = e := eq_of_id h.wf1 h0 he.mem (sh.id.symm.trans hi)
    rw [sh.pend, this]; exact he.np
  have w2 := w1.modify e.id (f := fun x => { x with refreshing := true }) (fun _ => ⟨rfl, rfl⟩)
  have r2 := r1.trans ((setRefreshing_shr (F := F) hnp1 rfl).spc s.nextId)
  have hn2 : n ∈ (s1.modify e.id (fun x => { x with refreshing := true })).ents := by
    rw [ents_modify]; exact List.mem_map.2 ⟨n, hn, by simp [atId, hid, Ne.symm hne]⟩
  have hop2 : (s1.modify e.id (fun x => { x with refreshing := true })).opens = s.opens ++ b.opens s.nextId := hop
  have hnx2 : (s1.modify e.id (fun x => { x with refreshing := true })).nextId = s.nextId + 1 := hnx
  have hdq2 : (s1.modify e.id (fun x => { x with refreshing := true })).delayQ = s1.delayQ := rfl
  have hflag := setRefreshing_flag (s := s1) (i := e.id)
  generalize hs2 : s1.modify e.id (fun x => { x with refreshing := true }) = s2 at *
  have hnmp : (behMapped b).isPending = true := by rcases hb with rfl | rfl <;> rfl
  have hnpend : n.isPending = true := by rw [Entry.isPending, hnm]; exact hnmp
  obtain ⟨q1, q2, q4⟩ := hpn hnmp
  have q3 : s.nextId ∉ s1.delayQ := by
    intro hq
    have := hdq.1 hq
    rcases hb with rfl | rfl <;> simp [Beh.isOk] at this
  have hlimx : ∀ y ∈ s2.limbo, y.id ≠ s.nextId := fun y hy => by
    have := not_limbo_of_ents w2 hn2 hy
    rw [hid] at this; exact Ne.symm this
  have w3 := w2.modify s.nextId (f := (·.upd (.addCb (.refresh e.id)))) (IdKey.upd _)
  have r3 := r2.trans (Spc.modify s2 (x := s.nextId) (f := (·.upd (.addCb (.refresh e.id)))) (IdKey.upd _) (fun y hy => .inl (hlimx y hy)))
  have hent3 := ents_modify s2 s.nextId (·.upd (.addCb (.refresh e.id)))
  have hn3 : n.upd (.addCb (.refresh e.id)) ∈ (s2.modify s.nextId (·.upd (.addCb (.refresh e.id)))).ents := by
    rw [hent3]; exact List.mem_map.2 ⟨n, hn2, by simp [atId, hid]⟩
  have hop3 : (s2.modify s.nextId (·.upd (.addCb (.refresh e.id)))).opens = s.opens ++ b.opens s.nextId := hop2
  have hnx3 : (s2.modify s.nextId (·.upd (.addCb (.refresh e.id)))).nextId = s.nextId + 1 := hnx2
  have hdq3 : s.nextId ∉ (s2.modify s.nextId (·.upd (.addCb (.refresh e.id)))).delayQ := by
    show s.nextId ∉ s2.delayQ; rw [hdq2]; exact q3
  have hfl3 : ∀ e' ∈ (s2.modify s.nextId (·.upd (.addCb (.refresh e.id)))).ents, e'.id = e.id → e'.refreshing = true := by
    intro e' he' hi
    rw [hent3] at he'
    obtain ⟨y, hy, rfl⟩ := List.mem_map.1 he'
    have h0 : y.id = e.id := ((IdKey.upd (K := K) (Mapped.addCb (V := V) (E := E) (.refresh e.id))).atId s.nextId y).1.symm.trans hi
    have := hflag y hy h0
    unfold atId; split <;> exact this
  generalize s2.modify s.nextId (·.upd (.addCb (.refresh e.id))) = s3 at *
  have hcbs : (n.upd (.addCb (.refresh e.id))).mapped.cbs = [.refresh e.id] ∧
      (n.upd (.addCb (.refresh e.id))).mapped.val? = none ∧ (n.upd (.addCb (.refresh e.id))).isPending = true ∧
      (n.upd (.addCb (.refresh e.id))).mapped.strong = true := by
    rcases hb with rfl | rfl <;> simp [Entry.upd, hnm, behMapped, Mapped.addCb, Mapped.cbs, Mapped.val?, Entry.isPending, Mapped.isPending, Mapped.strong]
  obtain ⟨c1, c2, c3, c4⟩ := hcbs
  have hoth : ∀ e' ∈ s3.ents, e'.id ≠ s.nextId → cfg.eqv e'.key e.key = true → e'.mapped.live = false := by
    intro e' he' hx hk'
    obtain ⟨e0, h0, sh⟩ := r3.bwd e' he' hx
    rw [sh.key] at hk'
    cases hlv : e'.mapped.live
    · rfl
    · have := sh.live hlv
      rw [he.fresh e0 h0 hk'] at this; cases this
  have hval : ∀ e' ∈ s3.ents, e'.id ≠ s.nextId → cfg.eqv e'.key e.key = true → e'.mapped.val? ≠ none → e'.id = e.id := by
    intro e' he' hx hk' hv
    obtain ⟨e0, h0, sh⟩ := r3.bwd e' he' hx
    obtain ⟨v, hv⟩ := Option.ne_none_iff_exists'.1 hv
    rw [sh.id]
    exact he.only e0 h0 (sh.key ▸ hk') (by simp [sh.val v hv])
  have hsn : SpcN cfg s s3 s.nextId (n.upd (.addCb (.refresh e.id))) := by
    refine ⟨hn3, hid, by rw [hop3]; exact opens_nodup h.wf2.opN hxs b, fun _ => c3, ?_, fun hh => absurd ha hh, ?_, ?_,
      fun e he _ => cb_ne_next h.wf1 h.wf2 he, ?_, ?_, ?_⟩
    · intro _
      refine ⟨q1, q2, hnr, hdq3, ?_, q4⟩
      intro hlv
      rw [hop3]
      rcases hb with rfl | rfl
      · simp [Beh.opens]
      · simp [Entry.upd, hnm, behMapped, Mapped.addCb, Mapped.live] at hlv
    · intro old hh; rw [c1] at hh; simp at hh; subst hh
      refine ⟨hlt, fun a ha hai => ?_⟩
      obtain ⟨e0, h0, sh⟩ := r3.bwd a ha (by omega)
      have : e0 = e := eq_of_id h.wf1 h0 he.mem (sh.id.symm.trans hai)
      subst this
      refine ⟨sh.pend.trans he.np, ?_⟩
      show cfg.eqv a.key n.key = true
      rw [sh.key, hk]; exact hc.refl _
    · intro a b h1 h2; rw [c1] at h1 h2; simp at h1 h2; rw [h1, h2]
    · intro e' he' hx hk' _; exact hoth e' he' hx (by rw [← hk]; exact hk')
    · intro e' he' hx hk' hv; exact absurd c2 hv
    · intro e' he' hx hk' _ hv
      have := hval e' he' hx (by rw [← hk]; exact hk') hv
      exact ⟨by rw [c1, this]; simp, hfl3 e' he' this⟩
  have hdqs : DQ cfg M X s3 := by
    refine h.dq.special w3 r3 hn3 hid (next_not_queued h.wf1) (fun _ _ h => h.elim) ?_ ?_ ?_ (fun hv => absurd hv (by rw [isVoid_of_pending c3]; simp))
    · intro e' he' hx hX _ hf
      rcases hX with hX | hX
      · have := hfl3 e' he' hX
        rw [hf] at this; cases this
      · exact hX
    · intro d i _ hq; exact absurd hq hdq3
    · intro _ hv; exact absurd c2 hv
  have hone : ∀ e0 ∈ s.ents, e0.id = e.id → cfg.eqv e0.key e.key = true := by
    intro e0 h0 hi; rw [eq_of_id h.wf1 h0 he.mem hi]; exact hc.refl _
  have hset : ∀ e' ∈ s3.ents, cfg.eqv e'.key e.key = true → e'.mapped.val? ≠ none → e'.refreshing = true := by
    intro e' he' hk' hv
    by_cases hx : e'.id = s.nextId
    · rw [eq_of_id w3 he' hn3 (hx.trans hid.symm)] at hv; exact absurd c2 hv
    · exact hfl3 e' he' (hval e' he' hx hk' hv)
  refine ⟨⟨n, by rw [← hid]; exact find_mem w2 hn2, hnpend⟩, ?_, F, r3, fun _ _ _ h => h.elim, fun _ h => h, fun _ h => h⟩
  rcases hb with rfl | rfl
  · refine h.begun hc hd rfl w3 r3 hsn hdqs (k := e.key) (by show cfg.eqv n.key e.key = true; rw [hk]; exact hc.refl _) (rf := true)
      ⟨fun _ h => h, hone, fun _ _ h => h.elim, fun _ _ _ => .inr (fun h => h)⟩ (fun _ _ h => h) (fun _ _ => rfl)
      (by rw [hop3]; simp [Beh.opens]) hnx3 (by simp [Entry.upd, hnm, behMapped, Mapped.addCb, Mapped.live]) hoth ?_ ?_ he.fresh
      (by rw [c1]; rfl) (by rw [c1]; simp) (fun _ _ => c4) (fun _ => hset)
    · intro e' he' hk' hv
      by_cases hx : e'.id = s.nextId
      · rw [eq_of_id w3 he' hn3 (hx.trans hid.symm)] at hv; exact absurd c2 hv
      · rw [c1, hval e' he' hx hk' hv]; simp
    · intro old hh; rw [c1] at hh; simp at hh; subst hh
      exact ⟨e, he.mem, rfl, hc.refl _, he.val⟩
  · have hxo : s.nextId ∉ s3.opens := by rw [hop3]; simpa [Beh.opens] using hxs
    have hl3 : (n.upd (.addCb (.refresh e.id))).mapped.live = false := by simp [Entry.upd, hnm, behMapped, Mapped.addCb, Mapped.live]
    refine h.dead hc hd w3 r3 hsn hdqs (h.g.rsp.forget hc e.key true) rfl (fun _ _ => rfl) (fun a => ⟨rfl, rfl, rfl, rfl, ?_⟩) ?_ (fun _ h => h)
      ?_ (fun _ _ _ _ h => h) (fun _ _ _ h => h) (fun _ _ _ => .inr (fun h => h)) hxo (by omega) (by omega)
      (fun e he hh => absurd hh (id_ne_next h.wf1 he)) c2 hl3 (fun _ _ => c4)
      (by
        intro a e' he' hea hv hh
        simp only [Ledger.lookup, Ledger.forget, Bool.and_true] at hh
        split at hh
        · rename_i hak; exact .inr (hset e' he' (hc.trans _ _ _ hea hak) hv)
        · exact .inl hh)
    · intro hh; simp only [Ledger.lookup, Ledger.forget]; split
      · rfl
      · exact hh
    · intro a
      by_cases hak : cfg.eqv a e.key = true
      · right
        refine ⟨by simp [Ledger.lookup, Ledger.forget, hak], ?_⟩
        intro e' he' hea
        by_cases hx : e'.id = s.nextId
        · rw [eq_of_id w3 he' hn3 (hx.trans hid.symm)]; exact hl3
        · exact hoth e' he' hx (hc.trans _ _ _ hea hak)
      · left; exact ⟨by simp [Ledger.lookup, Ledger.forget, hak], h.fresh a⟩
    · intro e0 h0 hi a hea
      have : e0 = e := eq_of_id h.wf1 h0 he.mem hi
      subst this
      simp [Ledger.lookup, Ledger.forget, hc.symm _ _ hea]

theorem find_some {i : Nat} {e : Entry K V E} (h : s.find i = some e) : e ∈ s.ents ∧ e.id = i := by
  unfold St.find at h
  have h1 := List.find?_some h
  exact ⟨List.mem_of_find?_eq_some h, by simpa using h1⟩

/-- A refresh needs no exception for its entry any more; other exceptions stay. -/
theorem refresh_okX (hc : cfg.Ok) {X : Nat → Prop} {e : Entry K V E} (h : Good cfg M (fun j => j = e.id ∨ X j) s L)
    (hd : s.destroyed = false) (he : e ∈ s.ents) (hp : e.isPending = false) (hnv : e.mapped.isVoid = false) (r : Res V E) (b : Beh V E) :
    let g := refresh cfg M.env s e r b
    Good cfg M X g.1 (L.after cfg.eqv cfg.resolver M.env.now (.tick r b) g.2) ∧
    ((g.2 = {} ∧ (e.refreshing || e.expired M.env) = true) ∨
     (g.2 = { calls := [(e.key, s.nextId)] } ∧ e.refreshing = false ∧ e.expired M.env = false)) ∧
    Loc cfg M.env e.id s.nextId s g.1 := by
  simp only
  unfold refresh
  by_cases hre : (e.refreshing || e.expired M.env) = true
  · rw [if_pos hre]
    refine ⟨h.dropX ?_, .inl ⟨rfl, hre⟩, {}, (Shr.refl s).spc _, fun _ _ _ h => h.elim, fun _ h => h.elim, fun _ h => h⟩
    intro a ha hX hv hf
    rcases hX with hX | hX
    · have := eq_of_id h.wf1 ha he hX
      subst this
      rw [hf] at hre
      exact .inl (by simpa using hre)
    · exact .inr hX
  · rw [if_neg hre]
    simp only [Bool.or_eq_true, not_or, Bool.not_eq_true] at hre
    have hR := refr_of hc h.wf2 he hp hre.1 hre.2 hnv
    by_cases ha : cfg.resolver = .async
    · simp only [ha, if_true]
      have ht := (resolveAsync_spc (F := ({} : Eff K V)) M.env h.wf1 h.wf2 hd e.key b).1
      cases b with
      | now res =>
        obtain ⟨_, w1, r1, hnx, hop, hn, hdq⟩ := resolveAsync_spc (F := refEff K V e.id) M.env h.wf1 h.wf2 hd e.key (.now res)
        obtain ⟨hid, hk, hnm, hnr⟩ := behEntry_facts cfg M.env s e.key (.now res)
        obtain ⟨f1, f2, _⟩ := behMapped_val (.now res) res rfl
        have hst := behMapped_strong (.now res)
        have hval : (behEntry cfg M.env s e.key (.now res)).mapped.val? = value? res := by rw [hnm]; exact f2
        obtain ⟨g1, g2, gl⟩ := refresh_write hc h hd hR w1 r1 hnx (hop.trans (by simp [Beh.opens])) hn hid hk (by rw [hnm]; exact f1)
          (by rw [hnm]; exact hst) hnr (by rw [hnm]; exact behMapped_void _)
          (by
            intro hv a ha'
            rw [hval] at hv ⊢
            cases res with
            | err e => exact absurd rfl hv
            | ok v => exact linkUpd_times M.env s e.key (m := .value v) rfl rfl L _ ha')
          (by
            intro d i hr hq
            have := hdq.1 hq
            simp only [Bool.and_eq_true] at this
            exact behEntry_ref cfg M.env s e.key _ hr this.2)
          (by
            intro hr hv
            rw [hnm] at hv
            exact hdq.2 (by rw [hr, behMapped_isOk hv]; rfl))
        rw [hval] at g2
        have hnp : (behEntry cfg M.env s e.key (.now res)).isPending = false := by rw [Entry.isPending, hnm]; exact f1
        rw [ht]
        simp only [g1, hnp]
        exact ⟨g2, .inr ⟨rfl, hre⟩, gl⟩
      | later =>
        obtain ⟨⟨n, g1, gp⟩, g2, gl⟩ := refresh_pend hc h hd ha hR .later (.inl rfl)
        rw [ht]
        simp only [g1, gp, if_true]
        exact ⟨g2, .inr ⟨trivial, hre⟩, gl⟩
      | drop =>
        obtain ⟨⟨n, g1, gp⟩, g2, gl⟩ := refresh_pend hc h hd ha hR .drop (.inr rfl)
        rw [ht]
        simp only [g1, gp, if_true]
        exact ⟨g2, .inr ⟨trivial, hre⟩, gl⟩
    · simp only [ha, if_false, resolveSync]
      obtain ⟨w1, r1, hin, hop, hnx, _, hdq⟩ := link_spc (F := refEff K V e.id) M.env h.wf1 (e := newEntry s e.key (syncMapped r)) rfl
      obtain ⟨f1, f2, f3, f4, _⟩ := linkUpd_facts cfg M.env (newEntry s e.key (syncMapped r))
      obtain ⟨y1, y2, y3⟩ := syncMapped_facts r
      have f3' : (linkUpd cfg M.env (newEntry s e.key (syncMapped r))).mapped = syncMapped r := f3
      have hhv : (syncMapped r).val? ≠ none → (syncMapped r).holdsValue M.env = true := by
        intro hv; cases r <;> first | rfl | exact absurd rfl hv
      obtain ⟨g1, g2, gl⟩ := refresh_write hc h hd hR w1 r1 hnx hop hin f1 f2 (by rw [f3']; exact y1) (by rw [f3']; exact y3) f4 (by rw [f3']; cases r <;> rfl)
        (by
          intro hv a ha'
          rw [f3'] at hv
          exact linkUpd_times M.env s e.key (hhv hv) y1 L _ ha')
        (by
          intro d i hr hq
          have h2 := hdq.1 hq
          simp only [Bool.and_eq_true] at h2
          have := (linkUpd_times M.env s e.key (m := syncMapped r) h2.2 y1 L none (hc.refl e.key)).2.2
          rw [this]; simp [Ledger.dueAt, hr, Ledger.put, hc.refl])
        (by
          intro hr hv
          rw [f3'] at hv
          apply hdq.2
          have h1 : (newEntry s e.key (syncMapped r)).isPending = false := y1
          have h2 : (newEntry s e.key (syncMapped r)).mapped.holdsValue M.env = true := hhv hv
          simp [hr, h1, h2])
      have hnp : (linkUpd cfg M.env (newEntry s e.key (syncMapped r))).isPending = false := by rw [Entry.isPending, f3']; exact y1
      simp only [g1, hnp]
      refine ⟨?_, .inr ⟨rfl, hre⟩, gl⟩
      simp only [Bool.false_eq_true, if_false, Ledger.after, ha]
      rw [f3', y2] at g2
      exact g2

theorem refresh_ok (hc : cfg.Ok) {e : Entry K V E} (h : Good cfg M (· = e.id) s L)
    (hd : s.destroyed = false) (he : e ∈ s.ents) (hp : e.isPending = false) (hnv : e.mapped.isVoid = false) (r : Res V E) (b : Beh V E) :
    let g := refresh cfg M.env s e r b
    Good cfg M (fun _ => False) g.1 (L.after cfg.eqv cfg.resolver M.env.now (.tick r b) g.2) ∧
    ((g.2 = {} ∧ (e.refreshing || e.expired M.env) = true) ∨
     (g.2 = { calls := [(e.key, s.nextId)] } ∧ e.refreshing = false ∧ e.expired M.env = false)) ∧
    Loc cfg M.env e.id s.nextId s g.1 :=
  refresh_okX hc (h.dropX fun _ _ h _ _ => .inr (.inl h)) hd he hp hnv r b

/-- An entry that is not expired holds a value the ledger agrees with. -/
theorem valid_of (h : Good cfg M X0 s L) {e : Entry K V E} {k : K} {v : V} (he : e ∈ s.ents) (hk : cfg.eqv e.key k = true)
    (hv : e.mapped.val? = some v) (hx : e.expired M.env = false) : Valid cfg M L k v := by
  obtain ⟨h0, h1, h2, _⟩ := (h.v k).c1 e he hk v hv
  have hx' := hx
  simp only [Entry.expired, Bool.or_eq_false_iff, h1, h2] at hx'
  refine ⟨h0, ?_, ?_⟩
  · rw [hx'.1.2, hx'.2]; simp
  · intro hm
    cases hg : L.gone k
    · rfl
    · have := (h.v k).g1 hm e he hk (by simp [hv]) hg
      rw [hx] at this; cases this

/-- What a run of the refresh worker does, according to the ledger. -/
def TickOut (cfg : Cfg K) (M : Md V) (L : Ledger K V) (n : Nat) (o : Out K V E) : Prop :=
  o = {} ∨ ∃ k, o = { calls := [(k, n)] } ∧ (∃ v, Valid cfg M L k v) ∧ reached M.env.now (L.dueAt cfg.refresh k) = true ∧
    (M.ex → L.valid k = none) ∧ L.tried k = false

/-- Taking an entry off the delay queue. -/
theorem popped (hc : cfg.Ok) {i : Nat} {q : List Nat} (hq : s.delayQ = i :: q) (h : Good cfg M (fun _ => False) s L) :
    Good cfg M (· = i) { s with delayQ := q } L := by
  let F : Eff K V := { pop := fun j => j = i }
  have r0 : Shr cfg M.env F s { s with delayQ := q } :=
    ⟨⟨rfl, rfl, rfl⟩, fun e h => ⟨e, h, .refl _⟩, fun e h _ => ⟨e, h, .refl _⟩, fun e h w => ⟨e, h, .refl _, rfl, rfl, w.exp⟩,
     by rw [hq]; exact List.sublist_cons_self _ _,
     fun j hj => by
       rw [hq] at hj
       rcases List.mem_cons.1 hj with h | h
       · exact .inr (.inr h)
       · exact .inl h,
     fun h => h, fun o h => ⟨o, h, .refl _⟩⟩
  have w0 : WF1 cfg { s with delayQ := q } :=
    ⟨h.wf1.ids, h.wf1.lt, h.wf1.placed, h.wf1.sorted, h.wf1.bq, (by have := h.wf1.dqN; rw [hq] at this; exact (List.nodup_cons.1 this).2),
     fun i hi => h.wf1.dqM i (by rw [hq]; exact List.mem_cons_of_mem _ hi)⟩
  refine h.shr hc w0 r0 ⟨fun _ h => h, fun _ h => h, fun _ _ _ _ _ _ h => h.elim, fun _ _ _ _ h => h, fun _ _ _ => .inr (fun h => h)⟩
    (fun _ h => h.elim) (fun _ _ h => h)

/-- A timer runs out: the entry leaves the delay queue and is excepted from then on. -/
theorem unqueued (hc : cfg.Ok) {X : Nat → Prop} (i : Nat) (h : Good cfg M X s L) :
    Good cfg M (fun j => j = i ∨ X j) { s with delayQ := s.delayQ.filter (· != i) } L := by
  let F : Eff K V := { pop := fun j => j = i }
  have r0 : Shr cfg M.env F s { s with delayQ := s.delayQ.filter (· != i) } :=
    ⟨⟨rfl, rfl, rfl⟩, fun e h => ⟨e, h, .refl _⟩, fun e h _ => ⟨e, h, .refl _⟩, fun e h w => ⟨e, h, .refl _, rfl, rfl, w.exp⟩,
     List.filter_sublist,
     fun j hj => by
       by_cases hji : j = i
       · exact .inr (.inr hji)
       · exact .inl (List.mem_filter.2 ⟨hj, by simpa using hji⟩),
     fun h => h, fun o h => ⟨o, h, .refl _⟩⟩
  have w0 : WF1 cfg { s with delayQ := s.delayQ.filter (· != i) } :=
    ⟨h.wf1.ids, h.wf1.lt, h.wf1.placed, h.wf1.sorted, h.wf1.bq, h.wf1.dqN.filter _,
     fun i hi => h.wf1.dqM i (List.mem_filter.1 hi).1⟩
  refine (h.dropX (X' := fun j => j = i ∨ X j) fun _ _ h _ _ => .inr (.inr h)).shr hc w0 r0
    ⟨fun _ h => h, fun _ h => h, fun _ _ _ _ _ _ h => h.elim, fun _ _ _ _ h => h, fun _ _ _ => .inr (fun h => h)⟩
    (fun _ h => h) (fun _ _ h => .inl h)

theorem queued_notPending (h : WF2 cfg s) {e : Entry K V E} (he : e ∈ s.ents) (hi : e.id ∈ s.delayQ) : e.isPending = false := by
  cases hp : e.isPending
  · rfl
  · exact absurd hi (h.pen e he hp).2.2.2.1

theorem queued_notVoid {X : Nat → Prop} (h : DQ cfg M X s) {e : Entry K V E} (he : e ∈ s.ents) (hi : e.id ∈ s.delayQ) : e.mapped.isVoid = false := by
  cases hp : e.mapped.isVoid
  · rfl
  · exact absurd hi (h.nv e he hp).2

theorem DQ.noVoid {X : Nat → Prop} (h : DQ cfg M X s) (ht : M.tm) : ∀ e ∈ s.ents, e.mapped.isVoid = false := by
  intro e he
  cases hp : e.mapped.isVoid
  · rfl
  · exact absurd ht (h.nv e he hp).1

theorem tick_ok (hc : cfg.Ok) (h : Good cfg M (fun _ => False) s L) (hd : s.destroyed = false) (r : Res V E) (b : Beh V E) :
    let g := tick cfg M.env s r b
    Good cfg M (fun _ => False) g.1 (L.after cfg.eqv cfg.resolver M.env.now (.tick r b) g.2) ∧ TickOut cfg M L s.nextId g.2 := by
  simp only
  unfold tick
  cases hq : s.delayQ with
  | nil => exact ⟨h, .inl rfl⟩
  | cons i q =>
    simp only
    cases hf : s.find i with
    | none => exact ⟨h, .inl rfl⟩
    | some e =>
      simp only
      split
      · rename_i hdue
        obtain ⟨he, hi⟩ := find_some hf
        subst hi
        have hnp := queued_notPending h.wf2 he (by rw [hq]; exact List.mem_cons_self ..)
        have hnv := queued_notVoid h.dq he (by rw [hq]; exact List.mem_cons_self ..)
        obtain ⟨g1, g2, _⟩ := refresh_ok hc (popped hc hq h) hd (e := e) he hnp hnv r b
        refine ⟨g1, ?_⟩
        rcases g2 with ⟨g2, _⟩ | ⟨g2, g3, g4⟩
        · exact .inl g2
        · right
          obtain ⟨v, hv⟩ := Option.ne_none_iff_exists'.1 (refr_of hc h.wf2 he hnp g3 g4 hnv).val
          refine ⟨e.key, g2, ⟨v, valid_of h he (hc.refl _) hv g4⟩, ?_, ?_, ?_⟩
          · have := ((h.v e.key).c1 e he (hc.refl _) v hv).2.2.2.1
            rw [← this]; exact hdue
          · intro hex
            cases hva : L.valid e.key with
            | none => rfl
            | some t =>
              obtain ⟨_, T, hT, _, _, hk, hl, _⟩ := (h.p e.key).c3 hd t hva
              have := (h.wf2.vc e he T hT v hv (hl hex) (hc.symm _ _ hk)).2
              rw [g3] at this; cases this
          · have := ((h.v e.key).c1 e he (hc.refl _) v hv).2.2.2.2
            rw [g3] at this
            cases ht : L.tried e.key
            · rfl
            · rw [ht] at this; simp at this
      · exact ⟨h, .inl rfl⟩

theorem clear_ok {X} (h : Good cfg M X s L) : Good cfg M X (clear cfg s) L.wipe := by
  have r : Shr cfg M.env ({ die := fun _ _ _ => True } : Eff K V) s (clear cfg s) := clear_shr h.wf1 (fun _ _ _ => trivial)
  have hcl : ∀ e ∈ (clear cfg s).ents, e.mapped.val? = none ∧ e.mapped.live = false := by
    intro e he
    rw [clear_ents] at he
    obtain ⟨e0, h0, rfl⟩ := List.mem_map.1 he
    have hp := (List.mem_filter.1 h0).2
    cases hm : e0.mapped <;> simp_all [Entry.isPending, Mapped.isPending, Entry.upd, Mapped.markExpired, Mapped.val?, Mapped.live]
  refine h.wiped (clear_wf1 h.wf1) (h.wf2.shr r) (h.dq.shr r (fun _ h => h) (fun _ _ h => h.elim)) hcl r.same.nextId ?_ ?_
  · intro T' hT' ho
    obtain ⟨T, hT, sh⟩ := r.bwd T' hT'
    exact ⟨T, hT, sh.id, by rw [← sh.id, ← r.same.opens]; exact ho, sh.cbs⟩
  · intro hex hcnd e he
    obtain ⟨T, hT, sh⟩ := r.bwd e he
    exact sh.wk (.inr (fun h => h)) (h.g.st hex hcnd T hT)

theorem destroy_ents (cfg : Cfg K) (s : St K V E) : (destroy cfg s).1.ents = [] := by
  unfold destroy
  show (dispose cfg { s with tbl := s.tbl.map (fun _ => []) } s.ents).ents = []
  rw [dispose_ents]
  simp [St.ents]

theorem destroy_ok (h : Good cfg M X0 s L) : Good cfg M (fun _ => False) (destroy cfg s).1 L.wipe := by
  have w : WF1 cfg (dispose cfg { s with tbl := s.tbl.map (fun _ => []) } s.ents) := by
    apply h.wf1.remove
    · simp
    · intro i b b' hb hb'
      simp only [List.getElem?_map, hb, Option.map_some, Option.some.injEq] at hb'
      subst hb'; simp
    · have : (s.tbl.map (fun _ => ([] : List (Entry K V E)))).flatten = [] := by simp
      rw [this]; exact List.Perm.refl _
  have hent := destroy_ents cfg s
  have f := dispose_fields cfg s.ents { s with tbl := s.tbl.map (fun _ => []) }
  have w' : WF1 cfg (destroy cfg s).1 := ⟨w.ids, w.lt, w.placed, w.sorted, w.bq, w.dqN, w.dqM⟩
  have hop : (destroy cfg s).1.opens = s.opens := f.2.2.2.1
  have hnx : (destroy cfg s).1.nextId = s.nextId := f.2.2.1
  have w2 : WF2 cfg (destroy cfg s).1 := by
    constructor
    case opN => rw [hop]; exact h.wf2.opN
    case opE => intro hd; cases hd
    case opD => intro _; exact hent
    case noA => intro ha; rw [hop, hent]; exact ⟨(h.wf2.noA ha).1, by simp⟩
    case lim => exact dispose_lim cfg { s with tbl := s.tbl.map (fun _ => []) } s.ents h.wf2.lim
    all_goals (rw [hent]; simp)
  have dq : DQ cfg M (fun _ => False) (destroy cfg s).1 := by
    constructor
    · intro hm d i hr
      apply List.pairwise_of_forall
      rw [hent]; simp
    · rw [hent]; simp
    · rw [hent]; simp
    · rw [hent]; simp
  exact (h.dropX (X' := fun _ => True) (fun _ _ _ _ _ => .inr trivial)).wiped w' w2 ⟨dq.dl1, dq.dl2, by rw [hent]; simp, dq.nv⟩ (by rw [hent]; simp) hnx (by rw [hent]; simp) (by rw [hent]; simp)
    |>.dropX (by rw [hent]; simp)

/-- Every operation but the refresh keeps the invariant and the ledger, whatever is excepted. -/
theorem step_okX (hc : cfg.Ok) {X : Nat → Prop} (h : Good cfg M X s L) (o : Op K V E) (ho : o.ok cfg s)
    (ht : ∀ r b, o ≠ .tick r b) (hn : M.ex → NoEvict cfg (step cfg M.env s o).1) :
    Good cfg M X (step cfg M.env s o).1 (L.after cfg.eqv cfg.resolver M.env.now o (step cfg M.env s o).2) := by
  cases o with
  | getIfExists k => exact (getIfExists_ok hc h k).1
  | get k r => exact (get_ok hc h ho.2 ho.1 k r).1
  | asyncGet k w b => exact (asyncGet_ok hc h ho.2 ho.1 k w b).1
  | emplace k v f => exact emplace_ok hc h ho k v f hn
  | getOrEmplace k v f => exact (getOrEmplace_ok hc h ho k v f hn).1
  | erase k => exact (expire_ok hc h k).1
  | clear => exact clear_ok h
  | count => exact h
  | complete x r =>
    simp only [step]
    by_cases hx : x ∈ s.opens
    · rcases Bool.eq_false_or_eq_true s.destroyed with hd | hd
      · have e : complete cfg M.env s x r = (({ s with opens := s.opens.erase x } : St K V E).modify x (·.upd .cancel),
            { ret := .bool false, broken := users (((({ s with opens := s.opens.erase x } : St K V E).findAny x).map (·.mapped.cbs)).getD []) }) := by
          unfold complete; rw [if_pos hx, if_pos hd]
        rw [e]
        exact gone_ok h hd x h.g.rsp (fun _ => .refl _ _) (fun _ _ h => h) rfl
      · obtain ⟨a, c⟩ := complete_ok hc h hd hx r
        rw [c]; exact a
    · have e : complete cfg M.env s x r = (s, { ret := .bool false }) := by unfold complete; rw [if_neg hx]
      rw [e]; exact h
  | drop x =>
    simp only [step]
    by_cases hx : x ∈ s.opens
    · obtain ⟨a, c, _⟩ := drop_ok hc h hx
      simp only [Ledger.after, c]; exact a
    · have e : drop s x = (s, { ret := .bool false }) := by unfold drop; rw [if_neg hx]
      rw [e]; exact h
  | tick r b => exact absurd rfl (ht r b)
  | destroy => exact (destroy_ok (cfg := cfg) h).dropX (fun _ _ h _ _ => h.elim)

/-- **The invariant and the ledger** are kept by every operation. -/
theorem step_ok (hc : cfg.Ok) (h : Good cfg M (fun _ => False) s L) (o : Op K V E) (ho : o.ok cfg s)
    (hn : M.ex → NoEvict cfg (step cfg M.env s o).1) :
    Good cfg M (fun _ => False) (step cfg M.env s o).1 (L.after cfg.eqv cfg.resolver M.env.now o (step cfg M.env s o).2) := by
  by_cases ht : ∃ r b, o = .tick r b
  · obtain ⟨r, b, rfl⟩ := ht
    exact (tick_ok hc h ho.2.2 r b).1
  · exact step_okX hc h o ho (fun r b hh => ht ⟨r, b, hh⟩) hn

theorem Env.le.refl (a : Env V) : a.le a := ⟨Int.le_refl _, Int.le_refl _, fun _ h => h⟩
theorem Env.le.trans {a b c : Env V} (h : a.le b) (h' : b.le c) : a.le c := ⟨Int.le_trans h.now h'.now, Int.le_trans h.wall h'.wall, fun v hv => h.alive v (h'.alive v hv)⟩

/-- The ledger along a history. -/
theorem history_cons (s : St K V E) (L : Ledger K V) (e : Env V) (o : Op K V E) (h : Hist K V E) :
    L.history cfg.eqv cfg.resolver ((e, o) :: h) (run cfg s ((e, o) :: h)).2 =
    (L.after cfg.eqv cfg.resolver e.now o (step cfg e s o).2).history cfg.eqv cfg.resolver h (run cfg (step cfg e s o).1 h).2 := rfl

theorem run_good (hc : cfg.Ok) {mo ex : Prop} (hem : ex → mo ∨ cfg.Untimed) (env : Env V) : ∀ (h : Hist K V E) (env0 : Env V) {s : St K V E} {L : Ledger K V},
    Good cfg ⟨mo, ex, env0, True⟩ (fun _ => False) s L → HistOk cfg s h → (mo → Mono (env0 :: (h.map (·.1) ++ [env]))) → (ex → NoEvictH cfg s h) →
    Good cfg ⟨mo, ex, env, True⟩ (fun _ => False) (run cfg s h).1 (L.history cfg.eqv cfg.resolver h (run cfg s h).2)
  | [], env0, s, L, g, _, hm, _ => g.advance hem (fun hmo => by
      have := hm hmo; simp [Mono] at this; exact this)
  | (e, o) :: h, env0, s, L, g, hok, hm, hx => by
    have hm1 : mo → env0.le e := fun hmo => by
      have := hm hmo; simp only [Mono, List.map_cons, List.cons_append, List.pairwise_cons] at this
      exact this.1 e (List.mem_cons_self ..)
    have g1 := g.advance (env := e) hem hm1
    have hne : ∀ (s : St K V E) h, NoEvictH cfg s h → NoEvict cfg s := by
      intro s h hh; cases h with
      | nil => exact hh
      | cons p h => exact hh.1
    have g2 := step_ok hc (M := ⟨mo, ex, e, True⟩) g1 o hok.1 (fun hex => hne _ h (hx hex).2)
    have := run_good hc hem env h e g2 hok.2 (fun hmo => by
      have := hm hmo; simp only [Mono, List.map_cons, List.cons_append, List.pairwise_cons] at this ⊢
      exact this.2) (fun hex => (hx hex).2)
    exact this

/-- The invariant after every history. -/
theorem reach_good (hc : cfg.Ok) {mo ex : Prop} (hem : ex → mo ∨ cfg.Untimed) (h : Hist K V E) (env : Env V) (hok : HistOk cfg St.init h)
    (hm : mo → Mono (h.map (·.1) ++ [env])) (hx : ex → NoEvictH cfg St.init h) :
    Good cfg ⟨mo, ex, env, True⟩ (fun _ => False) (run cfg St.init h).1 (({} : Ledger K V).history cfg.eqv cfg.resolver h (run cfg St.init h).2) := by
  have hf : ∃ e0 : Env V, mo → Mono (e0 :: (h.map (·.1) ++ [env])) := by
    cases h with
    | nil => exact ⟨env, fun _ => by simp [Mono, Env.le.refl]⟩
    | cons p h =>
      refine ⟨p.1, fun hmo => ?_⟩
      have := hm hmo
      simp only [Mono, List.map_cons, List.cons_append] at this ⊢
      refine List.pairwise_cons.2 ⟨?_, this⟩
      intro a ha
      rcases List.mem_cons.1 ha with rfl | ha
      · exact .refl _
      · exact (List.pairwise_cons.1 this).1 a ha
  obtain ⟨e0, he0⟩ := hf
  exact run_good hc hem env h e0 (good_init _ _ _) hok he0 hx

end Hoard
