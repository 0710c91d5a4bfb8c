import Verif.InvAsync
/-! Every operation preserves the invariant and agrees with the ledger: lookups
are completed, dropped, started. -/
namespace Hoard
open Spec
variable {K V E : Type}
variable {cfg : Cfg K} {M : Md V} {F : Eff K V} {L L' : Ledger K V} {s s' : St K V E}

/-- Deadlines after a result was stored. -/
theorem doneTimes (env : Env V) {e : Entry K V E} (h1 : e.expTp = none) {a k : K} (ha : cfg.eqv a k = true) {keep : Bool}
    (hcan : e.canTp = if keep then L.idleLimit cfg.refresh a else none) (o : Option V) (hr : cfg.refresh = none → e.refTp = none) :
    (assignTimes cfg env true e).expTp = (L.put cfg.eqv env.now keep k o).ageLimit cfg.maxAge cfg.wall a ∧
    (assignTimes cfg env true e).canTp = (L.put cfg.eqv env.now keep k o).idleLimit cfg.refresh a ∧
    (assignTimes cfg env true e).refTp = (L.put cfg.eqv env.now keep k o).dueAt cfg.refresh a := by
  simp only [Ledger.idleLimit] at hcan
  simp only [assignTimes, Ledger.ageLimit, Ledger.idleLimit, Ledger.dueAt, Ledger.put, ha, if_true, ageTp, h1]
  cases h2 : cfg.refresh with
  | none =>
    rw [h2] at hcan
    have hcan : e.canTp = none := by rw [hcan]; cases keep <;> rfl
    cases h3 : cfg.maxAge <;> simp [deadMin, hcan, hr h2]
  | some p =>
    obtain ⟨d, i⟩ := p
    rw [h2] at hcan
    simp only at hcan
    have hc : (if i = 0 then e.canTp else tpMin e.canTp (some (env.now + i))) =
        if i = 0 then none else some ((if keep = true then min (L.used a) env.now else env.now) + i) := by
      by_cases hi : i = 0
      · simp [hi] at hcan ⊢; exact hcan
      · simp only [hi, if_false] at hcan ⊢
        rw [hcan]
        cases keep <;> simp only [tpMin, Bool.false_eq_true, if_false, if_true, Option.some.injEq]
        omega
    cases h3 : cfg.maxAge <;> exact ⟨by simp [deadMin], hc, rfl⟩

/-- Completion of an open lookup of a living cache. -/
theorem complete_ok (hc : cfg.Ok) {X} (h : Good cfg M X s L) (hd : s.destroyed = false) {x : Nat} (ho : x ∈ s.opens) (r : Res V E) :
    Good cfg M X (complete cfg M.env s x r).1 (L.finish M.env.now x (value? r)) ∧
    (complete cfg M.env s x r).2 = { ret := .bool true, fired := (L.wait x).map (fun u => (u, r)) } := by
  obtain ⟨T, hT, hid, hp⟩ := h.wf2.opE hd x ho
  obtain ⟨p1, p2, p3, p4, p5, p6⟩ := h.wf2.pen T hT hp
  rw [hid] at p4
  let F : Eff K V := { die := fun i _ _ => Cb.refresh i ∈ T.mapped.cbs }
  obtain ⟨w1, rr, o1, n1, dq1, ⟨c, hn, hcp⟩, kill, out⟩ :=
    complete_spc (F := F) M.env h.wf1 hT hid (fun old hh => ⟨by rw [← hid]; exact (h.wf2.cb T hT old hh).1, fun _ _ => hh⟩) p4 ho hd r
  have hni : (assignTimes cfg M.env r.isOk { T with mapped := completed cfg r T.mapped, canTp := c }).id = x :=
    (assignTimes_idKey cfg M.env r.isOk _).1.trans hid
  have hnk : (assignTimes cfg M.env r.isOk { T with mapped := completed cfg r T.mapped, canTp := c }).key = T.key :=
    (assignTimes_idKey cfg M.env r.isOk _).2
  have hnm : (assignTimes cfg M.env r.isOk { T with mapped := completed cfg r T.mapped, canTp := c }).mapped = completed cfg r T.mapped :=
    (assignTimes_mapped cfg M.env r.isOk _).1
  have hnr : (assignTimes cfg M.env r.isOk { T with mapped := completed cfg r T.mapped, canTp := c }).refreshing = false :=
    (assignTimes_mapped cfg M.env r.isOk _).2.trans p3
  have htms := fun (hb : r.isOk = true) (a : K) (ha : cfg.eqv a T.key = true) (keep : Bool) (hcan : c = if keep then L.idleLimit cfg.refresh a else none) (o : Option V) =>
    hb ▸ doneTimes (L := L) (cfg := cfg) M.env (e := { T with mapped := completed cfg r T.mapped, canTp := c }) p1 ha (keep := keep) hcan o (fun _ => p6)
  have hnref : ∀ d i, cfg.refresh = some (d, i) → r.isOk = true →
      (assignTimes cfg M.env r.isOk { T with mapped := completed cfg r T.mapped, canTp := c }).refTp = some (M.env.now + d) := by
    intro d i hr hb; rw [hb]; simp [assignTimes, hr]
  generalize hng : assignTimes cfg M.env r.isOk { T with mapped := completed cfg r T.mapped, canTp := c } = n at *
  refine ⟨?_, by rw [out, ← hid, ← h.g.wt T hT (by rw [hid]; exact ho)]⟩
  have hnp : n.isPending = false := by rw [Entry.isPending, hnm]; exact completed_notPending cfg r _
  have hnl : n.mapped.live = false := by
    cases hh : n.mapped.live
    · rfl
    · have := Mapped.live_pending hh; rw [Entry.isPending, this] at hnp; cases hnp
  have hxo : x ∉ (complete cfg M.env s x r).1.opens := by
    rw [o1]; intro hm; exact (List.Nodup.mem_erase_iff h.wf2.opN).1 hm |>.1 rfl
  have hnv : ∀ v, n.mapped.val? = some v → T.mapped.live = true ∧ r = .ok v := by
    intro v hv
    rw [hnm] at hv
    exact completed_val hp hv
  have hnst : M.ex → (cfg.weaken = false ∨ cfg.ptr = false ∨ cfg.maxSize = none) → n.mapped.strong = true := by
    intro hex hcnd; rw [hnm]; exact completed_strong (h.g.st hex hcnd T hT)
  have hxlt : x < (complete cfg M.env s x r).1.nextId := by
    rw [n1, ← hid]; exact h.wf1.lt T (List.mem_append_left _ hT)
  have hTx : ∀ e ∈ s.ents, e.id = x → e = T := fun e he hh => eq_of_id h.wf1 he hT (hh.trans hid.symm)
  have hsn : SpcN cfg s (complete cfg M.env s x r).1 x n := by
    refine ⟨hn, hni, by rw [o1]; exact h.wf2.opN.erase x, fun hh => absurd hh hxo, (fun hh => by rw [hnp] at hh; cases hh), fun _ => hnp,
      (fun old hh => by rw [Mapped.cbs_nil hnp] at hh; cases hh), (fun a b hh => by rw [Mapped.cbs_nil hnp] at hh; cases hh), ?_, ?_, ?_, ?_⟩
    · intro e he hx hcb
      have := ((h.wf2.cb e he x hcb).2 T hT hid).1
      rw [hp] at this; cases this
    · intro e' he' hx hk hor
      have hTl : T.mapped.live = true := by
        rcases hor with hh | hh
        · rw [hnl] at hh; cases hh
        · obtain ⟨v, hv⟩ := Option.ne_none_iff_exists'.1 hh; exact (hnv v hv).1
      cases hel : e'.mapped.live
      · rfl
      · exfalso
        obtain ⟨e, he, sh⟩ := rr.bwd e' he' hx
        rw [hnk, sh.key] at hk
        have := h.wf2.vb e he T hT (sh.live hel) hTl hk
        rw [← sh.id, hid] at this
        exact hx this
    · intro e' he' hx hk hor
      obtain ⟨v, hv⟩ := Option.ne_none_iff_exists'.1 hor
      have hTl := (hnv v hv).1
      cases hev : e'.mapped.val? with
      | none => rfl
      | some v =>
        obtain ⟨e, he, sh⟩ := rr.bwd e' he' hx
        rw [hnk, sh.key] at hk
        have := (h.wf2.vc e he T hT v (sh.val v hev) hTl hk).1
        rw [← sh.id] at this
        rw [kill e' he' hx this] at hev; cases hev
    · intro e' he' hx hk hh; rw [hnl] at hh; cases hh
  have hdq : DQ cfg M X (complete cfg M.env s x r).1 := by
    refine h.dq.special w1 rr hn hni p4 (fun _ _ h => h.elim) (fun _ _ _ hx _ _ => hx) ?_ ?_ (fun hv => absurd hv (by rw [hnm, completed_void cfg r hp]; simp))
    · intro d i hr hq
      have := dq1.1 hq
      simp only [Bool.and_eq_true] at this
      exact hnref d i hr this.2
    · intro hr hv _
      left
      obtain ⟨v, hv⟩ := Option.ne_none_iff_exists'.1 hv
      apply dq1.2
      rw [hr, (hnv v hv).2]; rfl
  have hTk : ∀ a, L.valid a = some x → cfg.eqv a T.key = true := by
    intro a hv
    obtain ⟨_, T0, hT0, t1, _, t3, _⟩ := (h.p a).c3 hd x hv
    rw [hTx T0 hT0 t1] at t3
    exact hc.symm _ _ t3
  by_cases hval : L.valid T.key = some x
  · have hiff : ∀ a, (L.valid a = some x) ↔ cfg.eqv a T.key = true := by
      intro a
      refine ⟨hTk a, fun hh => ?_⟩
      rw [(h.g.rsp a T.key hh).2.2.2.2.1]; exact hval
    have hLeq : L.finish M.env.now x (value? r) = L.put cfg.eqv M.env.now (L.refr x) T.key (value? r) := by
      simp only [Ledger.finish, Ledger.put, Ledger.mk.injEq, true_and]
      refine ⟨?_, ?_, ?_, ?_, ?_, ?_⟩ <;>
        (funext a; by_cases hh : cfg.eqv a T.key = true
         · simp only [(hiff a).2 hh, hh, if_true]
         · have : ¬ L.valid a = some x := fun h' => hh ((hiff a).1 h')
           simp only [this, hh, if_false]; rfl)
    rw [hLeq]
    obtain ⟨_, T0, hT0, t1, _, _, tl, tcb⟩ := (h.p T.key).c3 hd x hval
    have := hTx T0 hT0 t1
    subst this
    refine h.put hc hd w1 rr hsn hdq (by rw [hnk]; exact hc.refl _) ⟨fun _ h => h, fun _ _ h => h.elim, ?_, fun _ _ _ => .inr (fun h => h)⟩ hxo
      (by rw [n1]; exact Nat.le_refl _) hxlt (fun e he hh => by rw [hTx e he hh]; exact hc.refl _) ?_ hnp ?_ ?_ hnst ?_ ?_
    · intro e he hdi; exact ((h.wf2.cb T0 hT e.id hdi).2 e he rfl).2
    · intro a ha hh; rw [(hiff a).1 hh] at ha; cases ha
    · intro v hv; rw [(hnv v hv).2]; rfl
    · intro hex
      rw [hnm]
      apply completed_live (tl hex)
      cases hpt : cfg.ptr
      · exact .inl (h.g.st hex (.inr (.inl hpt)) T0 hT)
      · exact .inr rfl
    · intro e' he' hx hk
      obtain ⟨e, he, sh⟩ := rr.bwd e' he' hx
      rw [sh.key] at hk
      constructor
      · cases hv : e'.mapped.val? with
        | none => rfl
        | some v =>
          have := tcb e he (by simp [sh.val v hv]) hk
          rw [← sh.id] at this
          rw [kill e' he' hx this] at hv; cases hv
      · cases hl : e'.mapped.live
        · rfl
        · have := (h.p T0.key).c2 e he hk (sh.live hl)
          rw [hval, ← sh.id] at this
          simp only [Option.some.injEq] at this
          exact absurd this.symm hx
    · intro hv
      obtain ⟨v, hv⟩ := Option.ne_none_iff_exists'.1 hv
      obtain ⟨hl, hr⟩ := hnv v hv
      refine ⟨hnr, fun a ha => ?_⟩
      have := htms (by rw [hr]; rfl) a ha (L.refr x) ?_ (value? r)
      · exact hng ▸ this
      · have hrw := h.g.rfw T0 hT (by rw [hid]; exact ho)
        rw [hid] at hrw
        cases hrf : L.refr x
        · simp only [Bool.false_eq_true, if_false]
          rw [hcp.1 ?_, p2]
          intro old hh
          rw [hrf] at hrw
          exact absurd (hrw.2 ⟨old, hh⟩) (by simp)
        · rw [hcp.2 (L.idleLimit cfg.refresh a) (hrw.1 hrf) ?_, p2]; rfl
          intro old hh
          obtain ⟨o, hom, hoi, _, hoc⟩ := (h.p a).t4 T0 hT (hc.symm _ _ ha) hl old hh
          exact ⟨o, hom, hoi, hoc⟩
  · have hTl : T.mapped.live = false := by
      cases hl : T.mapped.live
      · rfl
      · exact absurd (hid ▸ (h.p T.key).c2 T hT (hc.refl _) hl) hval
    have hno : ∀ a, L.valid a ≠ some x := by
      intro a hh
      rw [← (h.g.rsp a T.key (hTk a hh)).2.2.2.2.1] at hval
      exact hval hh
    have hLeq : L.finish M.env.now x (value? r) = L := by
      cases L
      simp only [Ledger.finish, Ledger.mk.injEq, true_and]
      refine ⟨?_, ?_, ?_, ?_, ?_, ?_⟩ <;> (funext a; have := hno a; simp only at this; simp only [this, if_false])
    rw [hLeq]
    refine h.dead hc hd w1 rr hsn hdq h.g.rsp rfl (fun _ _ => rfl) (fun a => .refl _ _) (fun a => .inl ⟨rfl, hno a⟩) (fun _ h => h)
      (fun _ _ h => h.elim) ?_ ?_ (fun _ _ _ => .inr (fun h => h)) hxo (by rw [n1]; exact Nat.le_refl _) hxlt
      (fun e he hh => by rw [hTx e he hh]; exact Mapped.pending_val hp) ?_ hnl hnst
    · intro hex e he hv hdi
      have := (h.p e.key).x3 hex e he (hc.refl _) hv T hT hdi (by rw [hid]; exact ho)
      rw [hTl] at this; cases this
    · intro e he hl hdi
      have := ((h.wf2.cb T hT e.id hdi).2 e he rfl).1
      rw [Entry.isPending, Mapped.live_pending hl] at this; cases this
    · cases hv : n.mapped.val? with
      | none => rfl
      | some v => rw [(hnv v hv).1] at hTl; cases hTl

/-- A completion that comes after the cache is gone. -/
theorem gone_ok {X} (h : Good cfg M X s L) (hd : s.destroyed = true) (x : Nat) (hrsp : Rsp cfg L')
    (hcur : ∀ a, SameV L L' a) (hfr : ∀ k t, L'.valid k = some t → L.valid k = some t) (hw : L'.wait = L.wait) :
    Good cfg M X (({ s with opens := s.opens.erase x } : St K V E).modify x (·.upd .cancel)) L' := by
  have hne := h.wf2.opD hd
  have hent : (({ s with opens := s.opens.erase x } : St K V E).modify x (·.upd .cancel)).ents = [] := by
    rw [ents_modify]; show List.map _ s.ents = []; rw [hne]; rfl
  have w0 : WF1 cfg ({ s with opens := s.opens.erase x } : St K V E) :=
    ⟨h.wf1.ids, h.wf1.lt, h.wf1.placed, h.wf1.sorted, h.wf1.bq, h.wf1.dqN, h.wf1.dqM⟩
  have hlim := (Spc.modify (cfg := cfg) (env := M.env) (F := ({} : Eff K V)) (x := x) ({ s with opens := s.opens.erase x } : St K V E) (IdKey.upd .cancel)
    (fun e _ => .inr (fun _ => by show (Mapped.cancel e.mapped).cbs = []; cases e.mapped <;> rfl))).lim h.wf2.lim
  refine ⟨w0.modify _ (IdKey.upd _), ?_, ?_, ?_, ?_, ?_⟩
  · constructor
    case opN => exact h.wf2.opN.erase x
    case opE => intro h0; have h0 : s.destroyed = false := h0; rw [hd] at h0; cases h0
    case opD => exact fun _ => hent
    case noA =>
      intro ha
      refine ⟨?_, by rw [hent]; simp⟩
      show s.opens.erase x = []
      rw [(h.wf2.noA ha).1]; rfl
    case lim => exact hlim
    all_goals (rw [hent]; simp)
  · constructor <;> rw [hent]
    · intro hm d i hr
      refine (h.dq.dl1 hm d i hr).imp ?_
      intro _ _ _ a ha; cases ha
    · simp
    · simp
    · simp
  · refine ⟨hrsp, by rw [hent]; simp, by rw [hw]; exact h.g.wf, by rw [hent]; simp, by rw [hent]; simp⟩
  · intro k
    refine ⟨by rw [hent]; simp, by rw [hent]; simp, ?_⟩
    intro hex v hv
    rw [(hcur k).cur] at hv
    rcases (h.v k).x1 hex v hv with h1 | ⟨e, he, _⟩
    · exact .inl ((hcur k).dead.2 h1)
    · rw [hne] at he; cases he
  · intro k
    refine ⟨by rw [hent]; simp, ?_, by rw [hent]; simp, by rw [hent]; simp, fun t ht => (h.p k).fr t (hfr k t ht)⟩
    intro h0; have h0 : s.destroyed = false := h0; rw [hd] at h0; cases h0

/-- The callback object of an open lookup is dropped. -/
theorem drop_ok (hc : cfg.Ok) {X} (h : Good cfg M X s L) {x : Nat} (ho : x ∈ s.opens) :
    Good cfg M X (drop s x).1 (L.abandon x) ∧ (drop s x).2.ret = .bool true ∧ (drop s x).2.fired = [] ∧
    (s.destroyed = false → (drop s x).2.broken = L.wait x) := by
  have he : (drop s x).1 = ({ s with opens := s.opens.erase x } : St K V E).modify x (·.upd .cancel) := by
    unfold drop; rw [if_pos ho]
  have hr : (drop s x).2.ret = .bool true ∧ (drop s x).2.fired = [] := by unfold drop; rw [if_pos ho]; exact ⟨rfl, rfl⟩
  have hb : (drop s x).2.broken = users (((s.findAny x).map (·.mapped.cbs)).getD []) := by unfold drop; rw [if_pos ho]
  rw [hr.1, hr.2, hb, he]
  rcases Bool.eq_false_or_eq_true s.destroyed with hd | hd
  · exact ⟨gone_ok h hd x (h.g.rsp.abandon x) (fun a => ⟨rfl, rfl, rfl, rfl, fun h => h⟩) (by intro k t; simp only [Ledger.abandon]; split <;> simp) rfl,
      rfl, rfl, fun h => by rw [hd] at h; cases h⟩
  · obtain ⟨T, hT, hid, hp⟩ := h.wf2.opE hd x ho
    obtain ⟨p1, p2, p3, p4, p5, p6⟩ := h.wf2.pen T hT hp
    let s0 : St K V E := { s with opens := s.opens.erase x }
    have w0 : WF1 cfg s0 := ⟨h.wf1.ids, h.wf1.lt, h.wf1.placed, h.wf1.sorted, h.wf1.bq, h.wf1.dqN, h.wf1.dqM⟩
    have w1 : WF1 cfg (s0.modify x (·.upd .cancel)) := w0.modify _ (IdKey.upd _)
    have r0 : Spc cfg M.env ({} : Eff K V) x s s0 := Spc.opens s _ (fun t ht => List.mem_erase_of_ne ht)
    have rr : Spc cfg M.env ({} : Eff K V) x s (s0.modify x (·.upd .cancel)) := r0.trans
      (Spc.modify s0 (IdKey.upd _) (fun e _ => .inr (fun _ => by
        show (Mapped.cancel e.mapped).cbs = []
        cases e.mapped <;> rfl)))
    have hn : T.upd .cancel ∈ (s0.modify x (·.upd .cancel)).ents := by
      rw [ents_modify]; exact List.mem_map.2 ⟨T, hT, by simp [atId, hid]⟩
    have hxo : x ∉ (s0.modify x (·.upd .cancel)).opens := by
      intro hm; exact (List.Nodup.mem_erase_iff h.wf2.opN).1 hm |>.1 rfl
    have hm : (T.upd .cancel).mapped.live = false ∧ (T.upd .cancel).mapped.val? = none ∧ (T.upd .cancel).mapped.cbs = [] ∧
        (T.upd .cancel).isPending = true ∧ (T.mapped.strong = true → (T.upd .cancel).mapped.strong = true) := by
      cases hh : T.mapped <;> simp_all [Entry.upd, Entry.isPending, Mapped.isPending, Mapped.cancel, Mapped.live, Mapped.val?, Mapped.cbs, Mapped.strong]
    obtain ⟨m1, m2, m3, m4, m5⟩ := hm
    have hTx : ∀ e ∈ s.ents, e.id = x → e = T := fun e he hh => eq_of_id h.wf1 he hT (hh.trans hid.symm)
    have hsn : SpcN cfg s (s0.modify x (·.upd .cancel)) x (T.upd .cancel) := by
      refine ⟨hn, hid, h.wf2.opN.erase x, fun hh => absurd hh hxo, ?_, ?_, ?_, ?_, ?_, ?_, ?_, ?_⟩
      · intro _; exact ⟨p1, p2, p3, by rw [← hid]; exact p4, (fun hh => by rw [m1] at hh; cases hh), p6⟩
      · intro ha; rw [(h.wf2.noA ha).1] at ho; cases ho
      · intro old hh; rw [m3] at hh; cases hh
      · intro a b hh; rw [m3] at hh; cases hh
      · intro e he hx hcb
        have := ((h.wf2.cb e he x hcb).2 T hT hid).1
        rw [hp] at this; cases this
      · intro e' he' hx hk hor
        rcases hor with hh | hh
        · rw [m1] at hh; cases hh
        · exact absurd m2 hh
      · intro e' he' hx hk hh; exact absurd m2 hh
      · intro e' he' hx hk hh; rw [m1] at hh; cases hh
    refine ⟨?_, rfl, rfl, ?_⟩
    · refine h.dead hc hd w1 rr hsn ?_ (h.g.rsp.abandon x) rfl (fun _ _ => rfl) (fun a => ⟨rfl, rfl, rfl, rfl, fun h => h⟩) ?_ (fun _ h => h)
        (fun _ _ h => h.elim) (fun _ _ _ _ h => h) (fun _ _ _ h => h) (fun _ _ _ => .inr (fun h => h)) hxo (Nat.le_refl _)
        (by rw [← hid]; exact h.wf1.lt T (List.mem_append_left _ hT)) (fun e he hh => by rw [hTx e he hh]; exact Mapped.pending_val hp) m2 m1
        (fun hex hcnd => m5 (h.g.st hex hcnd T hT))
      · refine h.dq.special w1 rr hn hid (by rw [← hid]; exact p4) (fun _ _ h => h.elim) (fun _ _ _ hx _ _ => hx) ?_ ?_ (fun hv => absurd hv (by rw [isVoid_of_pending m4]; simp))
        · intro d i _ hq; exact absurd (hid ▸ hq) p4
        · intro _ hv; exact absurd m2 hv
      · intro a
        by_cases hv : L.valid a = some x
        · right
          refine ⟨by simp [Ledger.abandon, hv], ?_⟩
          intro e' he' hk
          by_cases hx : e'.id = x
          · rw [eq_of_id w1 he' hn (hx.trans hid.symm)]; exact m1
          · obtain ⟨e, he, sh⟩ := rr.bwd e' he' hx
            cases hl : e'.mapped.live
            · rfl
            · have := (h.p a).c2 e he (sh.key ▸ hk) (sh.live hl)
              rw [hv, ← sh.id] at this
              simp only [Option.some.injEq] at this
              exact absurd this.symm hx
        · left; exact ⟨by simp [Ledger.abandon, hv], hv⟩
    · intro _
      have := findAny_mem h.wf1 hT
      rw [hid] at this
      rw [this, ← hid]
      exact h.g.wt T hT (by rw [hid]; exact ho)

/-! ### Starting lookups -/

theorem behMapped_val (b : Beh V E) (r : Res V E) (hb : b = .now r) :
    (behMapped b).isPending = false ∧ (behMapped b).val? = value? r ∧ (behMapped b).live = false := by
  subst hb; cases r <;> simp [behMapped, Mapped.isPending, Mapped.val?, value?, Mapped.live]

theorem behMapped_strong (b : Beh V E) : (behMapped b).strong = true := by
  cases b with
  | now r => cases r <;> rfl
  | _ => rfl

theorem behMapped_cbs (b : Beh V E) : (behMapped b).cbs = [] := by
  cases b with
  | now r => cases r <;> rfl
  | _ => rfl

theorem behEntry_pen (cfg : Cfg K) (env : Env V) (s : St K V E) (k : K) (b : Beh V E) (hp : (behMapped b).isPending = true) :
    (behEntry cfg env s k b).expTp = none ∧ (behEntry cfg env s k b).canTp = none ∧ (behEntry cfg env s k b).refTp = none := by
  cases b with
  | now r => cases r <;> cases hp
  | _ => exact ⟨rfl, rfl, rfl⟩

theorem behEntry_ref (cfg : Cfg K) (env : Env V) (s : St K V E) (k : K) (b : Beh V E) {d i : Int} (hr : cfg.refresh = some (d, i)) (hb : b.isOk = true) :
    (behEntry cfg env s k b).refTp = some (env.now + d) := by
  cases b with
  | now r =>
    have : r.isOk = true := hb
    simp [behEntry, this, assignTimes, hr]
  | _ => cases hb

theorem behMapped_isOk {b : Beh V E} (h : (behMapped b).val? ≠ none) : b.isOk = true := by
  cases b with
  | now r => cases r <;> first | rfl | exact absurd rfl h
  | _ => exact absurd rfl h

/-- A lookup of a key of which nothing is stored. -/
theorem resolveAsync_ok (hc : cfg.Ok) {X} (h : Good cfg M X s L)
    (hd : s.destroyed = false) (ha : cfg.resolver = .async) {k : K} (hcl : Clean cfg s k) (b : Beh V E) :
    Good cfg M X (resolveAsync cfg M.env s k b).1 (L.lookup cfg.eqv M.env.now false k s.nextId b) ∧
    (resolveAsync cfg M.env s k b).2 = s.nextId ∧ (resolveAsync cfg M.env s k b).1.destroyed = false ∧
    ∃ n ∈ (resolveAsync cfg M.env s k b).1.ents, n.id = s.nextId ∧ n.mapped = behMapped b := by
  obtain ⟨ht, w, r, hnx, hop, hn, hdq⟩ := resolveAsync_spc (F := ({} : Eff K V)) M.env h.wf1 h.wf2 hd k b
  obtain ⟨hid, hnk, hnm, hnr⟩ := behEntry_facts cfg M.env s k b
  have hxs := next_not_open h.wf1 h.wf2 hd
  have hpn := behEntry_pen cfg M.env s k b
  have hrf := fun d i => behEntry_ref (d := d) (i := i) cfg M.env s k b
  have hlu : ∀ res, b = .now res → behEntry cfg M.env s k b = linkUpd cfg M.env (newEntry s k (syncMapped res)) := by
    intro res hb; subst hb
    cases res <;> rfl
  generalize resolveAsync cfg M.env s k b = g at *
  obtain ⟨s', tok⟩ := g
  generalize behEntry cfg M.env s k b = n at *
  simp only at *
  have huniq : ∀ e' ∈ s'.ents, e'.id = s.nextId → e' = n := fun e' he' hh => eq_of_id w he' hn (hh.trans hid.symm)
  have hcl' := hcl.spc r
  have hkk := hc.refl k
  have hsn : SpcN cfg s s' s.nextId n := by
    refine ⟨hn, hid, by rw [hop]; exact opens_nodup h.wf2.opN hxs b, ?_, ?_, fun hh => absurd ha hh, ?_, ?_, fun e he _ => cb_ne_next h.wf1 h.wf2 he, ?_, ?_, ?_⟩
    · intro ho; rw [hop] at ho
      rcases List.mem_append.1 ho with h1 | h1
      · exact absurd h1 hxs
      · rw [Entry.isPending, hnm]
        cases b <;> simp [Beh.opens, behMapped] at h1 ⊢ <;> rfl
    · intro hp
      rw [Entry.isPending, hnm] at hp
      obtain ⟨q1, q2, q3⟩ := hpn hp
      refine ⟨q1, q2, hnr, ?_, fun hlv => ?_, q3⟩
      · intro hq
        have := hdq.1 hq
        cases b with
        | now res => cases res <;> cases hp
        | _ => simp [Beh.isOk] at this
      · rw [hnm] at hlv
        rw [hop]
        cases b with
        | later => simp [Beh.opens]
        | now r => cases r <;> simp [behMapped, Mapped.live] at hlv
        | drop => simp [behMapped, Mapped.live] at hlv
    · intro old hh; rw [hnm, behMapped_cbs] at hh; cases hh
    · intro a b hh; rw [hnm, behMapped_cbs] at hh; cases hh
    · intro e' he' hx hk _; exact (hcl' e' he' hx (hnk ▸ hk)).2
    · intro e' he' hx hk _; exact (hcl' e' he' hx (hnk ▸ hk)).1
    · intro e' he' hx hk _ hv; exact absurd (hcl' e' he' hx (hnk ▸ hk)).1 hv
  have hdq' : DQ cfg M X s' := by
    refine h.dq.special w r hn hid (next_not_queued h.wf1) (fun _ _ h => h.elim) (fun _ _ _ hx _ _ => hx) ?_ ?_ (fun hv => absurd hv (by rw [hnm, behMapped_void]; simp))
    · intro d i hr hq
      have := hdq.1 hq
      simp only [Bool.and_eq_true] at this
      exact hrf d i hr this.2
    · intro hr hv _
      rw [hnm] at hv
      exact .inl (hdq.2 (by rw [hr, behMapped_isOk hv]; rfl))
  refine ⟨?_, ht, r.des.trans hd, n, hn, hid, hnm⟩
  have hnst : M.ex → (cfg.weaken = false ∨ cfg.ptr = false ∨ cfg.maxSize = none) → n.mapped.strong = true := by
    intro _ _; rw [hnm]; exact behMapped_strong b
  have honly : Only cfg M ({} : Eff K V) s k := ⟨fun _ h => h, fun _ _ h => h.elim, fun _ _ h => h.elim, fun _ _ _ => .inr (fun h => h)⟩
  cases b with
  | later =>
    refine h.begun hc hd rfl w r hsn hdq' (k := k) (by rw [hnk]; exact hkk) (rf := false) honly (fun _ _ h => h) (fun _ h => h.elim)
      (by rw [hop]; simp [Beh.opens]) hnx (by rw [hnm]; rfl) (fun e he hx hk => (hcl' e he hx hk).2) ?_ ?_ (fun e he hk => (hcl e he hk).2)
      (by rw [hnm]; rfl) ?_ hnst (by simp)
    · intro e' he' hk hv
      by_cases hx : e'.id = s.nextId
      · rw [huniq e' he' hx, hnm] at hv; exact absurd rfl hv
      · exact absurd (hcl' e' he' hx hk).1 hv
    · intro old hh; rw [hnm, behMapped_cbs] at hh; cases hh
    · rw [hnm, behMapped_cbs]; simp
  | now res =>
    have hxo : s.nextId ∉ s'.opens := by rw [hop]; simpa [Beh.opens] using hxs
    obtain ⟨f1, f2, f3⟩ := behMapped_val (.now res) res rfl
    have hnv : n.mapped.val? = value? res := by rw [hnm]; exact f2
    refine h.put hc hd w r hsn hdq' (k := k) (by rw [hnk]; exact hkk) honly hxo (by omega) (by omega)
      (fun e he hh => absurd hh (id_ne_next h.wf1 he)) (fun a _ => h.fresh a) (by rw [Entry.isPending, hnm]; exact f1)
      (by rw [hnv]; exact fun _ h => h) (fun _ => hnv) hnst hcl' ?_
    intro hv
    rw [hnv] at hv
    cases res with
    | err e => exact absurd rfl hv
    | ok v => exact ⟨hnr, fun a ha' => by rw [hlu _ rfl]; exact linkUpd_times M.env s k rfl rfl L _ ha'⟩
  | drop =>
    have hxo : s.nextId ∉ s'.opens := by rw [hop]; simpa [Beh.opens] using hxs
    refine h.dead hc hd w r hsn hdq' (h.g.rsp.forget hc k false) rfl (fun _ _ => rfl) (fun a => ⟨rfl, rfl, rfl, rfl, ?_⟩) ?_ (fun _ h => h)
      (fun _ _ h => h.elim) (fun _ _ _ _ h => h) (fun _ _ _ h => h) (fun _ _ _ => .inr (fun h => h)) hxo (by omega) (by omega)
      (fun e he hh => absurd hh (id_ne_next h.wf1 he)) (by rw [hnm]; rfl) (by rw [hnm]; rfl) hnst
      (by intro a _ _ _ _ hh; simp [Ledger.lookup, Ledger.forget] at hh; exact .inl hh)
    · intro hh; simp only [Ledger.lookup, Ledger.forget]; split
      · rfl
      · exact hh
    · intro a
      by_cases hak : cfg.eqv a k = true
      · right
        refine ⟨by simp [Ledger.lookup, Ledger.forget, hak], ?_⟩
        intro e' he' hea
        by_cases hx : e'.id = s.nextId
        · rw [huniq e' he' hx, hnm]; rfl
        · exact (hcl' e' he' hx (hc.trans _ _ _ hea hak)).2
      · left; exact ⟨by simp [Ledger.lookup, Ledger.forget, hak], h.fresh a⟩

theorem asyncGet_eq (hc : cfg.Ok) (hp : Placed cfg s.tbl) (env : Env V) (k : K) (w : Nat) (b : Beh V E) :
    asyncGet cfg env s k w b =
      match s.ents.find? (isHit cfg env k true) with
      | some e => answer (get_ cfg env s k true).1 e.id w (e.mapped.get env true)
      | none =>
        let g := resolveAsync cfg env (get_ cfg env s k true).1 k b
        let l := match g.1.find g.2 with
          | some e => e.mapped.get env true
          | none => .none
        let a := answer g.1 g.2 w l
        (a.1, { a.2 with calls := [(k, g.2)] }) := by
  have h1 : (getWalk cfg env k true (s.bucket (s.bucketFor (cfg.hash k)))).hit =
      (s.ents.find? (isHit cfg env k true)).map (fun e => (e.id, e.mapped.get env true)) := by
    rw [getWalk_hit hc, find_ents_bucket hc hp]
  unfold asyncGet
  simp only
  rw [h1]
  cases s.ents.find? (isHit cfg env k true) <;> rfl

/-- What the visible outcome of an asynchronous get is, according to the ledger. -/
def AsyncOut (cfg : Cfg K) (M : Md V) (L : Ledger K V) (n : Nat) (k : K) (w : Nat) (b : Beh V E) (o : Out K V E) : Prop :=
  o.ret = .unit ∧ o.broken = [] ∧
  ((∃ u, o.fired = [(w, .ok u)] ∧ o.calls = [] ∧ Valid cfg M L k u) ∨
   ((o.fired = [] ∧ o.calls = [] ∧ ∃ t, L.valid k = some t) ∧ (M.ex → ∀ u, L.cur k = some u → DeadL cfg M.env L k u)) ∨
   (o.calls = [(k, n)] ∧ (∀ t, L.valid k = some t → ¬ M.ex) ∧ (M.ex → ∀ u, L.cur k = some u → DeadL cfg M.env L k u) ∧
      o.fired = match b with | .now r => [(w, r)] | _ => []))

theorem asyncGet_ok (hc : cfg.Ok) {X} (h : Good cfg M X s L)
    (hd : s.destroyed = false) (ha : cfg.resolver = .async) (k : K) (w : Nat) (b : Beh V E) :
    let g := asyncGet cfg M.env s k w b
    Good cfg M X g.1 (L.after cfg.eqv cfg.resolver M.env.now (.asyncGet k w b) g.2) ∧ AsyncOut cfg M L s.nextId k w b g.2 := by
  obtain ⟨d1, n1, hg⟩ := get__ok hc h k true (.inl rfl)
  have hd1 := d1.trans hd
  have hge := get__eq hc h.wf1.placed M.env k true
  simp only
  rw [asyncGet_eq hc h.wf1.placed]
  cases hf : s.ents.find? (isHit cfg M.env k true) with
  | some e =>
    rw [hf] at hge
    obtain ⟨he, hk, hx, h1 | h1⟩ := hit_facts hf
    · obtain ⟨u, h2, h3⟩ := h1
      rcases hg with ⟨v, g1, g2, g3, g4, g5⟩ | ⟨g1, _⟩ | ⟨g1, _⟩
      · rw [hge] at g1
        simp only [h3] at g1
        cases g1
        simp only [h3, answer]
        exact ⟨g5, rfl, rfl, .inl ⟨_, rfl, rfl, g2, g3, g4⟩⟩
      · rw [hge] at g1; simp only [h3] at g1; cases g1
      · rw [hge] at g1; simp only [h3] at g1; cases g1
    · rcases hg with ⟨v, g1, _⟩ | ⟨_, _, g1, g2, g3⟩ | ⟨g1, _⟩
      · rw [hge] at g1; simp only [h1.2.2] at g1; cases g1
      · simp only [h1.2.2, answer]
        have hm0 := hit_mem_walked (cfg := cfg) hf
        have hp := Mapped.live_pending h1.2.1
        have hs1 : (get_ cfg M.env s k true).1 = onHit cfg M.env (walked cfg M.env s k true) e.id := by rw [hge]
        have r : Shr cfg M.env ({} : Eff K V) s (get_ cfg M.env s k true).1 := by
          rw [hs1]
          exact (walked_shr h.wf1 k true).trans (onHit_shr hc (walked_wf1 h.wf1 M.env k true) hm0 hx (.inr hp))
        obtain ⟨e', he', sh⟩ := r.keepP e he hp
        have a2 := addUser_ok hc g2 hd1 he' (sh.pend.trans hp) w
        rw [sh.id] at a2
        have hval : L.valid k = some e.id := (h.p k).c2 e he hk h1.2.1
        simp only [Ledger.after, hval]
        exact ⟨a2, rfl, rfl, .inr (.inl ⟨⟨rfl, rfl, g1⟩, g3⟩)⟩
      · rw [hge] at g1; simp only [h1.2.2] at g1; cases g1
  | none =>
    rw [hf] at hge
    rcases hg with ⟨v, g1, _⟩ | ⟨g1, _⟩ | ⟨g0, g1, c1, hdd⟩
    · rw [hge] at g1; cases g1
    · rw [hge] at g1; cases g1
    · generalize get_ cfg M.env s k true = gg at *
      obtain ⟨s1, l0⟩ := gg
      simp only at *
      have hnov : ∀ t, L.valid k = some t → ¬ M.ex := by
        intro t ht hex
        obtain ⟨_, T, hT, _, _, hk, hl, _⟩ := (g1.p k).c3 hd1 t ht
        rw [(c1 T hT hk).2] at hl
        exact absurd (hl hex) (by simp)
      obtain ⟨g2, ht, d2, n, hn, hid, hm⟩ := resolveAsync_ok hc g1 hd1 ha c1 b
      generalize resolveAsync cfg M.env s1 k b = g3 at *
      obtain ⟨s2, tok⟩ := g3
      simp only at *
      subst ht
      have hfind : s2.find s1.nextId = some n := by rw [← hid]; exact find_mem g2.wf1 hn
      simp only [hfind, hm]
      rw [← n1]
      cases b with
      | later =>
        have hp : n.isPending = true := by rw [Entry.isPending, hm]; rfl
        have a1 := addUser_ok hc g2 d2 hn hp w
        rw [hid] at a1
        exact ⟨a1, rfl, rfl, .inr (.inr ⟨rfl, hnov, hdd, rfl⟩)⟩
      | drop =>
        have hp : n.isPending = true := by rw [Entry.isPending, hm]; rfl
        have a1 := addUser_ok hc g2 d2 hn hp w
        rw [hid] at a1
        exact ⟨a1, rfl, rfl, .inr (.inr ⟨rfl, hnov, hdd, rfl⟩)⟩
      | now r =>
        cases r with
        | ok v => exact ⟨g2, rfl, rfl, .inr (.inr ⟨rfl, hnov, hdd, rfl⟩)⟩
        | err e => exact ⟨g2, rfl, rfl, .inr (.inr ⟨rfl, hnov, hdd, rfl⟩)⟩

end Hoard
