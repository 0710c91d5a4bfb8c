import Verif.AnswerLemmas
import Verif.Tokens
import Verif.Spec.Throw
/-! Histories with failing calls keep the invariants and the ledger. -/
namespace Hoard.Throw
open Hoard Spec
variable {K V E : Type} {cfg : Cfg K} {M : Md V} {L L' : Ledger K V} {s s' : St K V E}

/-- An open lookup ends without result: its entry becomes something that is neither a lookup that can be found
nor a value. -/
theorem kill_ok (hc : cfg.Ok) {X} (h : Good cfg M X s L) (hd : s.destroyed = false) {x : Nat} (ho : x ∈ s.opens) (f : Mapped V E → Mapped V E)
    (hf : ∀ m, m.isPending = true → (f m).live = false ∧ (f m).val? = none ∧ (f m).cbs = [] ∧ (m.strong = true → (f m).strong = true) ∧
      ((f m).isVoid = true → ¬ M.tm))
    (hl : ∀ m, m.cbs = [] → (f m).cbs = []) :
    Good cfg M X (({ s with opens := s.opens.erase x } : St K V E).modify x (·.upd f)) (L.abandon x) ∧
    users (((s.findAny x).map (·.mapped.cbs)).getD []) = L.wait x := by
  obtain ⟨T, hT, hid, hp⟩ := h.wf2.opE hd x ho
  obtain ⟨p1, p2, p3, p4, p5, p6⟩ := h.wf2.pen T hT hp
  let s0 : St K V E := { s with opens := s.opens.erase x }
  have w0 : WF1 cfg s0 := ⟨h.wf1.ids, h.wf1.lt, h.wf1.placed, h.wf1.sorted, h.wf1.bq, h.wf1.dqN, h.wf1.dqM⟩
  have w1 : WF1 cfg (s0.modify x (·.upd f)) := w0.modify _ (IdKey.upd _)
  have r0 : Spc cfg M.env ({} : Eff K V) x s s0 := Spc.opens s _ (fun t ht => List.mem_erase_of_ne ht)
  have rr : Spc cfg M.env ({} : Eff K V) x s (s0.modify x (·.upd f)) := r0.trans
    (Spc.modify s0 (IdKey.upd _) (fun e _ => .inr (fun hh => hl _ hh)))
  have hn : T.upd f ∈ (s0.modify x (·.upd f)).ents := by
    rw [ents_modify]; exact List.mem_map.2 ⟨T, hT, by simp [atId, hid]⟩
  have hxo : x ∉ (s0.modify x (·.upd f)).opens := by
    intro hm; exact (List.Nodup.mem_erase_iff h.wf2.opN).1 hm |>.1 rfl
  obtain ⟨m1, m2, m3, m5, m6⟩ := hf T.mapped hp
  have hTx : ∀ e ∈ s.ents, e.id = x → e = T := fun e he hh => eq_of_id h.wf1 he hT (hh.trans hid.symm)
  have hsn : SpcN cfg s (s0.modify x (·.upd f)) x (T.upd f) := by
    refine ⟨hn, hid, h.wf2.opN.erase x, fun hh => absurd hh hxo, ?_, ?_, ?_, ?_, ?_, ?_, ?_, ?_⟩
    · intro _; exact ⟨p1, p2, p3, by rw [← hid]; exact p4, (fun hh => by have := m1.symm.trans hh; cases this), p6⟩
    · intro ha; rw [(h.wf2.noA ha).1] at ho; cases ho
    · intro old hh; have hh : Cb.refresh old ∈ (f T.mapped).cbs := hh; rw [m3] at hh; cases hh
    · intro a b hh; have hh : Cb.refresh a ∈ (f T.mapped).cbs := hh; rw [m3] at hh; cases hh
    · intro e he hx hcb
      have := ((h.wf2.cb e he x hcb).2 T hT hid).1
      rw [hp] at this; cases this
    · intro e' he' hx hk hor
      rcases hor with hh | hh
      · have := m1.symm.trans hh; cases this
      · exact absurd m2 hh
    · intro e' he' hx hk hh; exact absurd m2 hh
    · intro e' he' hx hk hh; have := m1.symm.trans hh; cases this
  refine ⟨?_, ?_⟩
  · refine h.dead hc hd w1 rr hsn ?_ (h.g.rsp.abandon x) rfl (fun _ _ => rfl) (fun a => ⟨rfl, rfl, rfl, rfl, fun h => h⟩) ?_ (fun _ h => h)
      (fun _ _ h => h.elim) (fun _ _ _ _ h => h) (fun _ _ _ h => h) (fun _ _ _ => .inr (fun h => h)) hxo (Nat.le_refl _)
      (by rw [← hid]; exact h.wf1.lt T (List.mem_append_left _ hT)) (fun e he hh => by rw [hTx e he hh]; exact Mapped.pending_val hp) m2 m1
      (fun hex hcnd => m5 (h.g.st hex hcnd T hT))
    · refine h.dq.special w1 rr hn hid (by rw [← hid]; exact p4) (fun _ _ h => h.elim) (fun _ _ _ hx _ _ => hx) ?_ ?_ (fun hv => ⟨m6 hv, by rw [← hid]; exact p4⟩)
      · intro d i _ hq; exact absurd (hid ▸ hq) p4
      · intro _ hv; exact absurd m2 hv
    · intro a
      by_cases hv : L.valid a = some x
      · right
        refine ⟨by simp [Ledger.abandon, hv], ?_⟩
        intro e' he' hk
        by_cases hx : e'.id = x
        · rw [eq_of_id w1 he' hn (hx.trans hid.symm)]; exact m1
        · obtain ⟨e, he, sh⟩ := rr.bwd e' he' hx
          cases hl : e'.mapped.live
          · rfl
          · have := (h.p a).c2 e he (sh.key ▸ hk) (sh.live hl)
            rw [hv, ← sh.id] at this
            simp only [Option.some.injEq] at this
            exact absurd this.symm hx
      · left; exact ⟨by simp [Ledger.abandon, hv], hv⟩
  · have := findAny_mem h.wf1 hT
    rw [hid] at this
    rw [this, ← hid]
    exact h.g.wt T hT (by rw [hid]; exact ho)

/-- The callbacks of an open lookup that is not a refresh are lost. -/
theorem mute_ok (hc : cfg.Ok) {X} (h : Good cfg M X s L) (hd : s.destroyed = false)
    {T : Entry K V E} (hT : T ∈ s.ents) (hp : T.isPending = true) (hop : T.id ∈ s.opens) (hrf : L.refr T.id = false) (ptr : Bool) :
    Good cfg M X (s.modify T.id (·.upd (failed ptr true))) (unheard L T.id) := by
  have w1 : WF1 cfg (s.modify T.id (·.upd (failed ptr true))) := h.wf1.modify _ (IdKey.upd _)
  have hent := ents_modify s T.id (·.upd (failed ptr true))
  have hlimx : ∀ e ∈ s.limbo, e.id ≠ T.id := fun e he => Ne.symm (not_limbo_of_ents h.wf1 hT he)
  have r : Spc cfg M.env ({} : Eff K V) T.id s (s.modify T.id (·.upd (failed ptr true))) :=
    Spc.modify s (IdKey.upd _) (fun e he => .inl (hlimx e he))
  obtain ⟨p, hpm⟩ : ∃ p, T.mapped = .pending p := by
    cases hm : T.mapped <;> simp_all [Entry.isPending, Mapped.isPending]
  have hn : T.upd (failed ptr true) ∈ (s.modify T.id (·.upd (failed ptr true))).ents := by
    rw [hent]; exact List.mem_map.2 ⟨T, hT, by simp [atId]⟩
  have hnm : (T.upd (failed ptr true)).mapped = .pending { p with cbs := [] } := by
    simp [Entry.upd, hpm, failed]
  have hlive : (T.upd (failed ptr true)).mapped.live = T.mapped.live := by rw [hnm, hpm]; rfl
  have hstr : (T.upd (failed ptr true)).mapped.strong = T.mapped.strong := by rw [hnm, hpm]; rfl
  have hval : (T.upd (failed ptr true)).mapped.val? = none := by rw [hnm]; rfl
  have hval0 : T.mapped.val? = none := by rw [hpm]; rfl
  have hcbs : (T.upd (failed ptr true)).mapped.cbs = [] := by rw [hnm]; rfl
  have hno : ∀ old, Cb.refresh old ∉ T.mapped.cbs := fun old ho => by
    have := (h.g.rfw T hT hop).2 ⟨old, ho⟩; rw [hrf] at this; cases this
  have hpen := h.wf2.pen T hT hp
  have hcbm : ∀ old, Cb.refresh old ∈ ([] : List Cb) → Cb.refresh old ∈ T.mapped.cbs := by
    intro old ho; cases ho
  have hbwd : ∀ e' ∈ (s.modify T.id (·.upd (failed ptr true))).ents, e'.id ≠ T.id → e' ∈ s.ents := by
    intro e' he' hx
    rw [hent] at he'
    obtain ⟨e, he, rfl⟩ := List.mem_map.1 he'
    by_cases hh : e.id = T.id
    · exfalso; apply hx
      exact ((IdKey.upd _).atId _ e).1.trans hh
    · simpa [atId, hh] using he
  have hfwd : ∀ e ∈ s.ents, e.id ≠ T.id → e ∈ (s.modify T.id (·.upd (failed ptr true))).ents := by
    intro e he hx
    rw [hent]; exact List.mem_map.2 ⟨e, he, by simp [atId, hx]⟩
  have huniq : ∀ e' ∈ (s.modify T.id (·.upd (failed ptr true))).ents, e'.id = T.id → e' = T.upd (failed ptr true) :=
    fun e' he' hh => eq_of_id w1 he' hn hh
  have hspc : SpcN cfg s (s.modify T.id (·.upd (failed ptr true))) T.id (T.upd (failed ptr true)) := by
    refine ⟨hn, rfl, h.wf2.opN, fun _ => by rw [Entry.isPending, hnm]; rfl, ?_, ?_, ?_, ?_, ?_, ?_, ?_, ?_⟩
    · intro _
      refine ⟨hpen.1, hpen.2.1, hpen.2.2.1, hpen.2.2.2.1, ?_, hpen.2.2.2.2.2⟩
      rw [hlive]; exact hpen.2.2.2.2.1
    · intro ha; have := (h.wf2.noA ha).2 T hT; rw [hp] at this; cases this
    · intro old ho; rw [hcbs] at ho
      obtain ⟨g1, g2⟩ := h.wf2.cb T hT old (hcbm old ho)
      refine ⟨g1, fun a ha hi => ?_⟩
      exact g2 a (hbwd a ha (by omega)) hi
    · intro a b ha hb; rw [hcbs] at ha hb; exact h.wf2.one T hT a b (hcbm a ha) (hcbm b hb)
    · intro e he _ hcb
      have := ((h.wf2.cb e he T.id hcb).2 T hT rfl).1
      rw [hp] at this; cases this
    · intro e' he' hx hk hor
      have hlv : T.mapped.live = true := by
        rcases hor with h | h
        · rw [hlive] at h; exact h
        · exact absurd hval h
      cases he : e'.mapped.live
      · rfl
      · exact absurd (h.wf2.vb e' (hbwd e' he' hx) T hT he hlv hk) hx
    · intro e' he' hx hk hv; exact absurd hval hv
    · intro e' he' hx hk hlv hv
      rw [hlive] at hlv
      obtain ⟨v, hv⟩ := Option.ne_none_iff_exists'.1 hv
      rw [hcbs]
      obtain ⟨g1, g2⟩ := h.wf2.vc e' (hbwd e' he' hx) T hT v hv hlv hk
      exact absurd g1 (hno _)
  have hw2 := h.wf2.special hc w1 r hd hspc
  refine ⟨w1, hw2, ?_, ?_, ?_, ?_⟩
  · refine h.dq.special w1 r hn rfl hpen.2.2.2.1 (fun _ _ h => h.elim) (fun _ _ _ hx _ _ => hx) ?_ ?_ (fun hv => absurd hv (by rw [hnm]; simp [Mapped.isVoid]))
    · intro d i _ hq; exact absurd hq hpen.2.2.2.1
    · intro _ hv; exact absurd hval hv
  · refine h.g.spc r h.g.rsp (fun t ht => by simp [unheard, ht]) (fun _ _ => rfl) (Nat.le_refl _) ?_ ?_ (fun _ _ _ => .inr (fun h => h))
    · intro hh
      have : s.nextId ≤ T.id := hh
      have := h.wf1.lt T (List.mem_append_left _ hT); omega
    · intro n hn' hid
      rw [huniq n hn' hid]
      refine ⟨fun ho => ⟨?_, ?_⟩, fun hex hcnd => by rw [hstr]; exact h.g.st hex hcnd T hT⟩
      · rw [hcbs]; simp [unheard, users]
      · rw [hcbs]
        show L.refr T.id = true ↔ _
        rw [h.g.rfw T hT ho]
        exact ⟨fun ⟨old, ho⟩ => absurd ho (hno _), fun ⟨old, ho⟩ => ⟨old, hcbm old ho⟩⟩
  · intro k
    exact (h.v k).frame h.g.st r ⟨rfl, rfl, rfl, rfl, fun h => h⟩ (fun e he hid _ => by rw [eq_of_id h.wf1 he hT hid]; exact hval0)
      (fun e he hid _ => by rw [huniq e he hid]; exact hval) (fun _ _ _ _ h => h) (fun _ _ _ _ h => h.elim) (fun _ _ _ _ _ _ _ h => h.elim)
  · intro k
    constructor
    case c2 =>
      intro e' he' hk hlv
      by_cases hx : e'.id = T.id
      · rw [huniq e' he' hx] at hlv hk ⊢
        exact (h.p k).c2 T hT hk (hlive ▸ hlv)
      · exact (h.p k).c2 e' (hbwd e' he' hx) hk hlv
    case c3 =>
      intro _ t hv
      obtain ⟨ho, T0, hT0, h1, h2, h3, h4, h5⟩ := (h.p k).c3 hd t hv
      refine ⟨ho, ?_⟩
      have hnb : ∀ {a : Entry K V E}, a ∈ (s.modify T.id (·.upd (failed ptr true))).ents → a.mapped.val? ≠ none → a ∈ s.ents := by
        intro a ha hav
        exact hbwd a ha (fun hh => hav (by rw [huniq a ha hh]; exact hval))
      by_cases hx : T0.id = T.id
      · have : T0 = T := eq_of_id h.wf1 hT0 hT hx
        subst this
        exact ⟨_, hn, h1, by rw [Entry.isPending, hnm]; rfl, h3, fun hex => by rw [hlive]; exact h4 hex,
          fun a ha hav hak => absurd (h5 a (hnb ha hav) hav hak) (hno _)⟩
      · exact ⟨T0, hfwd T0 hT0 hx, h1, h2, h3, h4, fun a ha hav hak => h5 a (hnb ha hav) hav hak⟩
    case t4 =>
      have key : ∀ T0 ∈ s.ents, cfg.eqv T0.key k = true → T0.mapped.live = true → ∀ old, Cb.refresh old ∈ T0.mapped.cbs →
          ∃ o ∈ (s.modify T.id (·.upd (failed ptr true))).ents ++ (s.modify T.id (·.upd (failed ptr true))).limbo,
            o.id = old ∧ cfg.eqv o.key k = true ∧ o.canTp = L.idleLimit cfg.refresh k := by
        intro T0 hT0 hk hlv old ho
        obtain ⟨o, hom, hoi, hok, hoc⟩ := (h.p k).t4 T0 hT0 hk hlv old ho
        have hox : o.id ≠ T.id := by
          intro hh
          have := ((h.wf2.cb T0 hT0 old ho).2 T hT (by rw [← hh]; exact hoi)).1
          rw [hp] at this; cases this
        obtain ⟨o', ho', le⟩ := r.any o hom hox
        exact ⟨o', ho', le.id.trans hoi, by rw [le.key]; exact hok, (le.can (fun h => h)).trans hoc⟩
      intro T' hT' hk hlv old ho
      by_cases hx : T'.id = T.id
      · rw [huniq T' hT' hx] at hlv hk ho
        exact key T hT hk (hlive ▸ hlv) old (hcbm old (hcbs ▸ ho))
      · exact key T' (hbwd T' hT' hx) hk hlv old ho
    case x3 =>
      intro hex e' he' hk hv T' hT' hcb hop
      have hex' : e' ∈ s.ents := hbwd e' he' (fun hh => hv (by rw [huniq e' he' hh]; exact hval))
      by_cases hx : T'.id = T.id
      · rw [huniq T' hT' hx] at hcb hop ⊢
        rw [hlive]
        exact (h.p k).x3 hex e' hex' hk hv T hT (hcbm _ (hcbs ▸ hcb)) hop
      · exact (h.p k).x3 hex e' hex' hk hv T' (hbwd T' hT' hx) hcb hop
    case fr => exact (h.p k).fr


theorem abandon_closed {X} (h : Good cfg M X s L) {x : Nat} (ho : x ∉ s.opens) : Good cfg M X s (L.abandon x) := by
  rcases Bool.eq_false_or_eq_true s.destroyed with hd | hd
  · have hne := h.wf2.opD hd
    refine ⟨h.wf1, h.wf2, h.dq, ⟨h.g.rsp.abandon x, h.g.wt, h.g.wf, h.g.rfw, h.g.st⟩, fun k => ⟨(h.v k).c1, (h.v k).g1, (h.v k).x1⟩, fun k => ?_⟩
    refine ⟨by rw [hne]; simp, by rw [hd]; simp, by rw [hne]; simp, by rw [hne]; simp, ?_⟩
    intro t ht
    apply (h.p k).fr t
    simp only [Ledger.abandon] at ht
    split at ht
    · cases ht
    · exact ht
  · have : L.abandon x = L := by
      have hv : ∀ a, L.valid a ≠ some x := fun a ha => ho ((h.p a).c3 hd x ha).1
      simp [Ledger.abandon, hv]
    rw [this]; exact h

theorem unheard_closed {X} (h : Good cfg M X s L) {x : Nat} (ho : x ∉ s.opens) : Good cfg M X s (unheard L x) := by
  refine ⟨h.wf1, h.wf2, h.dq, ⟨h.g.rsp, ?_, ?_, h.g.rfw, h.g.st⟩, fun k => ⟨(h.v k).c1, (h.v k).g1, (h.v k).x1⟩,
    fun k => ⟨(h.p k).c2, (h.p k).c3, (h.p k).t4, (h.p k).x3, (h.p k).fr⟩⟩
  · intro T hT hop
    rw [h.g.wt T hT hop]
    simp only [unheard]
    rw [if_neg (fun hh : T.id = x => ho (hh ▸ hop))]
  · intro t ht
    simp only [unheard]
    split
    · rfl
    · exact h.g.wf t ht

theorem failed_facts (ptr : Bool) (tm : Prop) (htm : tm → ptr = true) (m : Mapped V E) (hp : m.isPending = true) :
    (failed ptr false m).live = false ∧ (failed ptr false m).val? = none ∧ (failed ptr false m).cbs = [] ∧
      (m.strong = true → (failed ptr false m).strong = true) ∧ ((failed ptr false m).isVoid = true → ¬ tm) := by
  cases m <;> simp [Mapped.isPending] at hp
  cases ptr
  · have : ¬ tm := fun h => by cases htm h
    simp [failed, Mapped.live, Mapped.val?, Mapped.cbs, Mapped.strong, Mapped.isVoid, this]
  · simp [failed, Mapped.live, Mapped.val?, Mapped.cbs, Mapped.strong, Mapped.isVoid]

theorem failed_cbs (ptr : Bool) (m : Mapped V E) (h : m.cbs = []) : (failed ptr false m).cbs = [] := by
  cases m <;> cases ptr <;> simp_all [failed, Mapped.cbs]

/-- A failing asynchronous get. -/
theorem asyncFail_ok (hc : cfg.Ok) {X} (h : Good cfg M X s L) (hd : s.destroyed = false) (ha : cfg.resolver = .async) (k : K) (w : Nat) (b : Beh V E) (f : AsyncFail) :
    Good cfg M X (asyncFail cfg M.env s k w b f).1 (xafter cfg.eqv cfg.resolver M.env.now L (.asyncFail k w b f) (asyncFail cfg M.env s k w b f).2) := by
  have hA := (asyncGet_ok hc h hd ha k w b).1
  have hAr := (asyncGet_ok hc h hd ha k w b).2.1
  have hget : Good cfg M X (asyncGet cfg M.env s k w b).1
      (xafter cfg.eqv cfg.resolver M.env.now L (.asyncFail k w b f) (asyncGet cfg M.env s k w b).2) := by
    simp only [xafter, hAr]; exact hA
  obtain ⟨d1, n1, hg⟩ := get__ok hc h k true (.inl rfl)
  have hd1 := d1.trans hd
  have hge := get__eq hc h.wf1.placed M.env k true
  have h1 : (getWalk cfg M.env k true (s.bucket (s.bucketFor (cfg.hash k)))).hit =
      (s.ents.find? (isHit cfg M.env k true)).map (fun e => (e.id, e.mapped.get M.env true)) := by
    rw [getWalk_hit hc, find_ents_bucket hc h.wf1.placed]
  have hAe := asyncGet_eq hc h.wf1.placed M.env k w b
  unfold asyncFail
  simp only
  rw [h1]
  cases hf : s.ents.find? (isHit cfg M.env k true) with
  | some e =>
    rw [hf] at hAe
    simp only at hAe
    simp only [Option.map_some]
    cases f with
    | register =>
      cases hl : e.mapped.get M.env true with
      | pend =>
        simp only [xafter]
        rw [hf] at hge
        rcases hg with ⟨v, g1, _⟩ | ⟨_, _, _, g2, _⟩ | ⟨g1, _⟩
        · rw [hge] at g1; simp only [hl] at g1; cases g1
        · exact g2
        · rw [hge] at g1; simp only [hl] at g1; cases g1
      | _ => rw [hl] at hAe; simp only; rw [← hAe]; exact hget
    | _ => simp only; rw [← hAe]; exact hget
  | none =>
    rw [hf] at hge
    simp only [Option.map_none]
    rcases hg with ⟨v, g1, _⟩ | ⟨g1, _⟩ | ⟨g0, g1, c1, hdd⟩
    · rw [hge] at g1; cases g1
    · rw [hge] at g1; cases g1
    · have hr := resolveAsync_ok hc g1 hd1 ha c1 b
      cases f with
      | alloc => simp only [xafter]; exact g1
      | grow =>
        simp only
        split
        · simp only [xafter]; exact beforeLink_ok hc g1
        · exact hget
      | functor => simp only [xafter]; exact hr.1
      | register =>
        cases b with
        | now r => exact hget
        | later => simp only [xafter]; exact hr.1
        | drop => simp only [xafter]; exact hr.1

/-- The invariant of the extended state. -/
structure XGood (cfg : Cfg K) (M : Md V) (x : XSt K V E) (L : Ledger K V) : Prop where
  good : Good cfg M (fun _ => False) x.s L
  dl : ∀ t ∈ x.dead, t < x.s.nextId
  dop : ∀ t ∈ x.dead, t ∉ x.s.opens

variable {nx : Bool} {x : XSt K V E}

/-- Steps that do not touch the dead handles. -/
theorem XGood.next (h : XGood cfg M x L) {s' : St K V E} {L' : Ledger K V} {b : Bool} (g : Good cfg M (fun _ => False) s' L')
    (ho : ∀ t ∈ s'.opens, t ∈ x.s.opens ∨ x.s.nextId ≤ t) (hn : x.s.nextId ≤ s'.nextId) :
    XGood cfg M { x with s := s', ended := b } L' :=
  ⟨g, fun t ht => Nat.lt_of_lt_of_le (h.dl t ht) hn, fun t ht hh => by
    rcases ho t hh with h1 | h1
    · exact h.dop t ht h1
    · have := h.dl t ht; omega⟩

/-- A handle dies or is forgotten. -/
theorem XGood.forget (h : XGood cfg M x L) {L' : Ledger K V} (t : Nat) (g : Good cfg M (fun _ => False) x.s L') :
    XGood cfg M { x with dead := x.dead.filter (· ≠ t) } L' :=
  ⟨g, fun u hu => h.dl u (List.mem_filter.1 hu).1, fun u hu => h.dop u (List.mem_filter.1 hu).1⟩

theorem asyncFail_tokens (env : Env V) (k : K) (w : Nat) (b : Beh V E) (f : AsyncFail) :
    s.nextId ≤ (asyncFail cfg env s k w b f).1.nextId ∧
    (∀ t ∈ (asyncFail cfg env s k w b f).1.opens, t ∈ s.opens ∨ (t = s.nextId ∧ s.nextId < (asyncFail cfg env s k w b f).1.nextId)) ∧
    (∀ p ∈ (asyncFail cfg env s k w b f).2.calls, p.2 = s.nextId ∧ s.nextId < (asyncFail cfg env s k w b f).1.nextId) := by
  have hA := step_tokens cfg env s (.asyncGet k w b)
  simp only [step] at hA
  have hr := resolveAsync_opens cfg env (get_ cfg env s k true).1 k b
  simp only [get__opens, get__nextId] at hr
  unfold asyncFail
  simp only
  split
  · rename_i l _
    split
    · simp
    · cases l <;> simp [answer]
  · split
    · simp
    · split
      · simp
      · exact hA
    · refine ⟨by simp, fun t ht => ?_, by simp⟩
      rcases hr t ht with h | h
      · exact .inl h
      · exact .inr ⟨h, by simp⟩
    · split
      · exact hA
      · refine ⟨by simp, fun t ht => ?_, by simp⟩
        rcases hr t ht with h | h
        · exact .inl h
        · exact .inr ⟨h, by simp⟩

theorem XGood.step (hc : cfg.Ok) (h : XGood cfg M x L) (o : XOp K V E) (ho : o.ok cfg x)
    (htm : M.tm → cfg.ptr = true ∨ ∀ tok v, o ≠ .assignFail tok false v) (hk : ∀ tok v, o = .assignFail tok true v → L.refr tok = false)
    (hn : M.ex → NoEvict cfg (xstep cfg nx M.env x o).1.s) :
    XGood cfg M (xstep cfg nx M.env x o).1 (xafter cfg.eqv cfg.resolver M.env.now L o (xstep cfg nx M.env x o).2) := by
  have plainStep : ∀ o : Op K V E, o.ok cfg x.s → (M.ex → NoEvict cfg (Hoard.step cfg M.env x.s o).1) →
      XGood cfg M { x with s := (Hoard.step cfg M.env x.s o).1 } (L.after cfg.eqv cfg.resolver M.env.now o (Hoard.step cfg M.env x.s o).2) := by
    intro o ho hn
    obtain ⟨t1, t2, _⟩ := step_tokens cfg M.env x.s o
    exact h.next (b := x.ended) (step_ok hc h.good o ho hn) (fun t ht => (t2 t ht).imp_right (fun h => Nat.le_of_eq h.1.symm)) t1
  cases o with
  | plain o =>
    by_cases hcm : (∃ tok r, o = .complete tok r ∧ tok ∈ x.dead) ∨ (∃ tok, o = .drop tok ∧ tok ∈ x.dead)
    · rcases hcm with ⟨tok, r, rfl, hm⟩ | ⟨tok, rfl, hm⟩
      · simp only [xstep, if_pos hm, completeDead, xafter]
        split
        · exact h.forget tok h.good
        · cases r with
          | ok v => exact h
          | err e => exact ⟨h.good, h.dl, h.dop⟩
      · simp only [xstep, if_pos hm, dropDead, xafter, Ledger.after]
        exact h.forget tok (abandon_closed h.good (h.dop tok hm))
    · have hst : xstep cfg nx M.env x (.plain o) = ({ x with s := (Hoard.step cfg M.env x.s o).1 }, (Hoard.step cfg M.env x.s o).2) := by
        cases o with
        | complete tok r =>
          have : tok ∉ x.dead := fun hm => hcm (.inl ⟨tok, r, rfl, hm⟩)
          simp only [xstep, if_neg this, Hoard.step]
        | drop tok =>
          have : tok ∉ x.dead := fun hm => hcm (.inr ⟨tok, rfl, hm⟩)
          simp only [xstep, if_neg this, Hoard.step]
        | _ => rfl
      rw [hst] at hn ⊢
      exact plainStep o ho.2 hn
  | getFail k r f =>
    have hr : cfg.resolver ≠ .async := by rw [ho.2.1]; simp
    obtain ⟨d1, n1, hg⟩ := get__ok hc h.good k false (.inr hr)
    have hget := plainStep (.get k r) ⟨hr, ho.2.2⟩
    have hgr := (get_ok hc h.good ho.2.2 hr k r).2
    have o1 : (get_ cfg M.env x.s k false).1.opens = x.s.opens := get__opens ..
    simp only [xstep, getFail] at hn ⊢
    simp only [Hoard.step, Hoard.get] at hget hgr hn ⊢
    generalize get_ cfg M.env x.s k false = g at *
    obtain ⟨s1, l⟩ := g
    simp only at *
    have hnext : ∀ (s2 : St K V E) (L2 : Ledger K V) (b : Bool), Good cfg M (fun _ => False) s2 L2 → s2.opens = s1.opens → s2.nextId = s1.nextId →
        XGood cfg M { x with s := s2, ended := b } L2 := by
      intro s2 L2 b g e1 e2
      exact h.next g (fun t ht => .inl (by rw [e1, o1] at ht; exact ht)) (by rw [e2, n1]; exact Nat.le_refl _)
    rcases hg with ⟨u, rfl, hu, hna, hgo, g1⟩ | ⟨rfl, hf, _⟩ | ⟨rfl, g1, c1, hdd⟩
    · simp only [syncRet, xafter, Ledger.after, Ledger.read]
      exact hnext s1 _ x.ended g1 rfl rfl
    · cases hf
    · have hs : cfg.resolver = .sync := ho.2.1
      cases f with
      | alloc => exact hnext s1 L nx g1 rfl rfl
      | build => exact hnext s1 L nx g1 rfl rfl
      | assign => exact hnext s1 L true g1 rfl rfl
      | grow =>
        simp only at hn ⊢
        split
        · exact hnext _ L nx (beforeLink_ok hc g1) (by simp) (by simp)
        · rename_i hng
          rw [if_neg hng] at hn
          simp only [hs] at hget hn hgr ⊢
          have h1 := hget hn
          rcases hgr with ⟨_, _, _, q⟩ | ⟨⟨_, _, q⟩ | ⟨q, _⟩, _⟩
          · simp [resolveSync] at q
          · cases q
          · simp only [resolveSync, xafter, q, Ledger.after] at h1 ⊢
            cases r <;> simp only [resRet] at h1 ⊢ <;> simpa [hs] using h1
  | asyncFail k w b f =>
    obtain ⟨t1, t2, _⟩ := asyncFail_tokens (cfg := cfg) (s := x.s) M.env k w b f
    exact h.next (b := x.ended) (asyncFail_ok hc h.good ho.2.2 ho.2.1 k w b f) (fun t ht => (t2 t ht).imp_right (fun h => Nat.le_of_eq h.1.symm)) t1
  | assignFail tok keeps v =>
    simp only [xstep, assignFail]
    split
    · rename_i hop
      split
      · rename_i hd
        have e : complete cfg M.env x.s tok (.ok v) = (({ x.s with opens := x.s.opens.erase tok } : St K V E).modify tok (·.upd .cancel),
            { ret := .bool false, broken := users (((({ x.s with opens := x.s.opens.erase tok } : St K V E).findAny tok).map (·.mapped.cbs)).getD []) }) := by
          unfold complete; rw [if_pos hop, if_pos hd]
        have hpl := plainStep (.complete tok (.ok v)) trivial (fun hex => by
          have := hn hex
          simp only [xstep, assignFail, if_pos hop, if_pos hd] at this
          exact this)
        simp only [Hoard.step, e, Ledger.after] at hpl
        simp only [e, xafter]
        exact hpl
      · rename_i hd
        have hd : x.s.destroyed = false := by simpa using hd
        cases keeps with
        | true =>
          simp only [xafter, if_true]
          obtain ⟨T, hT, hid, hp⟩ := h.good.wf2.opE hd tok hop
          have := mute_ok hc h.good hd hT hp (hid ▸ hop) (by rw [hid]; exact hk tok v rfl) cfg.ptr
          rw [hid] at this
          exact h.next (b := x.ended) this (fun t ht => .inl ht) (Nat.le_refl _)
        | false =>
          simp only [xafter, Bool.false_eq_true, if_false]
          have := (kill_ok hc h.good hd hop (failed cfg.ptr false) (fun m hp => failed_facts cfg.ptr M.tm (fun q => (htm q).resolve_right (fun q => q tok v rfl)) m hp)
            (failed_cbs cfg.ptr)).1
          refine ⟨unheard_closed this (fun hm => (List.Nodup.mem_erase_iff h.good.wf2.opN).1 hm |>.1 rfl), ?_, ?_⟩
          · intro t ht
            rcases List.mem_append.1 ht with ht | ht
            · exact h.dl t ht
            · rw [List.mem_singleton.1 ht]
              obtain ⟨T, hT, hid, _⟩ := h.good.wf2.opE hd tok hop
              rw [← hid]; exact h.good.wf1.lt T (List.mem_append_left _ hT)
          · intro t ht hh
            have hh : t ∈ x.s.opens.erase tok := hh
            rcases List.mem_append.1 ht with ht | ht
            · exact h.dop t ht (List.mem_of_mem_erase hh)
            · rw [List.mem_singleton.1 ht] at hh
              exact (List.Nodup.mem_erase_iff h.good.wf2.opN).1 hh |>.1 rfl
    · rename_i hop
      split
      · split
        · simp only [xafter]; exact h.forget tok h.good
        · cases keeps with
          | true => simp only [xafter, if_true]; exact ⟨unheard_closed h.good hop, h.dl, h.dop⟩
          | false => simp only [xafter, Bool.false_eq_true, if_false]; exact ⟨unheard_closed (abandon_closed h.good hop) hop, h.dl, h.dop⟩
      · simp only [xafter]; exact h

/-! ## Histories -/

theorem xrun_append (cfg : Cfg K) (nx : Bool) (h1 : XHist K V E) : ∀ (x : XSt K V E) (h2 : XHist K V E),
    xrun cfg nx x (h1 ++ h2) = ((xrun cfg nx (xrun cfg nx x h1).1 h2).1, (xrun cfg nx x h1).2 ++ (xrun cfg nx (xrun cfg nx x h1).1 h2).2) := by
  induction h1 with
  | nil => intro x h2; rfl
  | cons p h1 ih => obtain ⟨e, o⟩ := p; intro x h2; simp only [List.cons_append, xrun]; rw [ih]

theorem xrun_length (cfg : Cfg K) (nx : Bool) (h : XHist K V E) : ∀ x : XSt K V E, (xrun cfg nx x h).2.length = h.length := by
  induction h with
  | nil => intro x; rfl
  | cons p h ih => obtain ⟨e, o⟩ := p; intro x; simp only [xrun, List.length_cons, ih]

theorem XHistOk_append {h1 h2 : XHist K V E} : ∀ {x : XSt K V E}, XHistOk cfg nx x (h1 ++ h2) ↔ XHistOk cfg nx x h1 ∧ XHistOk cfg nx (xrun cfg nx x h1).1 h2 := by
  induction h1 with
  | nil => intro x; simp [XHistOk, xrun]
  | cons p h1 ih => obtain ⟨e, o⟩ := p; intro x; simp only [List.cons_append, XHistOk, xrun]; rw [ih, and_assoc]

theorem xhistory_append (eqv : K → K → Bool) (kind : Kind) (h1 : XHist K V E) : ∀ (L : Ledger K V) (o1 : List (Out K V E)) (_ : o1.length = h1.length)
    (h2 : XHist K V E) (o2 : List (Out K V E)),
    xhistory eqv kind L (h1 ++ h2) (o1 ++ o2) = xhistory eqv kind (xhistory eqv kind L h1 o1) h2 o2 := by
  induction h1 with
  | nil => intro L o1 hl h2 o2; cases o1 with
    | nil => rfl
    | cons => cases hl
  | cons p h1 ih => obtain ⟨e, o⟩ := p; intro L o1 hl h2 o2; cases o1 with
    | nil => cases hl
    | cons a o1 => simp only [List.cons_append, xhistory]; exact ih _ _ (by simpa using hl) _ _

theorem xstateAfter_snoc (cfg : Cfg K) (nx : Bool) (h : XHist K V E) (env : Env V) (o : XOp K V E) :
    xstateAfter cfg nx (h ++ [(env, o)]) = (xstep cfg nx env (xstateAfter cfg nx h) o).1 := by
  simp only [xstateAfter, xrun_append, xrun]

theorem xouts_snoc (cfg : Cfg K) (nx : Bool) (h : XHist K V E) (env : Env V) (o : XOp K V E) :
    xouts cfg nx (h ++ [(env, o)]) = xouts cfg nx h ++ [xoutAt cfg nx h env o] := by
  simp only [xouts, xrun_append, xrun]; rfl

theorem xledgerAfter_snoc (cfg : Cfg K) (nx : Bool) (h : XHist K V E) (env : Env V) (o : XOp K V E) :
    xledgerAfter cfg nx (h ++ [(env, o)]) = xafter cfg.eqv cfg.resolver env.now (xledgerAfter cfg nx h) o (xoutAt cfg nx h env o) := by
  simp only [xledgerAfter, xouts_snoc]
  rw [xhistory_append _ _ h _ _ (show (xouts cfg nx h).length = h.length from xrun_length cfg nx h {})]; rfl

theorem NoLostRefresh.left {h1 h2 : XHist K V E} (h : NoLostRefresh cfg nx (h1 ++ h2)) : NoLostRefresh cfg nx h1 :=
  fun g1 e t v g2 hh => h g1 e t v (g2 ++ h2) (by rw [hh]; simp)

theorem XNoEvict.left {h1 h2 : XHist K V E} (h : XNoEvict cfg nx (h1 ++ h2)) : XNoEvict cfg nx h1 :=
  fun g1 g2 hh => h g1 (g2 ++ h2) (by rw [hh]; simp)

theorem Mono_last {l : List (Env V)} {a b : Env V} (h : Mono (l ++ [a, b])) : Mono (l ++ [a]) ∧ a.le b := by
  unfold Mono at *
  refine ⟨h.sublist (List.Sublist.append_left (by simp) l), ?_⟩
  exact (List.pairwise_cons.1 (List.pairwise_append.1 h).2.1).1 b (by simp)

/-- The invariant after a history with failing calls. -/
theorem xgood_tm (hc : cfg.Ok) (mo ex tm : Prop) (hem : ex → mo ∨ cfg.Untimed) (h : XHist K V E) : ∀ (env : Env V), XHistOk cfg nx {} h → NoLostRefresh cfg nx h →
    (mo → Mono (h.map (·.1) ++ [env])) → (ex → XNoEvict cfg nx h) → (tm → NoHusk cfg h) →
    XGood cfg ⟨mo, ex, env, tm⟩ (xstateAfter cfg nx h) (xledgerAfter cfg nx h) := by
  induction h using snoc_ind with
  | h0 => intro env _ _ _ _ _; exact ⟨good_init .., by simp [xstateAfter, xrun], by simp [xstateAfter, xrun]⟩
  | h1 h p ih =>
    obtain ⟨e, o⟩ := p
    intro env hok hl hm hn ht
    rw [XHistOk_append] at hok
    have g := ih e hok.1 hl.left (fun q => (Mono_last (by simpa using hm q)).1) (fun q => (hn q).left) (fun q => (ht q).imp_right (fun q p hp => q p (by simp [hp])))
    have g1 := g.step (nx := nx) hc o hok.2.1 (fun q => (ht q).imp_right (fun q => q (e, o) (by simp))) (fun tok v ho => hl h e tok v [] (by rw [ho])) (fun q => by
      have := hn q (h ++ [(e, o)]) [] (by simp)
      rw [xstateAfter_snoc] at this
      exact this)
    rw [xstateAfter_snoc, xledgerAfter_snoc]
    exact ⟨g1.good.advance hem (fun q => (Mono_last (l := h.map (·.1)) (by simpa using hm q)).2), g1.dl, g1.dop⟩

theorem xgood (hc : cfg.Ok) (mo ex : Prop) (hem : ex → mo ∨ cfg.Untimed) (h : XHist K V E) (env : Env V) (hok : XHistOk cfg nx {} h) (hl : NoLostRefresh cfg nx h)
    (hm : mo → Mono (h.map (·.1) ++ [env])) (hn : ex → XNoEvict cfg nx h) :
    XGood cfg ⟨mo, ex, env, False⟩ (xstateAfter cfg nx h) (xledgerAfter cfg nx h) :=
  xgood_tm hc mo ex False hem h env hok hl hm hn (fun q => q.elim)

end Hoard.Throw
