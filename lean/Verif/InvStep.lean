import Verif.Inv
/-! The invariant of lookups in flight and of the delay queue, and steps that
change one entry. -/
namespace Hoard
variable {K V E : Type}

/-- The assumptions under which a history is looked at: the clock never goes
back (`mo`), nothing is evicted (`ex`); the present environment; and no constructor
of a value failed (`tm`). -/
structure Md (V : Type) where
  mo : Prop
  ex : Prop
  env : Env V
  tm : Prop

/-- Invariant of values and lookups in flight. -/
structure WF2 (cfg : Cfg K) (s : St K V E) : Prop where
  opN : s.opens.Nodup
  opE : s.destroyed = false → ∀ t ∈ s.opens, ∃ e ∈ s.ents, e.id = t ∧ e.isPending = true
  opD : s.destroyed = true → s.ents = []
  pen : ∀ e ∈ s.ents, e.isPending = true →
    e.expTp = none ∧ e.canTp = none ∧ e.refreshing = false ∧ e.id ∉ s.delayQ ∧
    (e.mapped.live = true → e.id ∈ s.opens) ∧ e.refTp = none
  noA : cfg.resolver ≠ .async → s.opens = [] ∧ ∀ e ∈ s.ents, e.isPending = false
  cb : ∀ e ∈ s.ents, ∀ old, Cb.refresh old ∈ e.mapped.cbs →
    old < e.id ∧ ∀ a ∈ s.ents, a.id = old → a.isPending = false ∧ cfg.eqv a.key e.key = true
  one : ∀ e ∈ s.ents, ∀ a b, Cb.refresh a ∈ e.mapped.cbs → Cb.refresh b ∈ e.mapped.cbs → a = b
  va : ∀ a ∈ s.ents, ∀ b ∈ s.ents, ∀ v w, a.mapped.val? = some v → b.mapped.val? = some w →
    cfg.eqv a.key b.key = true → a.id = b.id
  vb : ∀ a ∈ s.ents, ∀ b ∈ s.ents, a.mapped.live = true → b.mapped.live = true →
    cfg.eqv a.key b.key = true → a.id = b.id
  vc : ∀ a ∈ s.ents, ∀ b ∈ s.ents, ∀ v, a.mapped.val? = some v → b.mapped.live = true →
    cfg.eqv a.key b.key = true → Cb.refresh a.id ∈ b.mapped.cbs ∧ a.refreshing = true
  lim : ∀ e ∈ s.limbo, e.mapped.cbs = []

theorem wf2_init (cfg : Cfg K) : WF2 cfg (St.init : St K V E) := by
  constructor <;> simp [St.init, St.ents]

/-- Invariant of the delay queue of the refresh policy: it is ordered by due
time and contains every value not being refreshed (except those in `X`). -/
structure DQ (cfg : Cfg K) (M : Md V) (X : Nat → Prop) (s : St K V E) : Prop where
  dl1 : M.mo → ∀ d i, cfg.refresh = some (d, i) → s.delayQ.Pairwise (fun i j => ∀ a ∈ s.ents, ∀ b ∈ s.ents, a.id = i → b.id = j →
    ∀ t u, a.refTp = some t → b.refTp = some u → t ≤ u)
  dl2 : M.mo → ∀ d i, cfg.refresh = some (d, i) → ∀ a ∈ s.ents, a.id ∈ s.delayQ → ∃ t, a.refTp = some t ∧ t ≤ M.env.now + d
  dl3 : M.mo → cfg.refresh.isSome = true → ∀ a ∈ s.ents, a.mapped.val? ≠ none → a.refreshing = false →
    a.id ∈ s.delayQ ∨ a.expired M.env = true ∨ X a.id
  nv : ∀ a ∈ s.ents, a.mapped.isVoid = true → ¬ M.tm ∧ a.id ∉ s.delayQ

theorem dq_init (cfg : Cfg K) (M : Md V) (X) : DQ cfg M X (St.init : St K V E) := by
  constructor <;> simp [St.init, St.ents]

variable {cfg : Cfg K} {env : Env V} {F : Eff K V}

theorem not_none_of {e e' : Entry K V E} (sh : ShrE cfg env F e e') (h : e'.mapped.val? ≠ none) : e.mapped.val? ≠ none := by
  obtain ⟨v, hv⟩ := Option.ne_none_iff_exists'.1 h
  simp [sh.val v hv]

/-- Between `s` and `s'` nothing new appears except the entry `x`. -/
structure Spc (cfg : Cfg K) (env : Env V) (F : Eff K V) (x : Nat) (s s' : St K V E) : Prop where
  des : s'.destroyed = s.destroyed
  bwd : ∀ e' ∈ s'.ents, e'.id ≠ x → ∃ e ∈ s.ents, ShrE cfg env F e e'
  keepP : ∀ e ∈ s.ents, e.id ≠ x → e.isPending = true → ∃ e' ∈ s'.ents, ShrE cfg env F e e'
  keepV : ∀ e ∈ s.ents, e.id ≠ x → Wanted env F e → ∃ e' ∈ s'.ents, ShrE cfg env F e e' ∧ Keeps env e e'
  dq : ∃ q j, q.Sublist s.delayQ ∧ s'.delayQ = q ++ List.replicate j x
  dqk : ∀ i ∈ s.delayQ, i ≠ x → i ∈ s'.delayQ ∨ i ∉ s'.ents.map (·.id) ∨ F.pop i
  op : ∀ t, t ≠ x → (t ∈ s'.opens ↔ t ∈ s.opens)
  lim : (∀ e ∈ s.limbo, e.mapped.cbs = []) → ∀ e ∈ s'.limbo, e.mapped.cbs = []
  any : ∀ o ∈ s.ents ++ s.limbo, o.id ≠ x → ∃ o' ∈ s'.ents ++ s'.limbo, LimE F o o'

theorem Spc.dqm {x : Nat} {s s' : St K V E} (h : Spc cfg env F x s s') : ∀ i ∈ s'.delayQ, i ≠ x → i ∈ s.delayQ := by
  obtain ⟨q, j, h1, h2⟩ := h.dq
  intro i hi hx
  rw [h2] at hi
  rcases List.mem_append.1 hi with h | h
  · exact h1.subset h
  · exact absurd (List.eq_of_mem_replicate h) hx

theorem Spc.trans {x : Nat} {a b c : St K V E} (h : Spc cfg env F x a b) (h' : Spc cfg env F x b c) : Spc cfg env F x a c where
  des := h'.des.trans h.des
  bwd := by
    intro e' he' hx
    obtain ⟨e1, h1, s1⟩ := h'.bwd e' he' hx
    obtain ⟨e2, h2, s2⟩ := h.bwd e1 h1 (s1.id ▸ hx)
    exact ⟨e2, h2, s2.trans s1⟩
  keepP := by
    intro e he hx hp
    obtain ⟨e1, h1, s1⟩ := h.keepP e he hx hp
    obtain ⟨e2, h2, s2⟩ := h'.keepP e1 h1 (by rw [s1.id]; exact hx) (s1.pend.trans hp)
    exact ⟨e2, h2, s1.trans s2⟩
  keepV := by
    intro e he hx w
    obtain ⟨e1, h1, s1, k1⟩ := h.keepV e he hx w
    obtain ⟨e2, h2, s2, k2⟩ := h'.keepV e1 h1 (by rw [s1.id]; exact hx) (w.keeps s1 k1)
    exact ⟨e2, h2, s1.trans s2, k1.trans k2⟩
  dq := by
    obtain ⟨q, j, h1, h2⟩ := h.dq
    obtain ⟨q', j', h1', h2'⟩ := h'.dq
    rw [h2, List.sublist_append_iff] at h1'
    obtain ⟨l1, l2, rfl, g1, g2⟩ := h1'
    obtain ⟨m, _, rfl⟩ := List.sublist_replicate_iff.1 g2
    refine ⟨l1, m + j', g1.trans h1, ?_⟩
    rw [h2', List.append_assoc, List.replicate_append_replicate]
  dqk := by
    intro i hi hx
    rcases h.dqk i hi hx with h1 | h1 | h1
    · exact h'.dqk i h1 hx
    · refine .inr (.inl fun hm => h1 ?_)
      obtain ⟨e, he, rfl⟩ := List.mem_map.1 hm
      obtain ⟨e0, h0, s0⟩ := h'.bwd e he hx
      exact List.mem_map.2 ⟨e0, h0, s0.id.symm⟩
    · exact .inr (.inr h1)
  op := fun t hx => (h'.op t hx).trans (h.op t hx)
  lim := fun h0 => h'.lim (h.lim h0)
  any := by
    intro o ho hx
    obtain ⟨o1, h1, l1⟩ := h.any o ho hx
    obtain ⟨o2, h2, l2⟩ := h'.any o1 h1 (by rw [l1.id]; exact hx)
    exact ⟨o2, h2, l1.trans l2⟩

theorem Shr.spc {s s' : St K V E} (h : Shr cfg env F s s') (x : Nat) : Spc cfg env F x s s' where
  des := h.same.destroyed
  bwd := fun e' he' _ => h.bwd e' he'
  keepP := fun e he _ hp => h.keepP e he hp
  keepV := fun e he _ w => h.keepV e he w
  dq := ⟨s'.delayQ, 0, h.dq, by simp⟩
  dqk := fun i hi _ => h.dqk i hi
  op := fun t _ => by rw [h.same.opens]
  lim := h.lim
  any := fun o ho _ => h.any o ho

/-- Any modification of the entry `x` itself. -/
theorem Spc.modify {x : Nat} (s : St K V E) {f : Entry K V E → Entry K V E} (hf : IdKey f)
    (hl : ∀ e ∈ s.limbo, e.id ≠ x ∨ (e.mapped.cbs = [] → (f e).mapped.cbs = [])) : Spc cfg env F x s (s.modify x f) where
  des := rfl
  bwd := by
    intro e' he' hx
    rw [ents_modify] at he'
    obtain ⟨e, he, rfl⟩ := List.mem_map.1 he'
    refine ⟨e, he, ?_⟩
    unfold atId; split
    · rename_i h
      exfalso; apply hx; simp only [atId, h, if_true]; rw [(hf e).1, h]
    · exact .refl _
  keepP := by
    intro e he hx _
    refine ⟨e, ?_, .refl _⟩
    rw [ents_modify]
    exact List.mem_map.2 ⟨e, he, by simp [atId, hx]⟩
  keepV := by
    intro e he hx w
    refine ⟨e, ?_, .refl _, rfl, rfl, w.exp⟩
    rw [ents_modify]
    exact List.mem_map.2 ⟨e, he, by simp [atId, hx]⟩
  dq := ⟨s.delayQ, 0, .refl _, by simp [St.modify]⟩
  dqk := fun _ h _ => .inl h
  op := fun _ _ => Iff.rfl
  lim := by
    intro h e he
    rw [limbo_modify] at he
    obtain ⟨y, hy, rfl⟩ := List.mem_map.1 he
    unfold atId; split
    · rename_i hi
      rcases hl y hy with h1 | h1
      · exact absurd hi h1
      · exact h1 (h y hy)
    · exact h y hy
  any := by
    intro o ho hx
    refine ⟨o, ?_, .refl _⟩
    rcases List.mem_append.1 ho with ho | ho
    · exact List.mem_append_left _ (by rw [ents_modify]; exact List.mem_map.2 ⟨o, ho, by simp [atId, hx]⟩)
    · exact List.mem_append_right _ (by rw [limbo_modify]; exact List.mem_map.2 ⟨o, ho, by simp [atId, hx]⟩)

theorem Spc.opens {x : Nat} (s : St K V E) (o : List Nat) (ho : ∀ t, t ≠ x → (t ∈ o ↔ t ∈ s.opens)) :
    Spc cfg env F x s { s with opens := o } :=
  ⟨rfl, fun e h _ => ⟨e, h, .refl _⟩, fun e h _ _ => ⟨e, h, .refl _⟩, fun e h _ w => ⟨e, h, .refl _, rfl, rfl, w.exp⟩,
   ⟨s.delayQ, 0, .refl _, by simp⟩, fun _ h _ => .inl h, ho, fun h => h, fun o h _ => ⟨o, h, .refl _⟩⟩

theorem Spc.delayQ {x : Nat} (s : St K V E) : Spc cfg env F x s { s with delayQ := s.delayQ ++ [x] } :=
  ⟨rfl, fun e h _ => ⟨e, h, .refl _⟩, fun e h _ _ => ⟨e, h, .refl _⟩, fun e h _ w => ⟨e, h, .refl _, rfl, rfl, w.exp⟩,
   ⟨s.delayQ, 1, .refl _, by simp⟩, fun _ h _ => .inl (List.mem_append_left _ h), fun _ _ => Iff.rfl, fun h => h, fun o h _ => ⟨o, h, .refl _⟩⟩

/-- A weaker effect allows less. -/
theorem ShrE.mono {F' : Eff K V} {e e' : Entry K V E} (h : ShrE cfg env F e e') (hh : F.hit e.id → F'.hit e.id) (hv : F.vic e.id → F'.vic e.id)
    (hf : F.flag e.id → F'.flag e.id) :
    ShrE cfg env F' e e' :=
  ⟨h.id, h.key, h.pend, h.val, h.live, h.cbs, h.tms, h.rf, h.ext, h.rft, h.exd, fun hn => h.can (fun x => hn (hh x)),
   fun hn => h.wk (hn.imp_right (fun h0 x => h0 (hv x))), fun hn => h.rfe (fun x => hn (hf x)), h.vd⟩

/-- What the entry `x` must satisfy for the invariant to hold afterwards. -/
structure SpcN (cfg : Cfg K) (s s' : St K V E) (x : Nat) (n : Entry K V E) : Prop where
  mem : n ∈ s'.ents
  id : n.id = x
  opN : s'.opens.Nodup
  opx : x ∈ s'.opens → n.isPending = true
  pen : n.isPending = true → n.expTp = none ∧ n.canTp = none ∧ n.refreshing = false ∧ x ∉ s'.delayQ ∧
      (n.mapped.live = true → x ∈ s'.opens) ∧ n.refTp = none
  noA : cfg.resolver ≠ .async → n.isPending = false
  cb : ∀ old, Cb.refresh old ∈ n.mapped.cbs → old < x ∧ ∀ a ∈ s'.ents, a.id = old → a.isPending = false ∧ cfg.eqv a.key n.key = true
  one : ∀ a b, Cb.refresh a ∈ n.mapped.cbs → Cb.refresh b ∈ n.mapped.cbs → a = b
  cbx : ∀ e ∈ s.ents, e.id ≠ x → Cb.refresh x ∉ e.mapped.cbs
  s1 : ∀ e' ∈ s'.ents, e'.id ≠ x → cfg.eqv e'.key n.key = true → n.mapped.live = true ∨ n.mapped.val? ≠ none → e'.mapped.live = false
  s2 : ∀ e' ∈ s'.ents, e'.id ≠ x → cfg.eqv e'.key n.key = true → n.mapped.val? ≠ none → e'.mapped.val? = none
  s3 : ∀ e' ∈ s'.ents, e'.id ≠ x → cfg.eqv e'.key n.key = true → n.mapped.live = true → e'.mapped.val? ≠ none →
      Cb.refresh e'.id ∈ n.mapped.cbs ∧ e'.refreshing = true

theorem WF2.special (hc : cfg.Ok) {x : Nat} {s s' : St K V E} (h : WF2 cfg s) (w : WF1 cfg s') (r : Spc cfg env F x s s')
    (hd : s.destroyed = false) {n : Entry K V E} (hn : SpcN cfg s s' x n) : WF2 cfg s' := by
  have huniq : ∀ e' ∈ s'.ents, e'.id = x → e' = n := fun e' he' hh => eq_of_id w he' hn.mem (hh.trans hn.id.symm)
  constructor
  case opN => exact hn.opN
  case opE =>
    intro _ t ht
    by_cases htx : t = x
    · subst htx; exact ⟨n, hn.mem, hn.id, hn.opx ht⟩
    · obtain ⟨e, he, rfl, hp⟩ := h.opE hd t ((r.op t htx).1 ht)
      obtain ⟨e', he', sh⟩ := r.keepP e he htx hp
      exact ⟨e', he', sh.id, sh.pend.trans hp⟩
  case opD => intro hd'; rw [r.des, hd] at hd'; cases hd'
  case pen =>
    intro e' he' hp'
    by_cases hex : e'.id = x
    · obtain rfl := huniq e' he' hex
      rw [hex]; exact hn.pen hp'
    · obtain ⟨e, he, sh⟩ := r.bwd e' he' hex
      have hp := sh.pend.symm.trans hp'
      obtain ⟨p1, p2, p3, p4, p5, p6⟩ := h.pen e he hp
      obtain ⟨q1, q2, q3⟩ := sh.tms hp
      refine ⟨q1.trans p1, q2.trans p2, q3.trans p3, ?_, ?_, sh.rft.trans p6⟩
      · intro hm; exact p4 (sh.id ▸ r.dqm _ hm hex)
      · intro hl; exact (r.op _ hex).2 (sh.id ▸ p5 (sh.live hl))
  case noA =>
    intro ha
    have h0 := h.noA ha
    have hall : ∀ e' ∈ s'.ents, e'.isPending = false := by
      intro e' he'
      by_cases hex : e'.id = x
      · obtain rfl := huniq e' he' hex; exact hn.noA ha
      · obtain ⟨e, he, sh⟩ := r.bwd e' he' hex
        exact sh.pend.trans (h0.2 e he)
    refine ⟨?_, hall⟩
    apply List.eq_nil_iff_forall_not_mem.2
    intro t ht
    by_cases htx : t = x
    · subst htx; have := hn.opx ht; rw [hn.noA ha] at this; cases this
    · have := (r.op t htx).1 ht; rw [h0.1] at this; cases this
  case cb =>
    intro e' he' old ho
    by_cases hex : e'.id = x
    · obtain rfl := huniq e' he' hex; rw [hex]; exact hn.cb old ho
    · obtain ⟨e, he, sh⟩ := r.bwd e' he' hex
      rw [sh.cbs] at ho
      obtain ⟨g1, g2⟩ := h.cb e he old ho
      rw [sh.id, sh.key]
      refine ⟨g1, ?_⟩
      intro a' ha' hi
      have hax : a'.id ≠ x := by
        intro hh; rw [hh] at hi; subst hi
        exact hn.cbx e he (by rw [← sh.id]; exact hex) ho
      obtain ⟨a, ha, sa⟩ := r.bwd a' ha' hax
      rw [sa.pend, sa.key]
      exact g2 a ha (sa.id.symm.trans hi)
  case one =>
    intro e' he' a b h1 h2
    by_cases hex : e'.id = x
    · obtain rfl := huniq e' he' hex; exact hn.one a b h1 h2
    · obtain ⟨e, he, sh⟩ := r.bwd e' he' hex
      rw [sh.cbs] at h1 h2; exact h.one e he a b h1 h2
  case va =>
    intro a' ha' b' hb' v u hv hu hk
    by_cases hax : a'.id = x
    · obtain rfl := huniq a' ha' hax
      by_cases hbx : b'.id = x
      · rw [hax, hbx]
      · have := hn.s2 b' hb' hbx (hc.symm _ _ hk) (by simp [hv]); rw [hu] at this; cases this
    · by_cases hbx : b'.id = x
      · obtain rfl := huniq b' hb' hbx
        have := hn.s2 a' ha' hax hk (by simp [hu]); rw [hv] at this; cases this
      · obtain ⟨a, ha, sa⟩ := r.bwd a' ha' hax
        obtain ⟨b, hb, sb⟩ := r.bwd b' hb' hbx
        rw [sa.key, sb.key] at hk
        rw [sa.id, sb.id]
        exact h.va a ha b hb v u (sa.val _ hv) (sb.val _ hu) hk
  case vb =>
    intro a' ha' b' hb' hv hu hk
    by_cases hax : a'.id = x
    · obtain rfl := huniq a' ha' hax
      by_cases hbx : b'.id = x
      · rw [hax, hbx]
      · have := hn.s1 b' hb' hbx (hc.symm _ _ hk) (.inl hv); rw [hu] at this; cases this
    · by_cases hbx : b'.id = x
      · obtain rfl := huniq b' hb' hbx
        have := hn.s1 a' ha' hax hk (.inl hu); rw [hv] at this; cases this
      · obtain ⟨a, ha, sa⟩ := r.bwd a' ha' hax
        obtain ⟨b, hb, sb⟩ := r.bwd b' hb' hbx
        rw [sa.key, sb.key] at hk
        rw [sa.id, sb.id]
        exact h.vb a ha b hb (sa.live hv) (sb.live hu) hk
  case vc =>
    intro a' ha' b' hb' v hv hu hk
    by_cases hax : a'.id = x
    · obtain rfl := huniq a' ha' hax
      by_cases hbx : b'.id = x
      · obtain rfl := huniq b' hb' hbx
        rw [Mapped.pending_val (Mapped.live_pending hu)] at hv; cases hv
      · have := hn.s1 b' hb' hbx (hc.symm _ _ hk) (.inr (by simp [hv])); rw [hu] at this; cases this
    · by_cases hbx : b'.id = x
      · obtain rfl := huniq b' hb' hbx
        exact hn.s3 a' ha' hax hk hu (by simp [hv])
      · obtain ⟨a, ha, sa⟩ := r.bwd a' ha' hax
        obtain ⟨b, hb, sb⟩ := r.bwd b' hb' hbx
        rw [sa.key, sb.key] at hk
        rw [sa.id, sb.cbs]
        obtain ⟨g1, g2⟩ := h.vc a ha b hb v (sa.val _ hv) (sb.live hu) hk
        exact ⟨g1, sa.rf g2⟩
  case lim => exact r.lim h.lim

theorem WF2.shr {s s' : St K V E} (h : WF2 cfg s) (r : Shr cfg env F s s') : WF2 cfg s' where
  opN := by rw [r.same.opens]; exact h.opN
  opE := by
    rw [r.same.opens, r.same.destroyed]
    intro hd t ht
    obtain ⟨e, he, rfl, hp⟩ := h.opE hd t ht
    obtain ⟨e', he', sh⟩ := r.keepP e he hp
    exact ⟨e', he', sh.id, sh.pend.trans hp⟩
  opD := by
    rw [r.same.destroyed]
    intro hd
    have := h.opD hd
    apply List.eq_nil_iff_forall_not_mem.2
    intro e' he'
    obtain ⟨e, he, _⟩ := r.bwd e' he'
    rw [this] at he; cases he
  pen := by
    intro e' he' hp'
    obtain ⟨e, he, sh⟩ := r.bwd e' he'
    have hp := sh.pend.symm.trans hp'
    obtain ⟨p1, p2, p3, p4, p5, p6⟩ := h.pen e he hp
    obtain ⟨q1, q2, q3⟩ := sh.tms hp
    refine ⟨q1.trans p1, q2.trans p2, q3.trans p3, ?_, ?_, sh.rft.trans p6⟩
    · rw [sh.id]; exact fun hm => p4 (r.dq.subset hm)
    · rw [sh.id, r.same.opens]; exact fun hl => p5 (sh.live hl)
  noA := by
    intro ha
    refine ⟨r.same.opens.trans (h.noA ha).1, ?_⟩
    intro e' he'
    obtain ⟨e, he, sh⟩ := r.bwd e' he'
    exact sh.pend.trans ((h.noA ha).2 e he)
  cb := by
    intro e' he' old ho
    obtain ⟨e, he, sh⟩ := r.bwd e' he'
    rw [sh.cbs] at ho; rw [sh.id, sh.key]
    obtain ⟨g1, g2⟩ := h.cb e he old ho
    refine ⟨g1, fun a' ha' hi => ?_⟩
    obtain ⟨a, ha, sa⟩ := r.bwd a' ha'
    rw [sa.pend, sa.key]
    exact g2 a ha (sa.id.symm.trans hi)
  one := by
    intro e' he' a b h1 h2
    obtain ⟨e, he, sh⟩ := r.bwd e' he'
    rw [sh.cbs] at h1 h2; exact h.one e he a b h1 h2
  va := by
    intro a' ha' b' hb' v w hv hw hk
    obtain ⟨a, ha, sa⟩ := r.bwd a' ha'
    obtain ⟨b, hb, sb⟩ := r.bwd b' hb'
    rw [sa.key, sb.key] at hk
    rw [sa.id, sb.id]
    exact h.va a ha b hb v w (sa.val _ hv) (sb.val _ hw) hk
  vb := by
    intro a' ha' b' hb' hv hw hk
    obtain ⟨a, ha, sa⟩ := r.bwd a' ha'
    obtain ⟨b, hb, sb⟩ := r.bwd b' hb'
    rw [sa.key, sb.key] at hk
    rw [sa.id, sb.id]
    exact h.vb a ha b hb (sa.live hv) (sb.live hw) hk
  vc := by
    intro a' ha' b' hb' v hv hw hk
    obtain ⟨a, ha, sa⟩ := r.bwd a' ha'
    obtain ⟨b, hb, sb⟩ := r.bwd b' hb'
    rw [sa.key, sb.key] at hk
    rw [sa.id, sb.cbs]
    obtain ⟨g1, g2⟩ := h.vc a ha b hb v (sa.val _ hv) (sb.live hw) hk
    exact ⟨g1, sa.rf g2⟩
  lim := r.lim h.lim

variable {M : Md V}

theorem DQ.shr {X X' : Nat → Prop} {s s' : St K V E} (h : DQ cfg M X s) (r : Shr cfg M.env F s s')
    (hX : ∀ i, X i → X' i) (hp : ∀ i ∈ s.delayQ, F.pop i → X' i) : DQ cfg M X' s' where
  dl1 := by
    intro hm d i hr
    refine ((h.dl1 hm d i hr).sublist r.dq).imp ?_
    intro i j hij a' ha' b' hb' hai hbj t u ht hu
    obtain ⟨a, ha, sa⟩ := r.bwd a' ha'
    obtain ⟨b, hb, sb⟩ := r.bwd b' hb'
    exact hij a ha b hb (sa.id.symm.trans hai) (sb.id.symm.trans hbj) t u (sa.rft.symm.trans ht) (sb.rft.symm.trans hu)
  dl2 := by
    intro hm d i hr a' ha' hq
    obtain ⟨a, ha, sa⟩ := r.bwd a' ha'
    obtain ⟨t, ht, hle⟩ := h.dl2 hm d i hr a ha (r.dq.subset (sa.id ▸ hq))
    exact ⟨t, sa.rft.trans ht, hle⟩
  dl3 := by
    intro hm hr a' ha' hv hf
    obtain ⟨a, ha, sa⟩ := r.bwd a' ha'
    have haf : a.refreshing = false := by
      cases hh : a.refreshing
      · rfl
      · rw [sa.rf hh] at hf; cases hf
    rw [sa.id]
    rcases h.dl3 hm hr a ha (not_none_of sa hv) haf with h1 | h1 | h1
    · rcases r.dqk _ h1 with h2 | h2 | h2
      · exact .inl h2
      · exact absurd (List.mem_map.2 ⟨a', ha', sa.id⟩) h2
      · exact .inr (.inr (hp _ h1 h2))
    · exact .inr (.inl (sa.exd h1))
    · exact .inr (.inr (hX _ h1))
  nv := by
    intro a' ha' hv
    obtain ⟨a, ha, sa⟩ := r.bwd a' ha'
    obtain ⟨h1, h2⟩ := h.nv a ha (sa.vd hv)
    exact ⟨h1, fun hq => h2 (r.dq.subset (sa.id ▸ hq))⟩

theorem DQ.special {X X' : Nat → Prop} {x : Nat} {s s' : St K V E} (h : DQ cfg M X s) (w : WF1 cfg s') (r : Spc cfg M.env F x s s')
    {n : Entry K V E} (hn : n ∈ s'.ents) (hid : n.id = x) (hxs : x ∉ s.delayQ) (hpop : ∀ i ∈ s.delayQ, F.pop i → X' i)
    (hX : ∀ e' ∈ s'.ents, e'.id ≠ x → X e'.id → e'.mapped.val? ≠ none → e'.refreshing = false → X' e'.id)
    (hq1 : ∀ d i, cfg.refresh = some (d, i) → x ∈ s'.delayQ → n.refTp = some (M.env.now + d))
    (hq3 : cfg.refresh.isSome = true → n.mapped.val? ≠ none → n.refreshing = false → x ∈ s'.delayQ ∨ n.expired M.env = true ∨ X' x)
    (hnv : n.mapped.isVoid = true → ¬ M.tm ∧ x ∉ s'.delayQ) :
    DQ cfg M X' s' := by
  have huniq : ∀ e' ∈ s'.ents, e'.id = x → e' = n := fun e' he' hh => eq_of_id w he' hn (hh.trans hid.symm)
  have h2 : M.mo → ∀ d i, cfg.refresh = some (d, i) → ∀ a ∈ s'.ents, a.id ∈ s'.delayQ → ∃ t, a.refTp = some t ∧ t ≤ M.env.now + d := by
    intro hm d i hr a' ha' hq
    by_cases hax : a'.id = x
    · obtain rfl := huniq a' ha' hax
      exact ⟨_, hq1 d i hr (hax ▸ hq), Int.le_refl _⟩
    · obtain ⟨a, ha, sa⟩ := r.bwd a' ha' hax
      obtain ⟨t, ht, hle⟩ := h.dl2 hm d i hr a ha (by rw [← sa.id]; exact r.dqm _ hq hax)
      exact ⟨t, sa.rft.trans ht, hle⟩
  constructor
  case dl1 =>
    intro hm d i hr
    obtain ⟨q, j, hq, hqe⟩ := r.dq
    have hqx : x ∉ q := fun hh => hxs (hq.subset hh)
    rw [hqe, List.pairwise_append]
    refine ⟨?_, ?_, ?_⟩
    · refine ((h.dl1 hm d i hr).sublist hq).imp_of_mem ?_
      intro i j hi hj hij a' ha' b' hb' hai hbj t u ht hu
      obtain ⟨a, ha, sa⟩ := r.bwd a' ha' (by rw [hai]; exact fun hh => hqx (hh ▸ hi))
      obtain ⟨b, hb, sb⟩ := r.bwd b' hb' (by rw [hbj]; exact fun hh => hqx (hh ▸ hj))
      exact hij a ha b hb (sa.id.symm.trans hai) (sb.id.symm.trans hbj) t u (sa.rft.symm.trans ht) (sb.rft.symm.trans hu)
    · rw [List.pairwise_replicate]
      right
      intro a ha b hb hai hbj t u ht hu
      rw [eq_of_id w ha hb (hai.trans hbj.symm), hu] at ht
      simp only [Option.some.injEq] at ht; omega
    · intro i hi j hj a' ha' b' hb' hai hbj t u ht hu
      obtain rfl := List.eq_of_mem_replicate hj
      have hbn := huniq b' hb' hbj
      have hxq : j ∈ s'.delayQ := by rw [hqe]; exact List.mem_append_right _ hj
      obtain ⟨t', ht', hle⟩ := h2 hm d _ hr a' ha' (by rw [hai, hqe]; exact List.mem_append_left _ hi)
      rw [hbn, hq1 d _ hr hxq] at hu
      rw [ht'] at ht
      simp only [Option.some.injEq] at ht hu; omega
  case dl2 => exact h2
  case dl3 =>
    intro hm hr a' ha' hv hf
    by_cases hax : a'.id = x
    · obtain rfl := huniq a' ha' hax
      rw [hax]; exact hq3 hr hv hf
    · obtain ⟨a, ha, sa⟩ := r.bwd a' ha' hax
      have haf : a.refreshing = false := by
        cases hh : a.refreshing
        · rfl
        · rw [sa.rf hh] at hf; cases hf
      rcases h.dl3 hm hr a ha (not_none_of sa hv) haf with h1 | h1 | h1
      · rcases r.dqk _ h1 (by rw [← sa.id]; exact hax) with h2 | h2 | h2
        · left; rw [sa.id]; exact h2
        · exact absurd (List.mem_map.2 ⟨a', ha', sa.id⟩) h2
        · right; right; rw [sa.id]; exact hpop _ h1 h2
      · exact .inr (.inl (sa.exd h1))
      · right; right; exact hX a' ha' hax (by rw [sa.id]; exact h1) hv hf
  case nv =>
    intro a' ha' hv
    by_cases hax : a'.id = x
    · obtain rfl := huniq a' ha' hax
      rw [hax]; exact hnv hv
    · obtain ⟨a, ha, sa⟩ := r.bwd a' ha' hax
      obtain ⟨h1, h2⟩ := h.nv a ha (sa.vd hv)
      exact ⟨h1, fun hq => h2 (by rw [← sa.id]; exact r.dqm _ hq hax)⟩

end Hoard
