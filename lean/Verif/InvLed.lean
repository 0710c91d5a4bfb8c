import Verif.InvStep
import Verif.Spec.Reach
/-! The relation between the state and the ledger of writes, and how it is kept. -/
namespace Hoard
open Spec
variable {K V E : Type}

/-- The stored values of a key agree with the ledger. -/
structure LedV (cfg : Cfg K) (M : Md V) (s : St K V E) (L : Ledger K V) (k : K) : Prop where
  c1 : ∀ e ∈ s.ents, cfg.eqv e.key k = true → ∀ v, e.mapped.val? = some v →
    L.cur k = some v ∧ e.expTp = L.ageLimit cfg.maxAge cfg.wall k ∧ e.canTp = L.idleLimit cfg.refresh k ∧
    e.refTp = L.dueAt cfg.refresh k ∧ (e.refreshing = true ↔ L.tried k = true)
  g1 : M.mo → ∀ e ∈ s.ents, cfg.eqv e.key k = true → e.mapped.val? ≠ none → L.gone k = true → e.expired M.env = true
  x1 : M.ex → ∀ v, L.cur k = some v → DeadL cfg M.env L k v ∨ ∃ e ∈ s.ents, cfg.eqv e.key k = true ∧ e.mapped.val? = some v

/-- The lookups of a key agree with the ledger. -/
structure LedP (cfg : Cfg K) (M : Md V) (s : St K V E) (L : Ledger K V) (k : K) : Prop where
  c2 : ∀ e ∈ s.ents, cfg.eqv e.key k = true → e.mapped.live = true → L.valid k = some e.id
  c3 : s.destroyed = false → ∀ t, L.valid k = some t → t ∈ s.opens ∧
    ∃ T ∈ s.ents, T.id = t ∧ T.isPending = true ∧ cfg.eqv T.key k = true ∧ (M.ex → T.mapped.live = true) ∧
      ∀ a ∈ s.ents, a.mapped.val? ≠ none → cfg.eqv a.key k = true → Cb.refresh a.id ∈ T.mapped.cbs
  t4 : ∀ T ∈ s.ents, cfg.eqv T.key k = true → T.mapped.live = true → ∀ old, Cb.refresh old ∈ T.mapped.cbs →
    ∃ o ∈ s.ents ++ s.limbo, o.id = old ∧ cfg.eqv o.key k = true ∧ o.canTp = L.idleLimit cfg.refresh k
  x3 : M.ex → ∀ e ∈ s.ents, cfg.eqv e.key k = true → e.mapped.val? ≠ none → ∀ T ∈ s.ents, Cb.refresh e.id ∈ T.mapped.cbs →
    T.id ∈ s.opens → T.mapped.live = true
  fr : ∀ t, L.valid k = some t → t < s.nextId

/-- The ledger respects equality of keys. -/
def Rsp (cfg : Cfg K) (L : Ledger K V) : Prop :=
  ∀ a b, cfg.eqv a b = true → L.cur a = L.cur b ∧ L.time a = L.time b ∧ L.used a = L.used b ∧ L.gone a = L.gone b ∧
    L.valid a = L.valid b ∧ L.tried a = L.tried b

/-- Waiters agree with the ledger. -/
structure LedG (cfg : Cfg K) (M : Md V) (s : St K V E) (L : Ledger K V) : Prop where
  rsp : Rsp cfg L
  wt : ∀ T ∈ s.ents, T.id ∈ s.opens → users T.mapped.cbs = L.wait T.id
  wf : ∀ t, s.nextId ≤ t → L.wait t = []
  rfw : ∀ T ∈ s.ents, T.id ∈ s.opens → (L.refr T.id = true ↔ ∃ old, Cb.refresh old ∈ T.mapped.cbs)
  st : M.ex → (cfg.weaken = false ∨ cfg.ptr = false ∨ cfg.maxSize = none) → ∀ e ∈ s.ents, e.mapped.strong = true

/-- Everything together. -/
structure Good (cfg : Cfg K) (M : Md V) (X : Nat → Prop) (s : St K V E) (L : Ledger K V) : Prop where
  wf1 : WF1 cfg s
  wf2 : WF2 cfg s
  dq : DQ cfg M X s
  g : LedG cfg M s L
  v : ∀ k, LedV cfg M s L k
  p : ∀ k, LedP cfg M s L k

theorem good_init (cfg : Cfg K) (M : Md V) (X) : Good cfg M X (St.init : St K V E) {} := by
  refine ⟨wf1_init _, wf2_init _, dq_init _ _ _, ?_, ?_, ?_⟩
  · constructor <;> simp [Rsp, St.init, St.ents]
  · intro k; constructor <;> simp [St.init, St.ents]
  · intro k; constructor <;> simp [St.init, St.ents]

variable {cfg : Cfg K} {M : Md V} {F : Eff K V} {L L' : Ledger K V} {s s' : St K V E}

theorem eqv_congr (hc : cfg.Ok) {a b : K} (h : cfg.eqv a b = true) (c : K) : cfg.eqv a c = cfg.eqv b c := by
  cases h1 : cfg.eqv b c
  · cases h2 : cfg.eqv a c
    · rfl
    · have := hc.trans _ _ _ (hc.symm _ _ h) h2; rw [h1] at this; cases this
  · exact hc.trans _ _ _ h h1

theorem Rsp.deadL (h : Rsp cfg L) {a b : K} (hab : cfg.eqv a b = true) {env : Env V} {v : V} (hd : DeadL cfg env L a v) : DeadL cfg env L b v := by
  obtain ⟨_, h2, h3, _⟩ := h a b hab
  unfold DeadL Ledger.ageLimit Ledger.idleLimit at *
  rw [← h2, ← h3]; exact hd

/-- An expired value is dead for the ledger, too. -/
theorem deadL_of_expired {e : Entry K V E} {k : K} {v : V} {env : Env V}
    (hst : (cfg.weaken = false ∨ cfg.ptr = false ∨ cfg.maxSize = none) → e.mapped.strong = true)
    (hv : e.mapped.val? = some v) (h1 : e.expTp = L.ageLimit cfg.maxAge cfg.wall k) (h2 : e.canTp = L.idleLimit cfg.refresh k)
    (hx : e.expired env = true) : DeadL cfg env L k v := by
  unfold DeadL
  simp only [Entry.expired, Bool.or_eq_true, h1, h2] at hx
  rcases hx with ((hx | hx) | hx) | hx
  · right; right
    cases hm : e.mapped <;> rw [hm] at hx hv hst <;> simp [Mapped.expired, Mapped.val?, Mapped.strong] at hx hv hst
    subst hv
    obtain ⟨a, b, c⟩ := hst
    exact ⟨by simpa [Option.isSome_iff_ne_none] using c, a, b, hx⟩
  · cases hm : e.mapped <;> rw [hm] at hx hv <;> simp [Mapped.holdsError, Mapped.val?] at hx hv
  · exact .inl hx
  · exact .inr (.inl hx)

/-- The ledger's entries for the value of a key do not change. -/
structure SameV (L L' : Ledger K V) (k : K) : Prop where
  cur : L'.cur k = L.cur k
  time : L'.time k = L.time k
  used : L'.used k = L.used k
  gone : L'.gone k = L.gone k
  tried : L.tried k = true → L'.tried k = true

theorem SameV.refl (L : Ledger K V) (k : K) : SameV L L k := ⟨rfl, rfl, rfl, rfl, fun h => h⟩

theorem SameV.age {k : K} (h : SameV L L' k) (m b) : L'.ageLimit m b k = L.ageLimit m b k := by simp [Ledger.ageLimit, h.time]
theorem SameV.idle {k : K} (h : SameV L L' k) (m) : L'.idleLimit m k = L.idleLimit m k := by simp [Ledger.idleLimit, h.used]
theorem SameV.due {k : K} (h : SameV L L' k) (m) : L'.dueAt m k = L.dueAt m k := by simp [Ledger.dueAt, h.time]
theorem SameV.dead {k : K} (h : SameV L L' k) {env : Env V} {v : V} : DeadL cfg env L' k v ↔ DeadL cfg env L k v := by
  unfold DeadL; rw [h.age, h.idle]

theorem LedV.frame {x : Nat} {k : K} (h : LedV cfg M s L k)
    (hst : M.ex → (cfg.weaken = false ∨ cfg.ptr = false ∨ cfg.maxSize = none) → ∀ e ∈ s.ents, e.mapped.strong = true)
    (r : Spc cfg M.env F x s s') (hL : SameV L L' k)
    (hx : ∀ e ∈ s.ents, e.id = x → cfg.eqv e.key k = true → e.mapped.val? = none)
    (hx' : ∀ e ∈ s'.ents, e.id = x → cfg.eqv e.key k = true → e.mapped.val? = none)
    (hhit : ∀ e ∈ s.ents, cfg.eqv e.key k = true → e.mapped.val? ≠ none → ¬ F.hit e.id)
    (hflag : ∀ e ∈ s.ents, cfg.eqv e.key k = true → e.mapped.val? ≠ none → F.flag e.id → L'.tried k = true)
    (hdie : M.ex → ∀ e ∈ s.ents, cfg.eqv e.key k = true → ∀ v, e.mapped.val? = some v → e.expired M.env = false →
      F.die e.id e.key (some v) → DeadL cfg M.env L k v)
    (hset : ∀ e' ∈ s'.ents, cfg.eqv e'.key k = true → e'.mapped.val? ≠ none → L'.tried k = true → L.tried k = true ∨ e'.refreshing = true := by
      intro _ _ _ _ h; exact .inl h) : LedV cfg M s' L' k := by
  have hb : ∀ e' ∈ s'.ents, cfg.eqv e'.key k = true → e'.mapped.val? ≠ none →
      ∃ e ∈ s.ents, cfg.eqv e.key k = true ∧ ShrE cfg M.env F e e' := by
    intro e' he' hk hv
    obtain ⟨e, he, sh⟩ := r.bwd e' he' (fun hh => hv (hx' e' he' hh hk))
    exact ⟨e, he, sh.key ▸ hk, sh⟩
  constructor
  case c1 =>
    intro e' he' hk' v hv'
    obtain ⟨e, he, hk, sh⟩ := hb e' he' hk' (by simp [hv'])
    have hv := sh.val v hv'
    obtain ⟨g1, g2, g3, g4, g5⟩ := h.c1 e he hk v hv
    have hne : e.mapped.val? ≠ none := by simp [hv]
    refine ⟨hL.cur.trans g1, by rw [sh.ext, g2, hL.age], by rw [sh.can (hhit e he hk hne), g3, hL.idle], by rw [sh.rft, g4, hL.due], ?_⟩
    constructor
    · intro hr
      by_cases hf : F.flag e.id
      · exact hflag e he hk hne hf
      · rw [sh.rfe hf] at hr; exact hL.tried (g5.1 hr)
    · intro hr
      rcases hset e' he' hk' (by simp [hv']) hr with h1 | h1
      · exact sh.rf (g5.2 h1)
      · exact h1
  case g1 =>
    intro hm e' he' hk' hv' hg
    obtain ⟨e, he, hk, sh⟩ := hb e' he' hk' hv'
    rw [hL.gone] at hg
    exact sh.exd (h.g1 hm e he hk (not_none_of sh hv') hg)
  case x1 =>
    intro hex v hv
    rw [hL.cur] at hv
    rw [hL.dead]
    rcases h.x1 hex v hv with hd | ⟨e, he, hk, hev⟩
    · exact .inl hd
    · rcases Bool.eq_false_or_eq_true (e.expired M.env) with hxp | hxp
      · obtain ⟨_, g2, g3, _⟩ := h.c1 e he hk v hev
        exact .inl (deadL_of_expired (fun hcnd => hst hex hcnd e he) hev g2 g3 hxp)
      · by_cases hdi : F.die e.id e.key (some v)
        · exact .inl (hdie hex e he hk v hev hxp hdi)
        · have hne : e.id ≠ x := fun hh => by rw [hx e he hh hk] at hev; cases hev
          obtain ⟨e', he', sh, kp⟩ := r.keepV e he hne ⟨hxp, by rw [hev]; exact hdi, .inl (by simp [hev])⟩
          exact .inr ⟨e', he', by rw [sh.key]; exact hk, by rw [kp.val]; exact hev⟩

/-- All values of the key are described directly. -/
theorem LedV.written {k : K}
    (h : ∀ e ∈ s'.ents, cfg.eqv e.key k = true → ∀ v, e.mapped.val? = some v →
      L'.cur k = some v ∧ e.expTp = L'.ageLimit cfg.maxAge cfg.wall k ∧ e.canTp = L'.idleLimit cfg.refresh k ∧
      e.refTp = L'.dueAt cfg.refresh k ∧ e.refreshing = false)
    (hg : L'.gone k = false) (htr : L'.tried k = false)
    (hx : M.ex → ∀ v, L'.cur k = some v → ∃ e ∈ s'.ents, cfg.eqv e.key k = true ∧ e.mapped.val? = some v) : LedV cfg M s' L' k where
  c1 := by
    intro e he hk v hv
    obtain ⟨a, b, c, d, f⟩ := h e he hk v hv
    exact ⟨a, b, c, d, by rw [f, htr]⟩
  g1 := by intro _ e he hk hv hh; rw [hg] at hh; cases hh
  x1 := fun hex v hv => .inr (hx hex v hv)

/-- No value of the key is left. -/
theorem LedV.removed {k : K} (h : ∀ e ∈ s'.ents, cfg.eqv e.key k = true → e.mapped.val? = none) (hcur : L'.cur k = none) : LedV cfg M s' L' k where
  c1 := by intro e he hk v hv; rw [h e he hk] at hv; cases hv
  g1 := by intro _ e he hk hv; exact absurd (h e he hk) hv
  x1 := by intro _ v hv; rw [hcur] at hv; cases hv

theorem LedP.frame0 {x : Nat} {k : K} (h : LedP cfg M s L k) (w2 : WF2 cfg s) (w1' : WF1 cfg s') (w2' : WF2 cfg s') (r : Spc cfg M.env F x s s')
    (hval : L'.valid k = L.valid k) (hnx : s.nextId ≤ s'.nextId)
    (hx' : ∀ e ∈ s'.ents, e.id = x → cfg.eqv e.key k = true → e.mapped.val? = none ∧ e.mapped.live = false)
    (hvx : L.valid k ≠ some x)
    (hnk : ∀ n ∈ s'.ents, n.id = x → x ∈ s'.opens → cfg.eqv n.key k = false) (hc : cfg.Ok)
    (ht4 : ∀ T' ∈ s'.ents, ∀ T ∈ s.ents, T.id ≠ x → ShrE cfg M.env F T T' → cfg.eqv T.key k = true → T.mapped.live = true →
      ∀ old, Cb.refresh old ∈ T.mapped.cbs → ∃ o ∈ s'.ents ++ s'.limbo, o.id = old ∧ cfg.eqv o.key k = true ∧ o.canTp = L'.idleLimit cfg.refresh k)
    (hdie : M.ex → ∀ T ∈ s.ents, cfg.eqv T.key k = true → T.mapped.live = true → ¬ F.die T.id T.key none) : LedP cfg M s' L' k := by
  have hb : ∀ e' ∈ s'.ents, cfg.eqv e'.key k = true → (e'.mapped.val? ≠ none ∨ e'.mapped.live = true) →
      ∃ e ∈ s.ents, cfg.eqv e.key k = true ∧ e.id ≠ x ∧ ShrE cfg M.env F e e' := by
    intro e' he' hk hv
    have hne : e'.id ≠ x := by
      intro hh
      obtain ⟨a, b⟩ := hx' e' he' hh hk
      rcases hv with hv | hv
      · exact hv a
      · rw [b] at hv; cases hv
    obtain ⟨e, he, sh⟩ := r.bwd e' he' hne
    exact ⟨e, he, sh.key ▸ hk, by rw [← sh.id]; exact hne, sh⟩
  have hlive : M.ex → ∀ T ∈ s.ents, T.id ≠ x → cfg.eqv T.key k = true → T.mapped.live = true →
      ∃ T' ∈ s'.ents, ShrE cfg M.env F T T' ∧ T'.mapped.live = true := by
    intro hex T hT hne hk hl
    obtain ⟨p1, p2, _⟩ := w2.pen T hT (Mapped.live_pending hl)
    have hxp : T.expired M.env = false := by
      cases hm : T.mapped <;> simp_all [Mapped.live, Entry.expired, Mapped.expired, Mapped.holdsError, reached]
    obtain ⟨T', hT', sh, kp⟩ := r.keepV T hT hne ⟨hxp, by
      rw [Mapped.pending_val (Mapped.live_pending hl)]; exact hdie hex T hT hk hl, .inr hl⟩
    exact ⟨T', hT', sh, by rw [kp.live]; exact hl⟩
  constructor
  case c2 =>
    intro e' he' hk' hl'
    obtain ⟨e, he, hk, _, sh⟩ := hb e' he' hk' (.inr hl')
    rw [hval, sh.id]; exact h.c2 e he hk (sh.live hl')
  case c3 =>
    intro hd t ht
    rw [hval] at ht
    have htx : t ≠ x := fun hh => hvx (hh ▸ ht)
    obtain ⟨ho, T, hT, hid, hp, hk, hl, hall⟩ := h.c3 (r.des ▸ hd) t ht
    have hTx : T.id ≠ x := by rw [hid]; exact htx
    refine ⟨(r.op t htx).2 ho, ?_⟩
    obtain ⟨T', hT', sh⟩ := r.keepP T hT hTx hp
    have hids : ∀ T'', T'' ∈ s'.ents → ShrE cfg M.env F T T'' → ∀ a ∈ s'.ents, a.mapped.val? ≠ none → cfg.eqv a.key k = true →
        Cb.refresh a.id ∈ T''.mapped.cbs := by
      intro T'' _ sh'' a' ha' hav hak
      obtain ⟨a, ha, hak0, _, sa⟩ := hb a' ha' hak (.inl hav)
      rw [sh''.cbs, sa.id]
      exact hall a ha (not_none_of sa hav) hak0
    by_cases hex : M.ex
    · obtain ⟨T'', hT'', sh'', hl''⟩ := hlive hex T hT hTx hk (hl hex)
      exact ⟨T'', hT'', sh''.id.trans hid, sh''.pend.trans hp, by rw [sh''.key]; exact hk, fun _ => hl'', hids T'' hT'' sh''⟩
    · exact ⟨T', hT', sh.id.trans hid, sh.pend.trans hp, by rw [sh.key]; exact hk, fun hh => absurd hh hex, hids T' hT' sh⟩
  case t4 =>
    intro T' hT' hk' hl' old ho
    obtain ⟨T, hT, hk, hne, sh⟩ := hb T' hT' hk' (.inr hl')
    exact ht4 T' hT' T hT hne sh hk (sh.live hl') old (sh.cbs ▸ ho)
  case x3 =>
    intro hex e' he' hk' hv' T' hT' hcb hop
    obtain ⟨e, he, hk, hne, sh⟩ := hb e' he' hk' (.inl hv')
    have hTk' : cfg.eqv e'.key T'.key = true := ((w2'.cb T' hT' e'.id hcb).2 e' he' rfl).2
    have hTk : cfg.eqv T'.key k = true := hc.trans _ _ _ (hc.symm _ _ hTk') hk'
    by_cases hTx : T'.id = x
    · have := hnk T' hT' hTx (hTx ▸ hop); rw [hTk] at this; cases this
    · obtain ⟨T, hT, sT⟩ := r.bwd T' hT' hTx
      have hopT : T.id ∈ s.opens := by rw [← sT.id]; exact (r.op _ hTx).1 hop
      have hTl := h.x3 hex e he hk (not_none_of sh hv') T hT (by rw [← sT.cbs, ← sh.id]; exact hcb) hopT
      obtain ⟨T'', hT'', sh'', hl''⟩ := hlive hex T hT (by rw [← sT.id]; exact hTx) (sT.key ▸ hTk) hTl
      rw [eq_of_id w1' hT' hT'' (sT.id.trans sh''.id.symm)]; exact hl''
  case fr => intro t ht; rw [hval] at ht; have := h.fr t ht; omega

/-- A step that does not concern the key. -/
theorem LedP.frame {x : Nat} {k : K} (h : LedP cfg M s L k) (w2 : WF2 cfg s) (w1' : WF1 cfg s') (w2' : WF2 cfg s') (r : Spc cfg M.env F x s s')
    (hval : L'.valid k = L.valid k) (hused : L'.used k = L.used k) (hnx : s.nextId ≤ s'.nextId)
    (hx' : ∀ e ∈ s'.ents, e.id = x → cfg.eqv e.key k = true → e.mapped.val? = none ∧ e.mapped.live = false)
    (hvx : L.valid k ≠ some x) (hcbx : ∀ e ∈ s.ents, e.id ≠ x → Cb.refresh x ∉ e.mapped.cbs)
    (hnk : ∀ n ∈ s'.ents, n.id = x → x ∈ s'.opens → cfg.eqv n.key k = false) (hc : cfg.Ok)
    (hhit : ∀ o ∈ s.ents ++ s.limbo, cfg.eqv o.key k = true → ¬ F.hit o.id)
    (hdie : M.ex → ∀ T ∈ s.ents, cfg.eqv T.key k = true → T.mapped.live = true → ¬ F.die T.id T.key none) : LedP cfg M s' L' k := by
  have hidle : L'.idleLimit cfg.refresh k = L.idleLimit cfg.refresh k := by simp [Ledger.idleLimit, hused]
  refine h.frame0 w2 w1' w2' r hval hnx hx' hvx hnk hc ?_ hdie
  intro T' hT' T hT hne sh hk hl old ho
  obtain ⟨o, hom, hoid, hok, hcan⟩ := h.t4 T hT hk hl old ho
  have hox : o.id ≠ x := by
    intro hh; rw [hoid] at hh; subst hh
    exact hcbx T hT hne ho
  obtain ⟨o', ho', le⟩ := r.any o hom hox
  exact ⟨o', ho', le.id.trans hoid, by rw [le.key]; exact hok, by rw [le.can (hhit o hom hok), hidle]; exact hcan⟩

/-- No lookup of the key is under way. -/
theorem LedP.noLook {k : K} (hval : L'.valid k = none) (hl : ∀ e ∈ s'.ents, cfg.eqv e.key k = true → e.mapped.live = false)
    (hx : M.ex → ∀ e ∈ s'.ents, cfg.eqv e.key k = true → e.mapped.val? ≠ none → ∀ T ∈ s'.ents, Cb.refresh e.id ∈ T.mapped.cbs →
      T.id ∈ s'.opens → False) : LedP cfg M s' L' k where
  c2 := by intro e he hk h; rw [hl e he hk] at h; cases h
  c3 := by intro _ t ht; rw [hval] at ht; cases ht
  t4 := by intro e he hk h; rw [hl e he hk] at h; cases h
  x3 := fun hex e he hk hv T hT hcb ho => (hx hex e he hk hv T hT hcb ho).elim
  fr := by intro t ht; rw [hval] at ht; cases ht

/-- A lookup of the key has just been started. -/
theorem LedP.begun {x : Nat} {k : K} (hval : L'.valid k = some x) (w1' : WF1 cfg s') {n : Entry K V E} (hn : n ∈ s'.ents) (hid : n.id = x)
    (hk : cfg.eqv n.key k = true) (hl : n.mapped.live = true) (ho : x ∈ s'.opens)
    (hoth : ∀ e ∈ s'.ents, e.id ≠ x → cfg.eqv e.key k = true → e.mapped.live = false)
    (hcb : ∀ e ∈ s'.ents, cfg.eqv e.key k = true → e.mapped.val? ≠ none → Cb.refresh e.id ∈ n.mapped.cbs)
    (ht4 : ∀ old, Cb.refresh old ∈ n.mapped.cbs → ∃ o ∈ s'.ents ++ s'.limbo, o.id = old ∧ cfg.eqv o.key k = true ∧ o.canTp = L'.idleLimit cfg.refresh k)
    (hx3 : M.ex → ∀ e ∈ s'.ents, cfg.eqv e.key k = true → e.mapped.val? ≠ none → ∀ T ∈ s'.ents, T.id ≠ x → Cb.refresh e.id ∈ T.mapped.cbs →
      T.id ∈ s'.opens → False) : LedP cfg M s' L' k where
  c2 := by
    intro e he hke hle
    by_cases hex : e.id = x
    · rw [hex]; exact hval
    · rw [hoth e he hex hke] at hle; cases hle
  c3 := by
    intro _ t ht
    rw [hval] at ht
    simp only [Option.some.injEq] at ht
    subst ht
    exact ⟨ho, n, hn, hid, Mapped.live_pending hl, hk, fun _ => hl, fun a ha hv hk => hcb a ha hk hv⟩
  t4 := by
    intro T hT hkT hlT old hold
    by_cases hex : T.id = x
    · rw [eq_of_id w1' hT hn (hex.trans hid.symm)] at hold; exact ht4 old hold
    · rw [hoth T hT hex hkT] at hlT; cases hlT
  x3 := by
    intro hex e he hke hv T hT hcb' hop
    by_cases hTx : T.id = x
    · rw [eq_of_id w1' hT hn (hTx.trans hid.symm)]; exact hl
    · exact (hx3 hex e he hke hv T hT hTx hcb' hop).elim
  fr := by
    intro t ht
    rw [hval] at ht
    simp only [Option.some.injEq] at ht
    subst ht; rw [← hid]; exact w1'.lt n (List.mem_append_left _ hn)

/-- Waiters and strength in a step that changes one entry. -/
theorem LedG.spc {x : Nat} (h : LedG cfg M s L) (r : Spc cfg M.env F x s s') (hrsp : Rsp cfg L')
    (hw : ∀ t, t ≠ x → L'.wait t = L.wait t) (hrf : ∀ t, t ≠ x → L'.refr t = L.refr t) (hnx : s.nextId ≤ s'.nextId)
    (hwx : s'.nextId ≤ x → L'.wait x = [])
    (hn : ∀ n ∈ s'.ents, n.id = x → (x ∈ s'.opens → users n.mapped.cbs = L'.wait x ∧ (L'.refr x = true ↔ ∃ old, Cb.refresh old ∈ n.mapped.cbs)) ∧
      (M.ex → (cfg.weaken = false ∨ cfg.ptr = false ∨ cfg.maxSize = none) → n.mapped.strong = true))
    (hvic : M.ex → (cfg.weaken = false ∨ cfg.ptr = false ∨ cfg.maxSize = none) → ∀ i, cfg.weaken = false ∨ ¬ F.vic i) : LedG cfg M s' L' where
  rsp := hrsp
  wt := by
    intro T' hT' ho
    by_cases hx : T'.id = x
    · rw [hx]; exact ((hn T' hT' hx).1 (hx ▸ ho)).1
    · obtain ⟨T, hT, sh⟩ := r.bwd T' hT' hx
      have ho' := (r.op _ hx).1 ho
      rw [hw _ hx, sh.cbs, sh.id]
      exact h.wt T hT (sh.id ▸ ho')
  wf := by
    intro t ht
    by_cases hx : t = x
    · subst hx; exact hwx ht
    · rw [hw t hx]; exact h.wf t (by omega)
  rfw := by
    intro T' hT' ho
    by_cases hx : T'.id = x
    · rw [hx]; exact ((hn T' hT' hx).1 (hx ▸ ho)).2
    · obtain ⟨T, hT, sh⟩ := r.bwd T' hT' hx
      have ho' := (r.op _ hx).1 ho
      rw [hrf _ hx, sh.cbs, sh.id]
      exact h.rfw T hT (sh.id ▸ ho')
  st := by
    intro hex hcnd e' he'
    by_cases hx : e'.id = x
    · exact (hn e' he' hx).2 hex hcnd
    · obtain ⟨e, he, sh⟩ := r.bwd e' he' hx
      exact sh.wk (hvic hex hcnd e.id) (h.st hex hcnd e he)

/-! ### Steps that leave the ledger alone -/

/-- The effect is of no consequence for the ledger. -/
structure Quiet (cfg : Cfg K) (M : Md V) (F : Eff K V) (s : St K V E) (L : Ledger K V) : Prop where
  hit : ∀ i, ¬ F.hit i
  flag : ∀ i, ¬ F.flag i
  dieV : M.ex → ∀ e ∈ s.ents, ∀ v, e.mapped.val? = some v → e.expired M.env = false → F.die e.id e.key (some v) → DeadL cfg M.env L e.key v
  dieP : M.ex → ∀ e ∈ s.ents, e.mapped.live = true → ¬ F.die e.id e.key none
  vic : M.ex → (cfg.weaken = false ∨ cfg.ptr = false ∨ cfg.maxSize = none) → ∀ i, cfg.weaken = false ∨ ¬ F.vic i

theorem Quiet.idle : Quiet cfg M ({} : Eff K V) s L :=
  ⟨fun _ h => h, fun _ h => h, fun _ _ _ _ _ _ h => h.elim, fun _ _ _ _ h => h, fun _ _ _ => .inr (fun h => h)⟩

theorem id_ne_next (w : WF1 cfg s) {e : Entry K V E} (he : e ∈ s.ents) : e.id ≠ s.nextId := by
  have := w.lt e (List.mem_append_left _ he); omega

theorem cb_ne_next (w : WF1 cfg s) (w2 : WF2 cfg s) {e : Entry K V E} (he : e ∈ s.ents) : Cb.refresh s.nextId ∉ e.mapped.cbs := by
  intro h
  have h1 := (w2.cb e he _ h).1
  have h2 := w.lt e (List.mem_append_left _ he); omega

theorem Good.shr (hc : cfg.Ok) {X X' : Nat → Prop} (h : Good cfg M X s L) (w : WF1 cfg s') (r : Shr cfg M.env F s s') (q : Quiet cfg M F s L)
    (hX : ∀ i, X i → X' i) (hp : ∀ i ∈ s.delayQ, F.pop i → X' i) : Good cfg M X' s' L := by
  have w2 := h.wf2.shr r
  have hn' : ∀ e ∈ s'.ents, e.id ≠ s.nextId := by
    intro e he; rw [← r.same.nextId]; exact id_ne_next w he
  refine ⟨w, w2, h.dq.shr r hX hp, ?_, ?_, ?_⟩
  · exact h.g.spc (r.spc s.nextId) h.g.rsp (fun _ _ => rfl) (fun _ _ => rfl) (by rw [r.same.nextId]; exact Nat.le_refl _)
      (fun _ => h.g.wf _ (Nat.le_refl _)) (fun n hn hid => absurd hid (hn' n hn)) q.vic
  · intro k
    refine (h.v k).frame h.g.st (r.spc s.nextId) (.refl _ _) (fun e he hh => absurd hh (id_ne_next h.wf1 he)) (fun e he hh => absurd hh (hn' e he))
      (fun e _ _ _ => q.hit _) (fun e _ _ _ hf => absurd hf (q.flag _)) ?_
    intro hex e he hk v hv hxp hd
    exact h.g.rsp.deadL hk (q.dieV hex e he v hv hxp hd)
  · intro k
    exact (h.p k).frame h.wf2 w w2 (r.spc s.nextId) rfl rfl (by rw [r.same.nextId]; exact Nat.le_refl _)
      (fun e he hh => absurd hh (hn' e he)) (fun hh => by have := (h.p k).fr _ hh; omega) (fun e he _ => cb_ne_next h.wf1 h.wf2 he)
      (fun n hn hid => absurd hid (hn' n hn)) hc (fun o _ _ => q.hit _) (fun hex T hT _ hl => q.dieP hex T hT hl)

/-! ### Time passes -/

theorem reached_mono {a b : Int} (h : a ≤ b) {t : Option Int} (hr : reached a t = true) : reached b t = true := by
  cases t with
  | none => exact hr
  | some t => simp only [reached, decide_eq_true_eq] at hr ⊢; omega

theorem past_mono {a b : Time} (h1 : a.steady ≤ b.steady) (h2 : a.wall ≤ b.wall) {t : Option (Int × Option Int)} (h : a.past t = true) : b.past t = true := by
  match t with
  | none => cases h
  | some (t, w) =>
    simp only [Time.past, Bool.or_eq_true, decide_eq_true_eq] at h ⊢
    exact h.imp (fun h => Int.le_trans h h1) (reached_mono h2)

theorem not_past (now t : Time) (A : Int) (b : Bool) :
    ¬ now.past (some (t.steady + A, if b then some (t.wall + A) else none)) = true ↔ Younger b A t now := by
  cases b <;> simp [Time.past, reached, Younger] <;> omega

theorem expired_mono {a b : Env V} (h : a.le b) {e : Entry K V E} (hx : e.expired a = true) : e.expired b = true := by
  simp only [Entry.expired, Bool.or_eq_true] at hx ⊢
  rcases hx with ((hx | hx) | hx) | hx
  · left; left; left
    cases hm : e.mapped <;> rw [hm] at hx <;> simp [Mapped.expired] at hx ⊢
    · exact hx
    · cases hb : b.alive _
      · rfl
      · rw [h.alive _ hb] at hx; cases hx
  · exact .inl (.inl (.inr hx))
  · exact .inl (.inr (past_mono h.now h.wall hx))
  · exact .inr (reached_mono h.now hx)

theorem DeadL.mono {a b : Env V} (h : a.le b) {k : K} {v : V} (hd : DeadL cfg a L k v) : DeadL cfg b L k v := by
  rcases hd with hd | hd | ⟨h1, h2, h3, h4⟩
  · exact .inl (past_mono h.now h.wall hd)
  · exact .inr (.inl (reached_mono h.now hd))
  · refine .inr (.inr ⟨h1, h2, h3, ?_⟩)
    cases hb : b.alive v
    · rfl
    · rw [h.alive _ hb] at h4; cases h4

theorem Cfg.Untimed.not_dead (h : cfg.Untimed) {env : Env V} {k : K} {v : V} : ¬ DeadL cfg env L k v := by
  obtain ⟨h1, h2, h3⟩ := h
  rintro (h | h | ⟨a, b, c, d⟩)
  · simp [Ledger.ageLimit, h1] at h
  · simp [Ledger.idleLimit, h2, reached] at h
  · rcases h3 with h3 | h3 | h3
    · rw [h3] at a; cases a
    · rw [h3] at b; cases b
    · rw [h3] at c; cases c

theorem Good.advance {X} (h : Good cfg M X s L) (hem : M.ex → M.mo ∨ cfg.Untimed) {env : Env V} (hle : M.mo → M.env.le env) :
    Good cfg { M with env := env } X s L where
  wf1 := h.wf1
  wf2 := h.wf2
  dq := by
    refine ⟨h.dq.dl1, ?_, ?_, h.dq.nv⟩
    · intro hm d i hr a ha hq
      obtain ⟨t, h1, h2⟩ := h.dq.dl2 hm d i hr a ha hq
      refine ⟨t, h1, ?_⟩
      have := (hle hm).now
      show t ≤ env.now + d
      omega
    · intro hm hr a ha hv hf
      rcases h.dq.dl3 hm hr a ha hv hf with h1 | h1 | h1
      · exact .inl h1
      · exact .inr (.inl (expired_mono (hle hm) h1))
      · exact .inr (.inr h1)
  g := ⟨h.g.rsp, h.g.wt, h.g.wf, h.g.rfw, h.g.st⟩
  v := by
    intro k
    refine ⟨(h.v k).c1, ?_, ?_⟩
    · intro hm e he hk hv hg; exact expired_mono (hle hm) ((h.v k).g1 hm e he hk hv hg)
    · intro hex v hv
      rcases (h.v k).x1 hex v hv with hd | hd
      · rcases hem hex with hm | hu
        · exact .inl (hd.mono (hle hm))
        · exact absurd hd hu.not_dead
      · exact .inr hd
  p := fun k => ⟨(h.p k).c2, (h.p k).c3, (h.p k).t4, (h.p k).x3, (h.p k).fr⟩

/-! ### Ledger operations respect equality of keys -/

theorem Rsp.put (hc : cfg.Ok) (h : Rsp cfg L) (now keep k v) : Rsp cfg (L.put cfg.eqv now keep k v) := by
  intro a b hab
  obtain ⟨h1, h2, h3, h4, h5, h6⟩ := h a b hab
  simp only [Ledger.put, eqv_congr hc hab, h1, h2, h3, h4, h5, h6, and_self]
theorem Rsp.touch (hc : cfg.Ok) (h : Rsp cfg L) (now k) : Rsp cfg (L.touch cfg.eqv now k) := by
  intro a b hab
  obtain ⟨h1, h2, h3, h4, h5, h6⟩ := h a b hab
  simp only [Ledger.touch, eqv_congr hc hab, h1, h2, h3, h4, h5, h6, and_self]
theorem Rsp.missed (hc : cfg.Ok) (h : Rsp cfg L) (k) : Rsp cfg (L.missed cfg.eqv k) := by
  intro a b hab
  obtain ⟨h1, h2, h3, h4, h5, h6⟩ := h a b hab
  simp only [Ledger.missed, eqv_congr hc hab, h1, h2, h3, h4, h5, h6, and_self]
theorem Rsp.begin (hc : cfg.Ok) (h : Rsp cfg L) (k t rf) : Rsp cfg (L.begin cfg.eqv k t rf) := by
  intro a b hab
  obtain ⟨h1, h2, h3, h4, h5, h6⟩ := h a b hab
  simp only [Ledger.begin, eqv_congr hc hab, h1, h2, h3, h4, h5, h6, and_self]
theorem Rsp.forget (hc : cfg.Ok) (h : Rsp cfg L) (k rf) : Rsp cfg (L.forget cfg.eqv k rf) := by
  intro a b hab
  obtain ⟨h1, h2, h3, h4, h5, h6⟩ := h a b hab
  simp only [Ledger.forget, eqv_congr hc hab, h1, h2, h3, h4, h5, h6, and_self]
theorem Rsp.finish (h : Rsp cfg L) (now t v) : Rsp cfg (L.finish now t v) := by
  intro a b hab
  obtain ⟨h1, h2, h3, h4, h5, h6⟩ := h a b hab
  simp only [Ledger.finish, h1, h2, h3, h4, h5, h6, and_self]
theorem Rsp.abandon (h : Rsp cfg L) (t) : Rsp cfg (L.abandon t) := by
  intro a b hab
  obtain ⟨h1, h2, h3, h4, h5, h6⟩ := h a b hab
  simp only [Ledger.abandon, h1, h2, h3, h4, h5, h6, and_self]

theorem Rsp.join (h : Rsp cfg L) (t w) : Rsp cfg (L.join t w) := h
theorem Rsp.wipe (h : Rsp cfg L) : Rsp cfg L.wipe := by
  intro a b hab
  obtain ⟨h1, h2, h3, h4, h5, h6⟩ := h a b hab
  simp only [Ledger.wipe, h2, h3, h6, and_self]

/-- A key not concerned by a write. -/
theorem SameV.put {k a : K} (h : cfg.eqv a k = false) (now keep v) : SameV L (L.put cfg.eqv now keep k v) a := by
  constructor <;> simp [Ledger.put, h]

/-- The effect concerns only the key `k`, and it is not a hit. -/
structure Only (cfg : Cfg K) (M : Md V) (F : Eff K V) (s : St K V E) (k : K) : Prop where
  hit : ∀ i, ¬ F.hit i
  flag : ∀ e ∈ s.ents, F.flag e.id → cfg.eqv e.key k = true
  die : ∀ e ∈ s.ents, F.die e.id e.key e.mapped.val? → cfg.eqv e.key k = true
  vic : M.ex → (cfg.weaken = false ∨ cfg.ptr = false ∨ cfg.maxSize = none) → ∀ i, cfg.weaken = false ∨ ¬ F.vic i

/-- The step puts a (new) value of `k`, or an error, at the entry `x`. -/
theorem Good.put (hc : cfg.Ok) {X X' : Nat → Prop} (h : Good cfg M X s L) (hd : s.destroyed = false) {x : Nat} (w : WF1 cfg s')
    (r : Spc cfg M.env F x s s') {n : Entry K V E} (hn : SpcN cfg s s' x n) (dq' : DQ cfg M X' s') {k : K} (hnk : cfg.eqv n.key k = true)
    (hF : Only cfg M F s k) (hxo : x ∉ s'.opens) (hnx : s.nextId ≤ s'.nextId) (hxlt : x < s'.nextId)
    (hxk : ∀ e ∈ s.ents, e.id = x → cfg.eqv e.key k = true) (hvx : ∀ a, cfg.eqv a k = false → L.valid a ≠ some x)
    (hnp : n.isPending = false) {o : Option V} (ho : ∀ v, n.mapped.val? = some v → o = some v) (hox : M.ex → n.mapped.val? = o)
    (hst : M.ex → (cfg.weaken = false ∨ cfg.ptr = false ∨ cfg.maxSize = none) → n.mapped.strong = true)
    (hold : ∀ e' ∈ s'.ents, e'.id ≠ x → cfg.eqv e'.key k = true → e'.mapped.val? = none ∧ e'.mapped.live = false)
    {keep : Bool} (ht : n.mapped.val? ≠ none → n.refreshing = false ∧ ∀ a, cfg.eqv a k = true →
      n.expTp = (L.put cfg.eqv M.env.now keep k o).ageLimit cfg.maxAge cfg.wall a ∧
      n.canTp = (L.put cfg.eqv M.env.now keep k o).idleLimit cfg.refresh a ∧
      n.refTp = (L.put cfg.eqv M.env.now keep k o).dueAt cfg.refresh a) :
    Good cfg M X' s' (L.put cfg.eqv M.env.now keep k o) := by
  have w2 := h.wf2.special hc w r hd hn
  have huniq : ∀ e' ∈ s'.ents, e'.id = x → e' = n := fun e' he' hh => eq_of_id w he' hn.mem (hh.trans hn.id.symm)
  have hnl : n.mapped.live = false := by
    cases hh : n.mapped.live
    · rfl
    · have := Mapped.live_pending hh; rw [Entry.isPending, this] at hnp; cases hnp
  have hkk : ∀ {a b : K}, cfg.eqv a b = true → cfg.eqv a k = true → cfg.eqv b k = true := fun h1 h2 => hc.trans _ _ _ (hc.symm _ _ h1) h2
  refine ⟨w, w2, dq', ?_, ?_, ?_⟩
  · refine h.g.spc r (h.g.rsp.put hc _ _ _ _) (fun _ _ => rfl) (fun _ _ => rfl) hnx (fun hh => absurd hh (by omega)) ?_ hF.vic
    intro e he hid
    exact ⟨fun hh => absurd hh hxo, by rw [huniq e he hid]; exact hst⟩
  · intro a
    by_cases hak : cfg.eqv a k = true
    · have hcur : (L.put cfg.eqv M.env.now keep k o).cur a = o := by simp [Ledger.put, hak]
      refine LedV.written ?_ (by simp [Ledger.put, hak]) (by simp [Ledger.put, hak]) ?_
      · intro e he hea v hv
        by_cases hex : e.id = x
        · obtain rfl := huniq e he hex
          obtain ⟨t0, t1⟩ := ht (by simp [hv])
          obtain ⟨t1, t2, t3⟩ := t1 a hak
          exact ⟨by rw [hcur]; exact ho v hv, t1, t2, t3, t0⟩
        · rw [(hold e he hex (hc.trans _ _ _ hea hak)).1] at hv; cases hv
      · intro hex v hv
        rw [hcur] at hv
        exact ⟨n, hn.mem, hc.trans _ _ _ hnk (hc.symm _ _ hak), by rw [hox hex, hv]⟩
    · have hak : cfg.eqv a k = false := by simpa using hak
      have hno : ∀ {e : Entry K V E}, cfg.eqv e.key a = true → cfg.eqv e.key k = true → False := by
        intro e h1 h2; rw [hkk h1 h2] at hak; cases hak
      refine (h.v a).frame h.g.st r (.put hak _ _ _) ?_ ?_ (fun e _ _ _ => hF.hit _) ?_ ?_ (by intro _ _ _ _ h; simp [Ledger.put, hak] at h; exact .inl h)
      · intro e he hid hea; exact (hno hea (hxk e he hid)).elim
      · intro e he hid hea; exact (hno hea (by rw [huniq e he hid]; exact hnk)).elim
      · intro e he hea _ hf; exact (hno hea (hF.flag e he hf)).elim
      · intro _ e he hea v hv _ hdi; exact (hno hea (hF.die e he (by rw [hv]; exact hdi))).elim
  · intro a
    by_cases hak : cfg.eqv a k = true
    · refine LedP.noLook (by simp [Ledger.put, hak]) ?_ ?_
      · intro e he hea
        by_cases hex : e.id = x
        · rw [huniq e he hex]; exact hnl
        · exact (hold e he hex (hc.trans _ _ _ hea hak)).2
      · intro _ e he hea hv T hT hcb hop
        by_cases hex : e.id = x
        · have hTx : T.id ≠ x := fun hh => hxo (hh ▸ hop)
          obtain ⟨T0, hT0, sh⟩ := r.bwd T hT hTx
          rw [hex, sh.cbs] at hcb
          exact hn.cbx T0 hT0 (by rw [← sh.id]; exact hTx) hcb
        · exact hv (hold e he hex (hc.trans _ _ _ hea hak)).1
    · have hak : cfg.eqv a k = false := by simpa using hak
      have hno : ∀ {e : Entry K V E}, cfg.eqv e.key a = true → cfg.eqv e.key k = true → False := by
        intro e h1 h2; rw [hkk h1 h2] at hak; cases hak
      refine (h.p a).frame h.wf2 w w2 r (by simp [Ledger.put, hak]) (by simp [Ledger.put, hak]) hnx ?_ (hvx a hak) hn.cbx
        (fun _ _ _ hh => absurd hh hxo) hc (fun o _ _ => hF.hit _) ?_
      · intro e he hid hea; exact (hno hea (by rw [huniq e he hid]; exact hnk)).elim
      · intro _ T hT hTa hl hdi
        exact hno hTa (hF.die T hT (by rw [Mapped.pending_val (Mapped.live_pending hl)]; exact hdi))

/-- The step ends the lookup `x` without result, or starts one and gives it up. -/
theorem Good.dead (hc : cfg.Ok) {X X' : Nat → Prop} (h : Good cfg M X s L) (hd : s.destroyed = false) {x : Nat} (w : WF1 cfg s')
    (r : Spc cfg M.env F x s s') {n : Entry K V E} (hn : SpcN cfg s s' x n) (dq' : DQ cfg M X' s') (hrsp : Rsp cfg L')
    (hw : L'.wait = L.wait) (hrf : ∀ t, t ≠ x → L'.refr t = L.refr t)
    (hV : ∀ a, SameV L L' a) (hP : ∀ a, L'.valid a = L.valid a ∧ L.valid a ≠ some x ∨ L'.valid a = none ∧ ∀ e' ∈ s'.ents, cfg.eqv e'.key a = true → e'.mapped.live = false)
    (hhit : ∀ i, ¬ F.hit i) (hflag : ∀ e ∈ s.ents, F.flag e.id → ∀ a, cfg.eqv e.key a = true → L'.tried a = true)
    (hdV : M.ex → ∀ e ∈ s.ents, e.mapped.val? ≠ none → ¬ F.die e.id e.key e.mapped.val?)
    (hdP : ∀ e ∈ s.ents, e.mapped.live = true → ¬ F.die e.id e.key none)
    (hvic : M.ex → (cfg.weaken = false ∨ cfg.ptr = false ∨ cfg.maxSize = none) → ∀ i, cfg.weaken = false ∨ ¬ F.vic i)
    (hxo : x ∉ s'.opens) (hnx : s.nextId ≤ s'.nextId) (hxlt : x < s'.nextId)
    (hxs : ∀ e ∈ s.ents, e.id = x → e.mapped.val? = none)
    (hnv : n.mapped.val? = none) (hnl : n.mapped.live = false)
    (hst : M.ex → (cfg.weaken = false ∨ cfg.ptr = false ∨ cfg.maxSize = none) → n.mapped.strong = true)
    (hset : ∀ a, ∀ e' ∈ s'.ents, cfg.eqv e'.key a = true → e'.mapped.val? ≠ none → L'.tried a = true → L.tried a = true ∨ e'.refreshing = true := by
      intro _ _ _ _ _ h; exact .inl h) :
    Good cfg M X' s' L' := by
  have w2 := h.wf2.special hc w r hd hn
  have huniq : ∀ e' ∈ s'.ents, e'.id = x → e' = n := fun e' he' hh => eq_of_id w he' hn.mem (hh.trans hn.id.symm)
  refine ⟨w, w2, dq', ?_, ?_, ?_⟩
  · refine h.g.spc r hrsp (fun _ _ => by rw [hw]) hrf hnx (fun hh => absurd hh (by omega)) ?_ hvic
    intro e he hid
    exact ⟨fun hh => absurd hh hxo, by rw [huniq e he hid]; exact hst⟩
  · intro a
    refine (h.v a).frame h.g.st r (hV a) (fun e he hid _ => hxs e he hid) (fun e he hid _ => by rw [huniq e he hid]; exact hnv)
      (fun e _ _ _ => hhit _) (fun e he hea _ hf => hflag e he hf a hea) ?_ (hset a)
    intro hex e he _ v hv _ hdi
    exact absurd (by rw [hv]; exact hdi) (hdV hex e he (by simp [hv]))
  · intro a
    rcases hP a with ⟨hv, hvx⟩ | ⟨hv, hl⟩
    · exact (h.p a).frame h.wf2 w w2 r hv (hV a).used hnx (fun e he hid _ => by rw [huniq e he hid]; exact ⟨hnv, hnl⟩) hvx hn.cbx
        (fun _ _ _ hh => absurd hh hxo) hc (fun o _ _ => hhit _) (fun _ T hT _ hl => hdP T hT hl)
    · refine LedP.noLook hv hl ?_
      intro hex e' he' hk hv' T' hT' hcb hop
      have hTx : T'.id ≠ x := fun hh => hxo (hh ▸ hop)
      have hex' : e'.id ≠ x := fun hh => hv' (by rw [huniq e' he' hh]; exact hnv)
      obtain ⟨T, hT, sT⟩ := r.bwd T' hT' hTx
      obtain ⟨e, he, sh⟩ := r.bwd e' he' hex'
      have hcb0 : Cb.refresh e.id ∈ T.mapped.cbs := by rw [← sT.cbs, ← sh.id]; exact hcb
      have hopT : T.id ∈ s.opens := by rw [← sT.id]; exact (r.op _ hTx).1 hop
      have hek : cfg.eqv e.key a = true := sh.key ▸ hk
      have hTl := (h.p a).x3 hex e he hek (not_none_of sh hv') T hT hcb0 hopT
      have hTk : cfg.eqv T.key a = true := hc.trans _ _ _ (hc.symm _ _ ((h.wf2.cb T hT e.id hcb0).2 e he rfl).2) hek
      obtain ⟨p1, p2, _⟩ := h.wf2.pen T hT (Mapped.live_pending hTl)
      have hxp : T.expired M.env = false := by
        cases hm : T.mapped <;> simp_all [Mapped.live, Entry.expired, Mapped.expired, Mapped.holdsError, reached]
      obtain ⟨T'', hT'', sh'', kp⟩ := r.keepV T hT (by rw [← sT.id]; exact hTx)
        ⟨hxp, by rw [Mapped.pending_val (Mapped.live_pending hTl)]; exact hdP T hT hTl, .inr hTl⟩
      have := hl T'' hT'' (by rw [sh''.key]; exact hTk)
      rw [kp.live, hTl] at this; cases this

/-- The step starts a lookup of `k` as entry `x`. -/
theorem Good.begun (hc : cfg.Ok) {X X' : Nat → Prop} (h : Good cfg M X s L) (hd : s.destroyed = false) {x : Nat} (hxn : x = s.nextId) (w : WF1 cfg s')
    (r : Spc cfg M.env F x s s') {n : Entry K V E} (hn : SpcN cfg s s' x n) (dq' : DQ cfg M X' s') {k : K} (hnk : cfg.eqv n.key k = true) {rf : Bool}
    (hF : Only cfg M F s k) (hdie : ∀ e ∈ s.ents, ¬ F.die e.id e.key e.mapped.val?) (hflag : ∀ i, F.flag i → rf = true)
    (hxo : x ∈ s'.opens) (hnx : s'.nextId = s.nextId + 1) (hnl : n.mapped.live = true)
    (hoth : ∀ e ∈ s'.ents, e.id ≠ x → cfg.eqv e.key k = true → e.mapped.live = false)
    (hcb : ∀ e ∈ s'.ents, cfg.eqv e.key k = true → e.mapped.val? ≠ none → Cb.refresh e.id ∈ n.mapped.cbs)
    (hold : ∀ old, Cb.refresh old ∈ n.mapped.cbs → ∃ e ∈ s.ents, e.id = old ∧ cfg.eqv e.key k = true ∧ e.mapped.val? ≠ none)
    (hfr : ∀ e ∈ s.ents, cfg.eqv e.key k = true → e.mapped.live = false)
    (hus : users n.mapped.cbs = []) (hrf : rf = true ↔ ∃ old, Cb.refresh old ∈ n.mapped.cbs)
    (hst : M.ex → (cfg.weaken = false ∨ cfg.ptr = false ∨ cfg.maxSize = none) → n.mapped.strong = true)
    (hset : rf = true → ∀ e' ∈ s'.ents, cfg.eqv e'.key k = true → e'.mapped.val? ≠ none → e'.refreshing = true) :
    Good cfg M X' s' (L.begin cfg.eqv k x rf) := by
  have w2 := h.wf2.special hc w r hd hn
  have huniq : ∀ e' ∈ s'.ents, e'.id = x → e' = n := fun e' he' hh => eq_of_id w he' hn.mem (hh.trans hn.id.symm)
  have hnv : n.mapped.val? = none := Mapped.pending_val (Mapped.live_pending hnl)
  have hnext : ∀ e ∈ s.ents, e.id ≠ x := fun e he => by rw [hxn]; exact id_ne_next h.wf1 he
  have hkk : ∀ {a b : K}, cfg.eqv a b = true → cfg.eqv a k = true → cfg.eqv b k = true := fun h1 h2 => hc.trans _ _ _ (hc.symm _ _ h1) h2
  refine ⟨w, w2, dq', ?_, ?_, ?_⟩
  · refine h.g.spc r (h.g.rsp.begin hc _ _ _) (fun _ _ => rfl) (fun t ht => by simp [Ledger.begin, ht]) (by omega) (fun hh => by omega) ?_ hF.vic
    intro e he hid
    obtain rfl := huniq e he hid
    refine ⟨fun _ => ⟨?_, ?_⟩, hst⟩
    · rw [hus]; exact (h.g.wf x (by omega)).symm
    · simp only [Ledger.begin, if_true]; exact hrf
  · intro a
    refine (h.v a).frame h.g.st r ⟨rfl, rfl, rfl, rfl, ?_⟩ (fun e he hid _ => absurd hid (hnext e he)) (fun e he hid _ => by rw [huniq e he hid]; exact hnv)
      (fun e _ _ _ => hF.hit _) ?_ ?_ ?_
    rotate_right
    · intro e' he' hk hv ht
      simp only [Ledger.begin] at ht
      split at ht
      · rename_i hh
        simp only [Bool.and_eq_true] at hh
        exact .inr (hset hh.2 e' he' (hc.trans _ _ _ hk hh.1) hv)
      · exact .inl ht
    · intro ht; simp only [Ledger.begin]; split
      · rfl
      · exact ht
    · intro e he hea _ hf
      simp [Ledger.begin, hkk hea (hF.flag e he hf), hflag _ hf]
    · intro _ e he _ v hv _ hdi; exact absurd (by rw [hv]; exact hdi) (hdie e he)
  · intro a
    by_cases hak : cfg.eqv a k = true
    · refine LedP.begun (x := x) (by simp [Ledger.begin, hak]) w hn.mem hn.id (hc.trans _ _ _ hnk (hc.symm _ _ hak)) hnl hxo
        (fun e he hid hea => hoth e he hid (hc.trans _ _ _ hea hak)) (fun e he hea => hcb e he (hc.trans _ _ _ hea hak)) ?_ ?_
      · intro old ho
        obtain ⟨e, he, rfl, hek, hv⟩ := hold old ho
        obtain ⟨o', ho', le⟩ := r.any e (List.mem_append_left _ he) (hnext e he)
        have hea := hc.trans _ _ _ hek (hc.symm _ _ hak)
        obtain ⟨v, hv⟩ := Option.ne_none_iff_exists'.1 hv
        exact ⟨o', ho', le.id, by rw [le.key]; exact hea, by rw [le.can (hF.hit _)]; exact ((h.v a).c1 e he hea v hv).2.2.1⟩
      · intro hex e' he' hk hv' T' hT' hTx hcb hop
        have hex' : e'.id ≠ x := fun hh => hv' (by rw [huniq e' he' hh]; exact hnv)
        obtain ⟨T, hT, sT⟩ := r.bwd T' hT' hTx
        obtain ⟨e, he, sh⟩ := r.bwd e' he' hex'
        have hcb0 : Cb.refresh e.id ∈ T.mapped.cbs := by rw [← sT.cbs, ← sh.id]; exact hcb
        have hopT : T.id ∈ s.opens := by rw [← sT.id]; exact (r.op _ hTx).1 hop
        have hek : cfg.eqv e.key a = true := sh.key ▸ hk
        have hTl := (h.p a).x3 hex e he hek (not_none_of sh hv') T hT hcb0 hopT
        have hTk : cfg.eqv T.key a = true := hc.trans _ _ _ (hc.symm _ _ ((h.wf2.cb T hT e.id hcb0).2 e he rfl).2) hek
        rw [hfr T hT (hc.trans _ _ _ hTk hak)] at hTl; cases hTl
    · have hak : cfg.eqv a k = false := by simpa using hak
      have hnka : ∀ e ∈ s'.ents, e.id = x → cfg.eqv e.key a = false := by
        intro e he hid
        cases hh : cfg.eqv e.key a
        · rfl
        · rw [huniq e he hid] at hh; rw [hkk hh hnk] at hak; cases hak
      refine (h.p a).frame h.wf2 w w2 r (by simp [Ledger.begin, hak]) rfl (by omega) ?_ (fun hh => by have := (h.p a).fr _ hh; omega) hn.cbx
        (fun e he hid _ => hnka e he hid) hc (fun o _ _ => hF.hit _) ?_
      · intro e he hid hea; rw [hnka e he hid] at hea; cases hea
      · intro _ T hT hTa hl hdi
        exact hdie T hT (by rw [Mapped.pending_val (Mapped.live_pending hl)]; exact hdi)

theorem Good.fresh {X} (h : Good cfg M X s L) (a : K) : L.valid a ≠ some s.nextId := by
  intro hh; have := (h.p a).fr _ hh; omega

/-- The user asked in vain. -/
theorem Good.missed (hc : cfg.Ok) {X} (h : Good cfg M X s L) {k : K}
    (hx : ∀ e ∈ s.ents, cfg.eqv e.key k = true → e.mapped.val? ≠ none → e.expired M.env = true) : Good cfg M X s (L.missed cfg.eqv k) where
  wf1 := h.wf1
  wf2 := h.wf2
  dq := h.dq
  g := ⟨h.g.rsp.missed hc k, h.g.wt, h.g.wf, h.g.rfw, h.g.st⟩
  v := by
    intro a
    refine ⟨(h.v a).c1, ?_, (h.v a).x1⟩
    intro hm e he hea hv hg
    simp only [Ledger.missed] at hg
    split at hg
    · rename_i hak; exact hx e he (hc.trans _ _ _ hea hak) hv
    · exact (h.v a).g1 hm e he hea hv hg
  p := fun a => ⟨(h.p a).c2, (h.p a).c3, (h.p a).t4, (h.p a).x3, (h.p a).fr⟩

/-- Everything of a key is removed. -/
theorem Good.erased (hc : cfg.Ok) {X} (h : Good cfg M X s L) (w : WF1 cfg s') (r : Shr cfg M.env F s s') {k : K} (hF : Only cfg M F s k)
    (hp : ∀ i, ¬ F.pop i) (hcl : ∀ e ∈ s'.ents, cfg.eqv e.key k = true → e.mapped.val? = none ∧ e.mapped.live = false) :
    Good cfg M X s' (L.put cfg.eqv M.env.now false k none) := by
  have w2 := h.wf2.shr r
  have hn' : ∀ e ∈ s'.ents, e.id ≠ s.nextId := by
    intro e he; rw [← r.same.nextId]; exact id_ne_next w he
  have hkk : ∀ {a b : K}, cfg.eqv a b = true → cfg.eqv a k = true → cfg.eqv b k = true := fun h1 h2 => hc.trans _ _ _ (hc.symm _ _ h1) h2
  refine ⟨w, w2, h.dq.shr r (fun _ h => h) (fun i _ hh => absurd hh (hp i)), ?_, ?_, ?_⟩
  · exact h.g.spc (r.spc s.nextId) (h.g.rsp.put hc _ _ _ _) (fun _ _ => rfl) (fun _ _ => rfl) (by rw [r.same.nextId]; exact Nat.le_refl _)
      (fun _ => h.g.wf _ (Nat.le_refl _)) (fun n hn hid => absurd hid (hn' n hn)) hF.vic
  · intro a
    by_cases hak : cfg.eqv a k = true
    · exact LedV.removed (fun e he hea => (hcl e he (hc.trans _ _ _ hea hak)).1) (by simp [Ledger.put, hak])
    · have hak : cfg.eqv a k = false := by simpa using hak
      have hno : ∀ {e : Entry K V E}, cfg.eqv e.key a = true → cfg.eqv e.key k = true → False := by
        intro e h1 h2; rw [hkk h1 h2] at hak; cases hak
      refine (h.v a).frame h.g.st (r.spc s.nextId) (.put hak _ _ _) (fun e he hh => absurd hh (id_ne_next h.wf1 he)) (fun e he hh => absurd hh (hn' e he))
        (fun e _ _ _ => hF.hit _) (fun e he hea _ hf => (hno hea (hF.flag e he hf)).elim) ?_ (by intro _ _ _ _ h; simp [Ledger.put, hak] at h; exact .inl h)
      intro _ e he hea v hv _ hdi; exact (hno hea (hF.die e he (by rw [hv]; exact hdi))).elim
  · intro a
    by_cases hak : cfg.eqv a k = true
    · exact LedP.noLook (by simp [Ledger.put, hak]) (fun e he hea => (hcl e he (hc.trans _ _ _ hea hak)).2)
        (fun _ e he hea hv => absurd (hcl e he (hc.trans _ _ _ hea hak)).1 hv)
    · have hak : cfg.eqv a k = false := by simpa using hak
      have hno : ∀ {e : Entry K V E}, cfg.eqv e.key a = true → cfg.eqv e.key k = true → False := by
        intro e h1 h2; rw [hkk h1 h2] at hak; cases hak
      refine (h.p a).frame h.wf2 w w2 (r.spc s.nextId) (by simp [Ledger.put, hak]) (by simp [Ledger.put, hak]) (by rw [r.same.nextId]; exact Nat.le_refl _)
        (fun e he hh => absurd hh (hn' e he)) (h.fresh a) (fun e he _ => cb_ne_next h.wf1 h.wf2 he)
        (fun n hn hid => absurd hid (hn' n hn)) hc (fun o _ _ => hF.hit _) ?_
      intro _ T hT hTa hl hdi
      exact hno hTa (hF.die T hT (by rw [Mapped.pending_val (Mapped.live_pending hl)]; exact hdi))

/-- Nothing is stored any more. -/
theorem Good.wiped {X} (h : Good cfg M X s L) (w : WF1 cfg s') (w2 : WF2 cfg s') (dq : DQ cfg M X s')
    (hcl : ∀ e ∈ s'.ents, e.mapped.val? = none ∧ e.mapped.live = false) (hnx : s'.nextId = s.nextId)
    (hwt : ∀ T' ∈ s'.ents, T'.id ∈ s'.opens → ∃ T ∈ s.ents, T'.id = T.id ∧ T.id ∈ s.opens ∧ T'.mapped.cbs = T.mapped.cbs)
    (hst : M.ex → (cfg.weaken = false ∨ cfg.ptr = false ∨ cfg.maxSize = none) → ∀ e ∈ s'.ents, e.mapped.strong = true) : Good cfg M X s' L.wipe where
  wf1 := w
  wf2 := w2
  dq := dq
  g := by
    refine ⟨h.g.rsp.wipe, ?_, ?_, ?_, hst⟩
    · intro T' hT' ho
      obtain ⟨T, hT, h1, h2, h3⟩ := hwt T' hT' ho
      rw [h1, h3]; exact h.g.wt T hT h2
    · rw [hnx]; exact h.g.wf
    · intro T' hT' ho
      obtain ⟨T, hT, h1, h2, h3⟩ := hwt T' hT' ho
      rw [h1, h3]; exact h.g.rfw T hT h2
  v := fun a => LedV.removed (fun e he _ => (hcl e he).1) rfl
  p := fun a => LedP.noLook rfl (fun e he _ => (hcl e he).2) (fun _ e he _ hv => absurd (hcl e he).1 hv)

end Hoard
