import Verif.TimersLemmas
/-! Helper lemmas: the ledger is kept as long as no handler is late. -/
namespace Hoard.Timers
open Spec
variable {K V E : Type} {cfg : Cfg K} {env : Env V}

theorem NoEvictT_snoc (t : TSt K V E) (h : THist K V E) (env : Env V) (e : Ev K V E) :
    NoEvictT cfg t (h ++ [(env, e)]) ↔ NoEvictT cfg t h ∧ NoEvict cfg (next cfg env (runT cfg t h).1 e).1.s := by
  induction h generalizing t with
  | nil => simp [NoEvictT, runT]
  | cons p h ih => obtain ⟨env', e'⟩ := p; simp only [List.cons_append, NoEvictT, runT, ih, and_assoc]

/-- The invariant of `Verif.InvAll`, with the entries whose handlers are queued excepted from waiting in the delay queue. -/
structure TGood (cfg : Cfg K) (M : Md V) (t : TSt K V E) (L : Ledger K V) : Prop where
  good : Good cfg M (· ∈ t.queue) t.s L
  due : ∀ e ∈ t.s.ents, e.id ∈ t.queue → e.isPending = false ∧ (M.mo → reached M.env.now e.refTp = true)

theorem reached_mono {a b : Int} (h : a ≤ b) {t : Option Int} (hr : reached a t = true) : reached b t = true := by
  cases t with
  | none => cases hr
  | some u => simp [reached] at hr ⊢; omega

theorem TGood.advance {M : Md V} {t : TSt K V E} {L : Ledger K V} (h : TGood cfg M t L) (hem : M.ex → M.mo ∨ cfg.Untimed) {env : Env V} (hle : M.mo → M.env.le env) :
    TGood cfg { M with env := env } t L :=
  ⟨h.good.advance hem hle, fun e he hq => ⟨(h.due e he hq).1, fun hm => reached_mono (hle hm).now ((h.due e he hq).2 hm)⟩⟩

theorem handler_eq (t : TSt K V E) (i : Nat) (r : Res V E) (b : Beh V E) :
    (t.s.destroyed = true ∨ t.s.findAny i = none) ∧ next cfg env t (.handler i r b) = ({ t with queue := t.queue.erase i }, {}) ∨
    t.s.destroyed = false ∧ ∃ e, t.s.findAny i = some e ∧
      next cfg env t (.handler i r b) = ({ s := (refresh cfg env t.s e r b).1, queue := t.queue.erase i }, (refresh cfg env t.s e r b).2) := by
  cases hd : t.s.destroyed with
  | true => exact .inl ⟨.inl rfl, by simp [next, hd]⟩
  | false =>
    cases hf : t.s.findAny i with
    | none => exact .inl ⟨.inr rfl, by simp [next, hd, hf]⟩
    | some e => exact .inr ⟨rfl, e, rfl, by simp [next, hd, hf]⟩

theorem find_any_none {s : St K V E} {i : Nat} (h : s.findAny i = none) : ∀ x ∈ s.ents, x.id ≠ i := by
  unfold St.findAny at h
  rw [List.find?_append] at h
  cases hf : s.ents.find? (fun e => e.id == i) with
  | some x => rw [hf] at h; simp at h
  | none =>
    rw [List.find?_eq_none] at hf
    exact fun x hx => by simpa using hf x hx

/-- What a handler does that is in time: nothing, or a refresh. -/
theorem handler_ok (hc : cfg.Ok) {M : Md V} {t : TSt K V E} {L : Ledger K V} (h : TGood cfg M t L) (htm : M.tm) (ti : TInv t) (i : Nat) (r : Res V E) (b : Beh V E)
    (hq : i ∈ t.queue) (hin : InTime cfg M.env t (.handler i r b)) :
    Good cfg M (· ∈ t.queue.erase i) (next cfg M.env t (.handler i r b)).1.s
      (L.after cfg.eqv cfg.resolver M.env.now (.tick r b) (next cfg M.env t (.handler i r b)).2) ∧
    (M.mo → TickOut cfg M L t.s.nextId (next cfg M.env t (.handler i r b)).2) := by
  have her : ∀ j, j ∈ t.queue → j ≠ i → j ∈ t.queue.erase i := fun j h1 h2 => (List.mem_erase_of_ne h2).2 h1
  have idle : (∀ x ∈ t.s.ents, x.id ≠ i) → Good cfg M (· ∈ t.queue.erase i) t.s L := fun hx =>
    h.good.dropX fun a ha hq _ _ => .inr (her _ hq (hx a ha))
  rcases handler_eq (cfg := cfg) (env := M.env) t i r b with ⟨h1, h2⟩ | ⟨hd, e, hf, h2⟩
  · rw [h2]
    refine ⟨idle ?_, fun _ => .inl rfl⟩
    rcases h1 with h1 | h1
    · rw [h.good.wf2.opD h1]; simp
    · exact find_any_none h1
  · have hi := find_any hf
    rw [h2]
    by_cases he : e ∈ t.s.ents
    · have hnp := (h.due e he (hi ▸ hq)).1
      obtain ⟨g1, g2, _⟩ := refresh_okX (X := (· ∈ t.queue.erase i)) hc (h.good.dropX fun a ha hq _ _ => by
        by_cases hai : a.id = i
        · exact .inr (.inl (hai.trans hi.symm))
        · exact .inr (.inr (her _ hq hai))) hd he hnp (h.good.dq.noVoid htm e he) r b
      refine ⟨g1, fun hmo => ?_⟩
      rcases g2 with ⟨g2, _⟩ | ⟨g2, g3, g4⟩
      · exact .inl g2
      · right
        obtain ⟨v, hv⟩ := Option.ne_none_iff_exists'.1 (refr_of hc h.good.wf2 he hnp g3 g4 (h.good.dq.noVoid htm e he)).val
        obtain ⟨c1, c2, c3, c4, c5⟩ := (h.good.v e.key).c1 e he (hc.refl _) v hv
        refine ⟨e.key, g2, ⟨v, valid_of (h.good) he (hc.refl _) hv g4⟩, ?_, ?_, ?_⟩
        · rw [← c4]; exact (h.due e he (hi ▸ hq)).2 hmo
        · intro hex
          cases hva : L.valid e.key with
          | none => rfl
          | some t =>
            obtain ⟨_, T, hT, _, _, hk, hl, _⟩ := (h.good.p e.key).c3 hd t hva
            have := (h.good.wf2.vc e he T hT v hv (hl hex) (hc.symm _ _ hk)).2
            rw [g3] at this; cases this
        · rw [g3] at c5
          cases ht : L.tried e.key
          · rfl
          · rw [ht] at c5; simp at c5
    · have hlate := (find_any_linked hf).resolve_left he
      rcases refresh_calls (cfg := cfg) (env := M.env) t.s e r b with ⟨_, g2, g3⟩ | g1
      · simp only [g2, g3]
        exact ⟨idle hlate, fun _ => .inl rfl⟩
      · obtain ⟨x, hx, hxi⟩ := hin (by rw [h2]; simp only; rw [g1]; simp)
        exact absurd hxi (hlate x hx)

/-- One step. -/
theorem TGood.next (hc : cfg.Ok) {M : Md V} {t : TSt K V E} {L : Ledger K V} (h : TGood cfg M t L) (htm : M.tm) (ti : TInv t) (e : Ev K V E) (he : e.ok cfg M.env t)
    (hin : InTime cfg M.env t e) (hx : M.ex → NoEvict cfg (next cfg M.env t e).1.s) :
    TGood cfg M (next cfg M.env t e).1 (after cfg.eqv cfg.resolver M.env.now L e (next cfg M.env t e).2) := by
  have l := next_life (env := M.env) hc t e he
  have hold : ∀ x ∈ (Timers.next cfg M.env t e).1.s.ents, x.id ∈ t.queue → x.isPending = false ∧ (M.mo → reached M.env.now x.refTp = true) := by
    intro x hx hq
    obtain ⟨q1, q2, q3⟩ := ti.q _ hq
    rcases l.bwd x hx with ⟨y, hy, tn⟩ | ⟨h1, _⟩
    · rw [tn.id] at q1 q2 hq
      obtain ⟨s1, s2⟩ := tn.set q1 q2
      obtain ⟨d1, d2⟩ := h.due y hy hq
      exact ⟨s2 d1, fun hm => by rw [s1]; exact d2 hm⟩
    · omega
  cases e with
  | op o => exact ⟨step_okX hc h.good o he.1 he.2 hx, hold⟩
  | expire i =>
    refine ⟨(unqueued hc i h.good).dropX fun a _ hq _ _ => .inr ?_, ?_⟩
    · rcases hq with hq | hq
      · exact List.mem_append.2 (.inr (by simp [hq]))
      · exact List.mem_append.2 (.inl hq)
    · intro x hx hq
      rcases List.mem_append.1 hq with hq | hq
      · exact hold x hx hq
      · simp at hq
        obtain ⟨y, hy, hyi, hr⟩ := he.2
        have : x = y := eq_of_id h.good.wf1 hx hy (hq.trans hyi.symm)
        subst this
        exact ⟨queued_notPending h.good.wf2 hy (hyi ▸ he.1), fun _ => hr⟩
  | handler i r b =>
    have hq : (Timers.next cfg M.env t (.handler i r b)).1.queue = t.queue.erase i := by
      rcases handler_eq (cfg := cfg) (env := M.env) t i r b with ⟨_, h2⟩ | ⟨_, e, _, h2⟩ <;> rw [h2]
    refine ⟨?_, fun x hx hm => hold x hx (List.mem_of_mem_erase (hq ▸ hm))⟩
    have := (handler_ok hc h htm ti i r b he.1 hin).1
    rw [← hq] at this
    exact this

theorem Mono_snoc {es : List (Env V)} {a b : Env V} (h : Mono (es ++ [a] ++ [b])) : Mono (es ++ [a]) ∧ a.le b := by
  unfold Mono at *
  rw [List.pairwise_append] at h
  exact ⟨h.1, h.2.2 a (by simp) b (by simp)⟩

/-- The invariant and the ledger after every history without late handlers. -/
theorem reach_goodT (hc : cfg.Ok) {mo ex : Prop} (hem : ex → mo ∨ cfg.Untimed) (h : THist K V E) (env : Env V) (hok : TOk cfg {} h)
    (hin : AllInTime cfg {} h) (hm : mo → Mono (h.map (·.1) ++ [env])) (hx : ex → NoEvictT cfg {} h) :
    TGood cfg ⟨mo, ex, env, True⟩ (stateT cfg h) (ledgerAfterT cfg h) := by
  induction h using snoc_ind generalizing env with
  | h0 => exact ⟨good_init _ _ _, by simp [stateT, runT, St.ents]⟩
  | h1 h a ih =>
    obtain ⟨e0, e⟩ := a
    rw [TOk_snoc] at hok
    rw [AllInTime_snoc] at hin
    simp only [NoEvictT_snoc] at hx
    simp only [List.map_append, List.map_cons, List.map_nil] at hm
    have g := ih e0 hok.1 hin.1 (fun hmo => (Mono_snoc (hm hmo)).1) (fun he => (hx he).1)
    have := g.next hc trivial (tinv hc h hok.1) e hok.2 hin.2 (fun he => (hx he).2)
    rw [stateT_snoc, ledgerAfterT_snoc]
    exact this.advance hem (env := env) (fun hmo => (Mono_snoc (hm hmo)).2)

end Hoard.Timers
