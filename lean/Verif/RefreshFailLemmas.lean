import Verif.TimersInv
import Verif.LoadLemmas
import Verif.Spec.RefreshFail
/-! Helper lemmas about refreshes that fail. -/
namespace Hoard.RefreshFail
open Spec Timers
variable {K V E : Type} {cfg : Cfg K} {env : Env V}

/-! ### Histories, one step at the end -/

theorem frun_snoc (t : TSt K V E) (h : FHist K V E) (env : Env V) (e : FEv K V E) :
    frun cfg t (h ++ [(env, e)]) = ((fnext cfg env (frun cfg t h).1 e).1, (frun cfg t h).2 ++ [(fnext cfg env (frun cfg t h).1 e).2]) := by
  induction h generalizing t with
  | nil => rfl
  | cons p h ih => obtain ⟨env', e'⟩ := p; simp only [List.cons_append, frun, ih]

theorem fstate_snoc (h : FHist K V E) (env : Env V) (e : FEv K V E) : fstate cfg (h ++ [(env, e)]) = (fnext cfg env (fstate cfg h) e).1 := by
  unfold fstate; rw [frun_snoc]

theorem FOk_snoc (t : TSt K V E) (h : FHist K V E) (env : Env V) (e : FEv K V E) :
    FOk cfg t (h ++ [(env, e)]) ↔ FOk cfg t h ∧ e.ok cfg env (frun cfg t h).1 := by
  induction h generalizing t with
  | nil => simp [FOk, frun]
  | cons p h ih => obtain ⟨env', e'⟩ := p; simp only [List.cons_append, FOk, frun, ih, and_assoc]

theorem FAllInTime_snoc (t : TSt K V E) (h : FHist K V E) (env : Env V) (e : FEv K V E) :
    FAllInTime cfg t (h ++ [(env, e)]) ↔ FAllInTime cfg t h ∧ FInTime cfg env (frun cfg t h).1 e := by
  induction h generalizing t with
  | nil => simp [FAllInTime, frun]
  | cons p h ih => obtain ⟨env', e'⟩ := p; simp only [List.cons_append, FAllInTime, frun, ih, and_assoc]

theorem FNoEvict_snoc (t : TSt K V E) (h : FHist K V E) (env : Env V) (e : FEv K V E) :
    FNoEvict cfg t (h ++ [(env, e)]) ↔ FNoEvict cfg t h ∧ NoEvict cfg (fnext cfg env (frun cfg t h).1 e).1.s := by
  induction h generalizing t with
  | nil => simp [FNoEvict, frun]
  | cons p h ih => obtain ⟨env', e'⟩ := p; simp only [List.cons_append, FNoEvict, frun, ih, and_assoc]

theorem frun_len (t : TSt K V E) (h : FHist K V E) : (frun cfg t h).2.length = h.length := by
  induction h generalizing t with
  | nil => rfl
  | cons p h ih => obtain ⟨env', e'⟩ := p; simp [frun, ih]

theorem fledger_snoc (eqv : K → K → Bool) (kind : Kind) : ∀ (h : FHist K V E) (os : List (Out K V E)) (L : Ledger K V) (env : Env V) (e : FEv K V E) (o : Out K V E),
    os.length = h.length → fledger eqv kind L (h ++ [(env, e)]) (os ++ [o]) = fafter eqv kind env.now (fledger eqv kind L h os) e o
  | [], [], _, _, _, _, _ => rfl
  | [], _ :: _, _, _, _, _, h => by simp at h
  | _ :: _, [], _, _, _, _, h => by simp at h
  | (env', e') :: h, o' :: os, L, env, e, o, hl => by
    simp only [List.cons_append, fledger]
    exact fledger_snoc eqv kind h os _ env e o (by simpa using hl)

theorem fledgerAfter_snoc (h : FHist K V E) (env : Env V) (e : FEv K V E) :
    fledgerAfter cfg (h ++ [(env, e)]) = fafter cfg.eqv cfg.resolver env.now (fledgerAfter cfg h) e (fout cfg h env e) := by
  unfold fledgerAfter fout fstate
  rw [frun_snoc]
  exact fledger_snoc _ _ _ _ _ _ _ _ (frun_len _ _)

theorem Tame_snoc {h : FHist K V E} {p : Env V × FEv K V E} : Tame (h ++ [p]) ↔ Tame h ∧ p.2.tame := by
  unfold Tame
  constructor
  · intro H; exact ⟨fun q hq => H q (List.mem_append_left _ hq), H p (by simp)⟩
  · rintro ⟨h1, h2⟩ q hq
    rcases List.mem_append.1 hq with h | h
    · exact h1 q h
    · simp at h; subst h; exact h2

/-! ### One step -/

/-- The handler that fails: nothing, or a refresh that fails. -/
theorem fail_eq (t : TSt K V E) (i : Nat) (r : Res V E) (b : Beh V E) (f : RFail) :
    (t.s.destroyed = true ∨ t.s.findAny i = none) ∧ fnext cfg env t (.fail i r b f) = ({ t with queue := t.queue.erase i }, {}) ∨
    t.s.destroyed = false ∧ ∃ e, t.s.findAny i = some e ∧
      fnext cfg env t (.fail i r b f) = ({ s := (refreshFail cfg env t.s e r b f).1, queue := t.queue.erase i }, (refreshFail cfg env t.s e r b f).2) := by
  cases hd : t.s.destroyed with
  | true => exact .inl ⟨.inl rfl, by simp [fnext, hd]⟩
  | false =>
    cases hf : t.s.findAny i with
    | none => exact .inl ⟨.inr rfl, by simp [fnext, hd, hf]⟩
    | some e => exact .inr ⟨rfl, e, rfl, by simp [fnext, hd, hf]⟩

theorem fail_queue (t : TSt K V E) (i : Nat) (r : Res V E) (b : Beh V E) (f : RFail) :
    (fnext cfg env t (.fail i r b f)).1.queue = t.queue.erase i := by
  rcases fail_eq (cfg := cfg) (env := env) t i r b f with ⟨_, h⟩ | ⟨_, _, _, h⟩ <;> rw [h]

/-- What a refresh that fails does: nothing; the ordinary refresh; nothing but throwing; dropping expired entries; or, with
an asynchronous resolver, a lookup. -/
theorem refreshFail_cases (s : St K V E) (e : Entry K V E) (r : Res V E) (b : Beh V E) (f : RFail) :
    (e.refreshing || e.expired env) = true ∧ refreshFail cfg env s e r b f = (s, {}) ∨
    refreshFail cfg env s e r b f = refresh cfg env s e r b ∨
    (e.refreshing || e.expired env) = false ∧
    ((∃ c, refreshFail cfg env s e r b f = (s, { ret := .throws, calls := c }) ∧ (cfg.resolver = .async → c = []) ∧ f ≠ .register) ∨
     (∃ c, refreshFail cfg env s e r b f = (beforeLink cfg env s, { ret := .throws, calls := c }) ∧ (cfg.resolver = .async → c = []) ∧ f ≠ .register) ∨
     (cfg.resolver = .async ∧ f = .functor ∧
      refreshFail cfg env s e r b f = ((resolveAsync cfg env s e.key b).1, { ret := .throws, calls := [(e.key, s.nextId)] })) ∨
     (cfg.resolver = .async ∧ f = .register ∧
      (∃ n, ((resolveAsync cfg env s e.key b).1.modify e.id (fun x => { x with refreshing := true })).find s.nextId = some n ∧ n.isPending = true) ∧
      refreshFail cfg env s e r b f =
      (((resolveAsync cfg env s e.key b).1.modify e.id (fun x => { x with refreshing := true })).modify e.id (·.upd .markExpired),
        { ret := .throws, calls := [(e.key, s.nextId)] }))) := by
  by_cases hx : (e.refreshing || e.expired env) = true
  · left; refine ⟨hx, ?_⟩; unfold refreshFail; rw [if_pos hx]
  · have hx' : (e.refreshing || e.expired env) = false := by simpa using hx
    right
    unfold refreshFail
    rw [if_neg hx]
    have ht : (resolveAsync cfg env s e.key b).2 = s.nextId := by cases b <;> rfl
    cases f with
    | alloc => exact .inr ⟨hx', .inl ⟨[], rfl, fun _ => rfl, by simp⟩⟩
    | build =>
      simp only
      split
      · exact .inl rfl
      · rename_i h; exact .inr ⟨hx', .inl ⟨_, rfl, fun ha => absurd ha h, by simp⟩⟩
    | grow =>
      simp only
      split
      · exact .inr ⟨hx', .inr (.inl ⟨_, rfl, fun ha => by rw [if_pos ha], by simp⟩)⟩
      · exact .inl rfl
    | functor =>
      simp only
      split
      · rename_i h; exact .inr ⟨hx', .inr (.inr (.inl ⟨h, trivial, rfl⟩))⟩
      · exact .inl rfl
    | register =>
      simp only
      split
      · rename_i h
        rw [ht]
        split
        · rename_i n hn
          split
          · rename_i hp; exact .inr ⟨hx', .inr (.inr (.inr ⟨h, trivial, ⟨n, hn, hp⟩, rfl⟩))⟩
          · exact .inl rfl
        · exact .inl rfl
      · exact .inl rfl

theorem refresh_ret (s : St K V E) (e : Entry K V E) (r : Res V E) (b : Beh V E) : (refresh cfg env s e r b).2.ret = .unit := by
  unfold refresh
  simp only
  repeat' split
  all_goals rfl

theorem refreshed_calls (s : St K V E) (e : Entry K V E) (r : Res V E) (b : Beh V E) (hx : (e.refreshing || e.expired env) = false) :
    (refresh cfg env s e r b).2.calls = [(e.key, s.nextId)] := by
  unfold refresh
  rw [if_neg (by simp [hx])]
  simp only
  have ht : (if cfg.resolver = .async then resolveAsync cfg env s e.key b else resolveSync cfg env s e.key r).2 = s.nextId := by
    split
    · cases b <;> rfl
    · rfl
  rw [ht]
  repeat' split
  all_goals rfl

/-- A tame failure writes nothing. -/
theorem throws_ledger {t : TSt K V E} {L : Ledger K V} {i : Nat} {r : Res V E} {b : Beh V E} {f : RFail} (htm : (FEv.fail i r b f : FEv K V E).tame)
    (ht : (fnext cfg env t (.fail i r b f)).2.ret = .throws) :
    (fafter cfg.eqv cfg.resolver env.now L (.fail i r b f) (fnext cfg env t (.fail i r b f)).2).cur = L.cur ∧
    (fafter cfg.eqv cfg.resolver env.now L (.fail i r b f) (fnext cfg env t (.fail i r b f)).2).time = L.time ∧
    (fafter cfg.eqv cfg.resolver env.now L (.fail i r b f) (fnext cfg env t (.fail i r b f)).2).used = L.used := by
  rcases fail_eq (cfg := cfg) (env := env) t i r b f with ⟨_, h1⟩ | ⟨hd, e, hf, h1⟩
  · rw [h1] at ht; cases ht
  · rw [h1] at ht ⊢
    simp only at ht ⊢
    simp only [fafter, ht]
    split
    · rename_i hk hca
      rcases refreshFail_cases (cfg := cfg) (env := env) t.s e r b f with ⟨_, g⟩ | g | ⟨gx, ⟨c, g, gc, _⟩ | ⟨c, g, gc, _⟩ | ⟨ga, rfl, g⟩ | ⟨_, rfl, _, _⟩⟩
      · rw [g] at ht; cases ht
      · rw [g, refresh_ret] at ht; cases ht
      · rw [g] at hca; simp only [gc hk] at hca; cases hca
      · rw [g] at hca; simp only [gc hk] at hca; cases hca
      · have hb : b = .drop := htm
        subst hb
        exact ⟨rfl, rfl, rfl⟩
      · exact htm.elim
    · exact ⟨rfl, rfl, rfl⟩

theorem refreshFail_life (s : St K V E) (e : Entry K V E) (r : Res V E) (b : Beh V E) (f : RFail) :
    Life (fun _ _ _ => True) (fun _ _ => True) s (refreshFail cfg env s e r b f).1 := by
  rcases refreshFail_cases (cfg := cfg) (env := env) s e r b f with ⟨_, h⟩ | h | ⟨_, ⟨c, h, _, _⟩ | ⟨c, h, _, _⟩ | ⟨_, _, h⟩ | ⟨_, _, _, h⟩⟩ <;> rw [h]
  · exact .refl _
  · exact refresh_life (fun _ => trivial) (fun _ _ _ _ => trivial)
  · exact .refl _
  · exact beforeLink_life
  · exact resolveAsync_life trivial (fun _ _ _ => trivial)
  · refine ((resolveAsync_life trivial (fun _ _ _ => trivial)).trans (.modify _ _ (f := fun x => { x with refreshing := true }) ?_)).trans
      (.modify _ _ fun e _ _ => dulls_markExpired.turns e)
    exact fun _ _ _ => ⟨rfl, rfl, fun _ h => .inl h, fun _ _ => ⟨rfl, fun h => h⟩⟩

theorem fnext_life (hc : cfg.Ok) (t : TSt K V E) (e : FEv K V E) (he : e.ok cfg env t) :
    Life (fun _ _ _ => True) (fun _ _ => True) t.s (fnext cfg env t e).1.s := by
  cases e with
  | ev e => exact (next_life hc t e he).mono (fun _ _ _ _ => trivial) (fun _ _ _ => trivial)
  | fail i r b f =>
    rcases fail_eq (cfg := cfg) (env := env) t i r b f with ⟨_, h⟩ | ⟨_, e, _, h⟩ <;> rw [h]
    · exact .refl _
    · exact refreshFail_life _ _ _ _ _

theorem tinv_fnext (hc : cfg.Ok) {t : TSt K V E} (h : TInv t) (e : FEv K V E) (he : e.ok cfg env t) : TInv (fnext cfg env t e).1 := by
  cases e with
  | ev e => exact h.next hc e he
  | fail i r b f =>
    have l := fnext_life (env := env) hc t (.fail i r b f) he
    have hq := fail_queue (cfg := cfg) (env := env) t i r b f
    refine ⟨l.neat h.neat, ?_, by rw [hq]; exact h.nd.erase _, ?_, ?_⟩
    · intro x hx
      rcases l.bwd x hx with ⟨x0, h0, tn⟩ | ⟨_, h1, _⟩
      · rw [tn.id]; exact Nat.lt_of_lt_of_le (h.ids x0 h0) l.next
      · exact h1
    · rw [hq]; exact fun j hj => idle_keeps l h.neat (h.q j (List.mem_of_mem_erase hj))
    · intro i hi
      rcases l.dq h.neat i hi with h1 | ⟨_, h2⟩
      · obtain ⟨h3, h4⟩ := h.dq i h1
        refine ⟨Nat.lt_of_lt_of_le h3 l.next, fun hh => ?_⟩
        rcases l.opn i hh with h5 | h5
        · exact h4 h5
        · omega
      · exact h2

theorem ftinv (hc : cfg.Ok) (h : FHist K V E) (hok : FOk cfg {} h) : TInv (fstate cfg h) := by
  induction h using snoc_ind with
  | h0 => exact tinv_init
  | h1 h a ih =>
    obtain ⟨env, e⟩ := a
    rw [FOk_snoc] at hok
    rw [fstate_snoc]
    exact tinv_fnext hc (ih hok.1) e hok.2

/-- An entry whose handler was called has no timer and no handler any more. -/
def Spent (i : Nat) (t : TSt K V E) : Prop :=
  i ∉ t.queue ∧ i < t.s.nextId ∧ i ∉ t.s.opens ∧ i ∉ t.s.delayQ

theorem spent_keeps (hc : cfg.Ok) {t : TSt K V E} (ti : TInv t) {i : Nat} (h : Spent i t) (e : FEv K V E) (he : e.ok cfg env t) :
    Spent i (fnext cfg env t e).1 ∧ e.handles i = false := by
  have l := fnext_life (env := env) hc t e he
  have hi := idle_keeps l ti.neat h.2
  cases e with
  | fail j r b f =>
    refine ⟨⟨by rw [fail_queue]; exact fun hm => h.1 (List.mem_of_mem_erase hm), hi⟩, ?_⟩
    simp only [FEv.handles, beq_eq_false_iff_ne]
    rintro rfl; exact h.1 he.1
  | ev e =>
    cases e with
    | op o => exact ⟨⟨h.1, hi⟩, rfl⟩
    | expire j =>
      refine ⟨⟨?_, hi⟩, rfl⟩
      intro hm
      rcases List.mem_append.1 hm with h3 | h3
      · exact h.1 h3
      · simp at h3; subst h3; exact h.2.2.2 he.1
    | handler j r b =>
      have : (fnext cfg env t (.ev (.handler j r b))).1.queue = t.queue.erase j := by
        simp only [fnext, next]; split
        · rfl
        · split <;> rfl
      refine ⟨⟨by rw [this]; exact fun hm => h.1 (List.mem_of_mem_erase hm), hi⟩, ?_⟩
      simp only [FEv.handles, Ev.handles, beq_eq_false_iff_ne]
      rintro rfl; exact h.1 he.1

theorem spent_after (hc : cfg.Ok) {t : TSt K V E} (ti : TInv t) {i : Nat} (e : FEv K V E) (he : e.ok cfg env t) (hh : e.handles i = true) :
    Spent i (fnext cfg env t e).1 := by
  have l := fnext_life (env := env) hc t e he
  cases e with
  | fail j r b f =>
    have : j = i := by simpa [FEv.handles] using hh
    subst this
    exact ⟨by rw [fail_queue]; exact fun hm => ((List.Nodup.mem_erase_iff ti.nd).1 hm).1 rfl, idle_keeps l ti.neat (ti.q j he.1)⟩
  | ev e =>
    cases e with
    | op o => cases hh
    | expire j => cases hh
    | handler j r b =>
      have hj : j = i := by simpa [FEv.handles, Ev.handles] using hh
      subst hj
      have : (fnext cfg env t (.ev (.handler j r b))).1.queue = t.queue.erase j := by
        simp only [fnext, next]; split
        · rfl
        · split <;> rfl
      exact ⟨by rw [this]; exact fun hm => ((List.Nodup.mem_erase_iff ti.nd).1 hm).1 rfl, idle_keeps l ti.neat (ti.q j he.1)⟩

/-! ### The ledger -/

/-- A lookup that is given up at once, while a value of the key is stored. -/
theorem dropped_ok (hc : cfg.Ok) {M : Md V} {X : Nat → Prop} {s : St K V E} {L : Ledger K V} (h : Good cfg M X s L)
    (hd : s.destroyed = false) (ha : cfg.resolver = .async) {e : Entry K V E} (hR : Refr cfg s e) :
    Good cfg M X (resolveAsync cfg M.env s e.key .drop).1 (L.lookup cfg.eqv M.env.now false e.key s.nextId (.drop : Beh V E)) := by
  obtain ⟨ht, w, r, hnx, hop, hn, hdq⟩ := resolveAsync_spc (F := ({} : Eff K V)) M.env h.wf1 h.wf2 hd e.key .drop
  obtain ⟨hid, hnk, hnm, hnr⟩ := behEntry_facts cfg M.env s e.key .drop
  have hxs := next_not_open h.wf1 h.wf2 hd
  have hpn := behEntry_pen cfg M.env s e.key .drop
  generalize resolveAsync cfg M.env s e.key .drop = g at *
  obtain ⟨s', tok⟩ := g
  generalize behEntry cfg M.env s e.key .drop = n at *
  simp only at *
  have huniq : ∀ e' ∈ s'.ents, e'.id = s.nextId → e' = n := fun e' he' hh => eq_of_id w he' hn (hh.trans hid.symm)
  have hnl : n.mapped.live = false := by rw [hnm]; rfl
  have hnv : n.mapped.val? = none := by rw [hnm]; rfl
  have hdead : ∀ e' ∈ s'.ents, cfg.eqv e'.key e.key = true → e'.mapped.live = false := by
    intro e' he' hk'
    by_cases hx : e'.id = s.nextId
    · rw [huniq e' he' hx]; exact hnl
    · obtain ⟨e0, h0, sh⟩ := r.bwd e' he' hx
      rw [sh.key] at hk'
      cases hlv : e'.mapped.live
      · rfl
      · have := sh.live hlv
        rw [hR.fresh e0 h0 hk'] at this; cases this
  have hsn : SpcN cfg s s' s.nextId n := by
    refine ⟨hn, hid, by rw [hop]; exact opens_nodup h.wf2.opN hxs .drop, ?_, ?_, fun hh => absurd ha hh, ?_, ?_,
      fun e he _ => cb_ne_next h.wf1 h.wf2 he, ?_, ?_, ?_⟩
    · intro _; rw [Entry.isPending, hnm]; rfl
    · intro _
      obtain ⟨q1, q2, q3⟩ := hpn rfl
      refine ⟨q1, q2, hnr, ?_, fun hlv => ?_, q3⟩
      · intro hq
        have := hdq.1 hq
        simp [Beh.isOk] at this
      · rw [hnl] at hlv; cases hlv
    · intro old hh; rw [hnm, behMapped_cbs] at hh; cases hh
    · intro a b hh; rw [hnm, behMapped_cbs] at hh; cases hh
    · intro e' he' _ hk' _; exact hdead e' he' (hnk ▸ hk')
    · intro _ _ _ _ hh; exact absurd hnv hh
    · intro _ _ _ _ hh; rw [hnl] at hh; cases hh
  have hdq' : DQ cfg M X s' := by
    refine h.dq.special w r hn hid (next_not_queued h.wf1) (fun _ _ h => h.elim) (fun _ _ _ hx _ _ => hx) ?_ ?_ (fun hv => absurd hv (by rw [hnm, behMapped_void]; simp))
    · intro d i hr hq
      have := hdq.1 hq
      simp [Beh.isOk] at this
    · intro _ hv; exact absurd hnv hv
  have hxo : s.nextId ∉ s'.opens := by rw [hop]; simpa [Beh.opens] using hxs
  refine h.dead hc hd w r hsn hdq' (h.g.rsp.forget hc e.key false) rfl (fun _ _ => rfl) (fun a => ⟨rfl, rfl, rfl, rfl, ?_⟩) ?_ (fun _ h => h)
    (fun _ _ h => h.elim) (fun _ _ _ _ h => h) (fun _ _ _ h => h) (fun _ _ _ => .inr (fun h => h)) hxo (by omega) (by omega)
    (fun e he hh => absurd hh (id_ne_next h.wf1 he)) hnv hnl (fun _ _ => by rw [hnm]; rfl)
    (by intro a _ _ _ _ hh; simp [Ledger.lookup, Ledger.forget] at hh; exact .inl hh)
  · intro hh; simp only [Ledger.lookup, Ledger.forget]; split
    · rfl
    · exact hh
  · intro a
    by_cases hak : cfg.eqv a e.key = true
    · right
      refine ⟨by simp [Ledger.lookup, Ledger.forget, hak], ?_⟩
      intro e' he' hea
      exact hdead e' he' (hc.trans _ _ _ hea hak)
    · left; exact ⟨by simp [Ledger.lookup, Ledger.forget, hak], h.fresh a⟩

/-- The invariant: as in TimersInv.lean, but values whose handler failed (`F`) do not wait for a refresh, either. -/
structure FGood (cfg : Cfg K) (M : Md V) (F : Nat → Prop) (t : TSt K V E) (L : Ledger K V) : Prop where
  good : Good cfg M (fun j => j ∈ t.queue ∨ F j) t.s L
  due : ∀ e ∈ t.s.ents, e.id ∈ t.queue → e.isPending = false

theorem FGood.advance {M : Md V} {F : Nat → Prop} {t : TSt K V E} {L : Ledger K V} (h : FGood cfg M F t L) (hem : M.ex → M.mo ∨ cfg.Untimed) {env : Env V}
    (hle : M.mo → M.env.le env) : FGood cfg { M with env := env } F t L :=
  ⟨h.good.advance hem hle, h.due⟩

/-- Handlers that threw, and the one that throws in this step. -/
def FEv.adds (F : Nat → Prop) (e : FEv K V E) (out : Out K V E) (j : Nat) : Prop := F j ∨ ∃ r b f, e = .fail j r b f ∧ out.ret = .throws

theorem refr_entry (hc : cfg.Ok) {M : Md V} {F : Nat → Prop} {t : TSt K V E} {L : Ledger K V} (h : FGood cfg M F t L) (htm : M.tm) {e : Entry K V E} (he : e ∈ t.s.ents)
    (hq : e.id ∈ t.queue) (hx : (e.refreshing || e.expired M.env) = false) : Refr cfg t.s e := by
  simp only [Bool.or_eq_false_iff] at hx
  exact refr_of hc h.good.wf2 he (h.due e he hq) hx.1 hx.2 (h.good.dq.noVoid htm e he)

theorem mem_erase_or {q : List Nat} (i : Nat) {j : Nat} (h : j ∈ q) : j = i ∨ j ∈ q.erase i := by
  by_cases hj : j = i
  · exact .inl hj
  · exact .inr ((List.mem_erase_of_ne hj).2 h)

/-- An ordinary refresh in a handler. -/
theorem plain_refresh (hc : cfg.Ok) {M : Md V} {F : Nat → Prop} {t : TSt K V E} {L : Ledger K V} (h : FGood cfg M F t L) (htm : M.tm) {e : Entry K V E} (r : Res V E)
    (b : Beh V E) (hd : t.s.destroyed = false) (hq : e.id ∈ t.queue) (hf : t.s.findAny e.id = some e)
    (hin : (refresh cfg M.env t.s e r b).2.calls ≠ [] → ∃ x ∈ t.s.ents, x.id = e.id) :
    Good cfg M (fun j => j ∈ t.queue.erase e.id ∨ F j) (refresh cfg M.env t.s e r b).1
      (L.after cfg.eqv cfg.resolver M.env.now (.tick r b) (refresh cfg M.env t.s e r b).2) := by
  rcases find_any_linked hf with he | hlate
  · refine (refresh_okX hc (h.good.dropX fun a _ hX _ _ => .inr ?_) hd he (h.due e he hq) (h.good.dq.noVoid htm e he) r b).1
    rcases hX with hX | hX
    · rcases mem_erase_or e.id hX with h1 | h1
      · exact .inl h1
      · exact .inr (.inl h1)
    · exact .inr (.inr hX)
  · rcases refresh_calls (cfg := cfg) (env := M.env) t.s e r b with ⟨_, g2, g3⟩ | g1
    · rw [g2, g3]
      refine h.good.dropX fun a ha hX _ _ => .inr ?_
      rcases hX with hX | hX
      · exact .inl ((mem_erase_or e.id hX).resolve_left (hlate a ha))
      · exact .inr hX
    · obtain ⟨x, hx, hxi⟩ := hin (by rw [g1]; simp)
      exact absurd hxi (hlate x hx)

theorem FGood.next (hc : cfg.Ok) {M : Md V} {F : Nat → Prop} {t : TSt K V E} {L : Ledger K V} (h : FGood cfg M F t L) (htm : M.tm) (ti : TInv t) (e : FEv K V E)
    (he : e.ok cfg M.env t) (htame : e.tame) (hin : FInTime cfg M.env t e) (hx : M.ex → NoEvict cfg (fnext cfg M.env t e).1.s) :
    FGood cfg M (e.adds F (fnext cfg M.env t e).2) (fnext cfg M.env t e).1 (fafter cfg.eqv cfg.resolver M.env.now L e (fnext cfg M.env t e).2) := by
  have l := fnext_life (env := M.env) hc t e he
  have hold : ∀ x ∈ (fnext cfg M.env t e).1.s.ents, x.id ∈ t.queue → x.isPending = false := by
    intro x hx hq
    obtain ⟨q1, q2, q3⟩ := ti.q _ hq
    rcases l.bwd x hx with ⟨y, hy, tn⟩ | ⟨h1, _⟩
    · rw [tn.id] at q1 q2 hq
      exact (tn.set q1 q2).2 (h.due y hy hq)
    · omega
  cases e with
  | fail i r b f =>
    have hq := fail_queue (cfg := cfg) (env := M.env) t i r b f
    refine ⟨?_, fun x hx hm => hold x hx (List.mem_of_mem_erase (hq ▸ hm))⟩
    rw [hq]
    have gone : (∀ a ∈ t.s.ents, a.id = i → a.mapped.val? ≠ none → a.refreshing = false → a.expired M.env = true) → ∀ (G : Nat → Prop), (∀ j, F j → G j) →
        Good cfg M (fun j => j ∈ t.queue.erase i ∨ G j) t.s L := fun hlate G hG => h.good.dropX fun a ha hX hv hr => by
      rcases hX with hX | hX
      · rcases mem_erase_or i hX with h1 | h1
        · exact .inl (hlate a ha h1 hv hr)
        · exact .inr (.inl h1)
      · exact .inr (.inr (hG _ hX))
    have hgood : ∀ out : Out K V E, out.ret = .throws → Good cfg M (fun j => j ∈ t.queue.erase i ∨ (FEv.fail i r b f : FEv K V E).adds F out j) t.s L :=
      fun out ho => h.good.dropX fun a _ hX _ _ => .inr (by
        rcases hX with hj | hj
        · rcases mem_erase_or i hj with h1 | h1
          · exact .inr (.inr ⟨r, b, f, by rw [h1], ho⟩)
          · exact .inl h1
        · exact .inr (.inl hj))
    have hin' : (fnext cfg M.env t (.fail i r b f)).2.calls ≠ [] → ∃ x ∈ t.s.ents, x.id = i := hin
    rcases fail_eq (cfg := cfg) (env := M.env) t i r b f with ⟨hh, h1⟩ | ⟨hd, e, hf, h1⟩
    · rw [h1]
      refine gone (fun a ha hi => ?_) _ (fun _ h => .inl h)
      rcases hh with hh | hh
      · rw [h.good.wf2.opD hh] at ha; cases ha
      · exact absurd hi (find_any_none hh a ha)
    · have hi := find_any hf
      rw [h1] at hin' ⊢
      subst hi
      simp only at hin' ⊢
      rcases refreshFail_cases (cfg := cfg) (env := M.env) t.s e r b f with ⟨gx, g⟩ | g | ⟨gx, ⟨c, g, gc, _⟩ | ⟨c, g, gc, _⟩ | ⟨ga, rfl, g⟩ | ⟨_, rfl, _, _⟩⟩
      · rw [g]
        refine gone (fun a ha hi _ hr => ?_) _ (fun _ h => .inl h)
        rcases find_any_linked hf with he | hlate
        · have : a = e := eq_of_id h.good.wf1 ha he hi
          subst this
          simpa [hr] using gx
        · exact absurd hi (hlate a ha)
      · rw [g] at hin' ⊢
        simp only [fafter, refresh_ret]
        refine (plain_refresh hc h htm r b hd he.1 hf hin').dropX fun a _ hX _ _ => .inr ?_
        rcases hX with hX | hX
        · exact .inl hX
        · exact .inr (.inl hX)
      · rw [g]
        simp only [fafter]
        split
        · rename_i hk; cases gc hk
        · exact hgood _ rfl
      · rw [g]
        simp only [fafter]
        split
        · rename_i hk; cases gc hk
        · exact beforeLink_ok hc (hgood _ rfl)
      · rw [g] at hin' ⊢
        have hb : b = .drop := htame
        subst hb
        have hmem : e ∈ t.s.ents := by
          rcases find_any_linked hf with h2 | h2
          · exact h2
          · obtain ⟨x, hx, hxi⟩ := hin' (by simp)
            exact absurd hxi (h2 x hx)
        simp only [fafter, ga]
        exact dropped_ok hc (hgood _ rfl) hd ga (refr_entry hc h htm hmem he.1 gx)
      · exact htame.elim
  | ev e =>
    have wk : ∀ {q q' : List Nat} {s : St K V E} {L : Ledger K V} {out : Out K V E}, (∀ j, j ∈ q → j ∈ q') → Good cfg M (fun j => j ∈ q ∨ F j) s L →
        Good cfg M (fun j => j ∈ q' ∨ (FEv.ev e : FEv K V E).adds F out j) s L := fun hq hg => hg.dropX fun a _ hX _ _ => .inr (by
      rcases hX with hX | hX
      · exact .inl (hq _ hX)
      · exact .inr (.inl hX))
    cases e with
    | op o => exact ⟨wk (fun _ h => h) (step_okX hc h.good o he.1 he.2 hx), hold⟩
    | expire i =>
      refine ⟨(unqueued hc i h.good).dropX fun a _ hX _ _ => .inr ?_, ?_⟩
      · show a.id ∈ t.queue ++ [i] ∨ _
        rcases hX with hX | hX | hX
        · exact .inl (by simp [hX])
        · exact .inl (by simp [hX])
        · exact .inr (.inl hX)
      intro x hx hq
      rcases List.mem_append.1 hq with hq | hq
      · exact hold x hx hq
      · simp at hq
        obtain ⟨y, hy, hyi, hr⟩ := he.2
        have : x = y := eq_of_id h.good.wf1 hx hy (hq.trans hyi.symm)
        subst this
        exact queued_notPending h.good.wf2 hy (hyi ▸ he.1)
    | handler i r b =>
      have hq : (fnext cfg M.env t (.ev (.handler i r b))).1.queue = t.queue.erase i := by
        show (Timers.next cfg M.env t (.handler i r b)).1.queue = _
        rcases handler_eq (cfg := cfg) (env := M.env) t i r b with ⟨_, h2⟩ | ⟨_, e, _, h2⟩ <;> rw [h2]
      refine ⟨?_, fun x hx hm => hold x hx (List.mem_of_mem_erase (hq ▸ hm))⟩
      rw [hq]
      have hin' : (Timers.next cfg M.env t (.handler i r b)).2.calls ≠ [] → ∃ x ∈ t.s.ents, x.id = i := hin
      simp only [fnext, fafter, Timers.after] at hin' ⊢
      have gone : (∀ x ∈ t.s.ents, x.id ≠ i) → Good cfg M (fun j => j ∈ t.queue.erase i ∨ F j) t.s L := fun hlate =>
        h.good.dropX fun a ha hX _ _ => .inr (by
          rcases hX with hX | hX
          · exact .inl ((mem_erase_or i hX).resolve_left (hlate a ha))
          · exact .inr hX)
      rcases handler_eq (cfg := cfg) (env := M.env) t i r b with ⟨hh, h1⟩ | ⟨hd, e, hf, h1⟩
      · rw [h1]
        refine wk (fun _ h => h) (gone ?_)
        rcases hh with hh | hh
        · rw [h.good.wf2.opD hh]; simp
        · exact find_any_none hh
      · have hi := find_any hf
        rw [h1] at hin' ⊢
        subst hi
        exact wk (fun _ h => h) (plain_refresh hc h htm r b hd he.1 hf hin')

/-- The invariant and the ledger after every history without late handlers and with tame failures. -/
theorem reach_goodF (hc : cfg.Ok) {mo ex : Prop} (hem : ex → mo ∨ cfg.Untimed) (h : FHist K V E) (env : Env V) (hok : FOk cfg {} h) (ht : Tame h)
    (hin : FAllInTime cfg {} h) (hm : mo → Mono (h.map (·.1) ++ [env])) (hx : ex → FNoEvict cfg {} h) :
    FGood cfg ⟨mo, ex, env, True⟩ (FThrew cfg h) (fstate cfg h) (fledgerAfter cfg h) := by
  induction h using snoc_ind generalizing env with
  | h0 => exact ⟨good_init _ _ _, by simp [fstate, frun, St.ents]⟩
  | h1 h a ih =>
    obtain ⟨e0, e⟩ := a
    rw [FOk_snoc] at hok
    rw [FAllInTime_snoc] at hin
    rw [Tame_snoc] at ht
    simp only [FNoEvict_snoc] at hx
    simp only [List.map_append, List.map_cons, List.map_nil] at hm
    have g := ih e0 hok.1 ht.1 hin.1 (fun hmo => (Mono_snoc (hm hmo)).1) (fun he => (hx he).1)
    have := g.next hc trivial (ftinv hc h hok.1) e hok.2 ht.2 hin.2 (fun he => (hx he).2)
    rw [fstate_snoc, fledgerAfter_snoc]
    have this := this.advance hem (env := env) (fun hmo => (Mono_snoc (hm hmo)).2)
    refine ⟨this.good.dropX fun a _ hX _ _ => .inr ?_, this.due⟩
    rcases hX with hX | ⟨h1, e1, r, b, f, h2, hp, hX⟩ | ⟨r, b, f, rfl, hX⟩
    · exact .inl hX
    · exact .inr ⟨h1, e1, r, b, f, h2 ++ [(e0, e)], by simp [hp], hX⟩
    · exact .inr ⟨h, e0, r, b, f, [], rfl, hX⟩

/-- Whether the table must grow shows in the number of buckets. -/
theorem grows_iff (s : St K V E) : mustGrow cfg (beforeLink cfg env s) = true ↔ (maybeRehash cfg env s).tbl.length ≠ s.tbl.length := by
  have hl : (beforeLink cfg env s).tbl.length = s.tbl.length := beforeLink_len
  unfold maybeRehash
  simp only
  cases hm : mustGrow cfg (beforeLink cfg env s) with
  | false => simp [hl]
  | true =>
    simp only [if_true]
    rw [(rehash_shape _ (grown_pos hm)).1, hl]
    unfold mustGrow at hm
    simp only [Bool.or_eq_true, Bool.and_eq_true, decide_eq_true_eq, hl] at hm
    unfold grown
    split
    · simp; omega
    · split <;> simp <;> omega

theorem refresh_len (s : St K V E) (e : Entry K V E) (r : Res V E) (b : Beh V E) (hx : (e.refreshing || e.expired env) = false) :
    (refresh cfg env s e r b).1.tbl.length = (maybeRehash cfg env s).tbl.length ∧ (refresh cfg env s e r b).2.ret ≠ .throws := by
  have hl : (if cfg.resolver = .async then resolveAsync cfg env s e.key b else resolveSync cfg env s e.key r).1.tbl.length = (maybeRehash cfg env s).tbl.length := by
    split
    · exact (resolveAsync_same2 e.key b).1.trans (link_shape _).1
    · exact (link_shape _).1
  simp only [refresh, hx, Bool.false_eq_true, if_false]
  generalize (if cfg.resolver = .async then resolveAsync cfg env s e.key b else resolveSync cfg env s e.key r) = P at hl
  obtain ⟨s2, tok⟩ := P
  simp only at hl ⊢
  split
  · split
    · exact ⟨((modify_same2 _ _ _).1.trans (modify_same2 _ _ _).1).trans hl, by simp⟩
    · exact ⟨((runCb_same2 _ _).1.trans (modify_same2 _ _ _).1).trans hl, by simp⟩
  · exact ⟨(modify_same2 _ _ _).1.trans hl, by simp⟩

/-- A refresh that does not fail is an ordinary one. -/
theorem refreshFail_ok (s : St K V E) (e : Entry K V E) (r : Res V E) (b : Beh V E) (f : RFail) (h : (refreshFail cfg env s e r b f).2.ret ≠ .throws) :
    refreshFail cfg env s e r b f = refresh cfg env s e r b := by
  cases hx : (e.refreshing || e.expired env) with
  | true => simp [refreshFail, refresh, hx]
  | false =>
    simp only [refreshFail, hx, Bool.false_eq_true, if_false] at h ⊢
    cases f with
    | alloc => exact absurd rfl h
    | build =>
      simp only at h ⊢
      split at h
      · rename_i ha; rw [if_pos ha]
      · exact absurd rfl h
    | grow =>
      simp only at h ⊢
      split at h
      · exact absurd rfl h
      · rename_i ha; rw [if_neg ha]
    | functor =>
      simp only at h ⊢
      split at h
      · exact absurd rfl h
      · rename_i ha; rw [if_neg ha]
    | register =>
      simp only at h ⊢
      split at h
      · rename_i ha
        rw [if_pos ha]
        split at h
        · split at h
          · exact absurd rfl h
          · rename_i hp; rw [if_neg hp]
        · rfl
      · rename_i ha; rw [if_neg ha]

theorem refreshFail_grow (s : St K V E) (e : Entry K V E) (r : Res V E) (b : Beh V E) :
    (refreshFail cfg env s e r b .grow).2.ret = .throws ↔ (refresh cfg env s e r b).1.tbl.length ≠ s.tbl.length := by
  cases hx : (e.refreshing || e.expired env) with
  | true => simp [refreshFail, refresh, hx]
  | false =>
    obtain ⟨h1, h2⟩ := refresh_len (cfg := cfg) s e r b hx
    rw [h1, ← grows_iff]
    simp only [refreshFail, hx, Bool.false_eq_true, if_false]
    split
    · rename_i hm; simp [hm]
    · rename_i hm; simp [hm, h2]

end Hoard.RefreshFail
