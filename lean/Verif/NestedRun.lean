import Verif.NestedLemmas
/-! Helper lemmas about nested calls: what is stored whatever resolvers do, and the pointer-level cache. -/
namespace Hoard.Nested
open Spec
variable {K V E : Type} {cfg : Cfg K} {env : Env V}

theorem runN_snoc (n : NSt K V E) (h : NHist K V E) (env : Env V) (e : Ev K V E) :
    runN cfg n (h ++ [(env, e)]) = ((next cfg env (runN cfg n h).1 e).1, (runN cfg n h).2 ++ [(next cfg env (runN cfg n h).1 e).2]) := by
  induction h generalizing n with
  | nil => rfl
  | cons a h ih => obtain ⟨env', e'⟩ := a; simp only [List.cons_append, runN, ih]

theorem NOk_snoc {n : NSt K V E} {h : NHist K V E} {env : Env V} {e : Ev K V E} :
    NOk cfg n (h ++ [(env, e)]) ↔ NOk cfg n h ∧ e.ok cfg (runN cfg n h).1 := by
  induction h generalizing n with
  | nil => simp [NOk, runN]
  | cons a h ih => obtain ⟨env', e'⟩ := a; simp only [List.cons_append, NOk, runN, ih]; simp [and_assoc]

theorem AllApart_snoc {n : NSt K V E} {h : NHist K V E} {env : Env V} {e : Ev K V E} :
    AllApart cfg n (h ++ [(env, e)]) ↔ AllApart cfg n h ∧ Apart cfg.eqv (runN cfg n h).1.stack e := by
  induction h generalizing n with
  | nil => simp [AllApart, runN]
  | cons a h ih => obtain ⟨env', e'⟩ := a; simp only [List.cons_append, AllApart, runN, ih]; simp [and_assoc]

theorem Descends_snoc {lt : K → K → Prop} {n : NSt K V E} {h : NHist K V E} {env : Env V} {e : Ev K V E} :
    Descends cfg lt n (h ++ [(env, e)]) ↔ Descends cfg lt n h ∧ Lower lt (runN cfg n h).1.stack e := by
  induction h generalizing n with
  | nil => simp [Descends, runN]
  | cons a h ih => obtain ⟨env', e'⟩ := a; simp only [List.cons_append, Descends, runN, ih]; simp [and_assoc]

theorem NoEvictN_snoc {n : NSt K V E} {h : NHist K V E} {env : Env V} {e : Ev K V E} :
    NoEvictN cfg n (h ++ [(env, e)]) → NoEvictN cfg n h := by
  induction h generalizing n with
  | nil => intro hh; exact hh.1
  | cons a h ih => obtain ⟨env', e'⟩ := a; intro hh; exact ⟨hh.1, ih hh.2⟩

theorem ans_len (n : NSt K V E) (h : NHist K V E) : (runN cfg n h).2.length = h.length := by
  induction h generalizing n with
  | nil => rfl
  | cons a h ih => obtain ⟨env', e'⟩ := a; simp [runN, ih]

theorem ledgerN_snoc (eqv : K → K → Bool) (kind : Kind) (x : Ledger K V × List K) (h : NHist K V E) (as : List (Ans K V E)) (hl : as.length = h.length)
    (env : Env V) (e : Ev K V E) (a : Ans K V E) :
    ledgerN eqv kind x (h ++ [(env, e)]) (as ++ [a]) =
      (after eqv kind env.now (ledgerN eqv kind x h as).1 (ledgerN eqv kind x h as).2 e a, running (ledgerN eqv kind x h as).2 e a) := by
  induction h generalizing x as with
  | nil => obtain rfl : as = [] := by simpa using hl
           rfl
  | cons p h ih =>
    obtain ⟨env', e'⟩ := p
    cases as with
    | nil => cases hl
    | cons b as => simp only [List.cons_append, ledgerN]; exact ih _ _ (by simpa using hl)

theorem snd_ledgerN (n : NSt K V E) (L : Ledger K V) (h : NHist K V E) :
    (ledgerN cfg.eqv cfg.resolver (L, n.stack) h (runN cfg n h).2).2 = (runN cfg n h).1.stack := by
  induction h generalizing n L with
  | nil => rfl
  | cons p h ih =>
    obtain ⟨env', e'⟩ := p
    simp only [runN, ledgerN]
    rw [← running_eq]
    exact ih _ _

theorem ledgerAfterN_snoc (h : NHist K V E) (env : Env V) (e : Ev K V E) :
    ledgerAfterN cfg (h ++ [(env, e)]) = after cfg.eqv cfg.resolver env.now (ledgerAfterN cfg h) (runN cfg {} h).1.stack e (ansAt cfg h env e) := by
  unfold ledgerAfterN
  rw [runN_snoc, ledgerN_snoc _ _ _ _ _ (ans_len _ _)]
  have := snd_ledgerN (cfg := cfg) ({} : NSt K V E) {} h
  simp only at this
  rw [this]
  rfl

/-! ### What is stored, whatever resolvers do -/

/-- All stored values satisfy `P`. -/
def Holds (P : K → V → Prop) (s : St K V E) : Prop := ∀ e ∈ s.ents, ∀ v, e.mapped.val? = some v → P e.key v

theorem Holds.shr {P : K → V → Prop} {s s' : St K V E} {F : Eff K V} (h : Holds P s) (r : Shr cfg env F s s') : Holds P s' := by
  intro e' he' v hv
  obtain ⟨e, he, sh⟩ := r.bwd e' he'
  rw [sh.key]; exact h e he v (sh.val v hv)

theorem Holds.mono {P Q : K → V → Prop} {s : St K V E} (h : Holds P s) (hpq : ∀ k v, P k v → Q k v) : Holds Q s :=
  fun e he v hv => hpq _ _ (h e he v hv)

theorem link_wf1_holds {P : K → V → Prop} {s : St K V E} (w : WF1 cfg s) (h : Holds P s) (env : Env V) (k : K) (m : Mapped V E)
    (hm : ∀ v, m.val? = some v → P k v) : WF1 cfg (link cfg env s (newEntry s k m)) ∧ Holds P (link cfg env s (newEntry s k m)) := by
  obtain ⟨w', r, hin, hop, hnx, hdes, hdq⟩ := link_spc (F := ({} : Eff K V)) env w (e := newEntry s k m) rfl
  obtain ⟨f1, f2, f3, f4, _⟩ := linkUpd_facts cfg env (newEntry s k m)
  refine ⟨w', ?_⟩
  intro e' he' v hv
  by_cases hx : e'.id = s.nextId
  · have : e' = linkUpd cfg env (newEntry s k m) := eq_of_id w' he' hin (hx.trans f1.symm)
    subst this
    rw [f2]; rw [f3] at hv; exact hm v hv
  · obtain ⟨e, he, sh⟩ := r.bwd e' he' hx
    rw [sh.key]; exact h e he v (sh.val v hv)

theorem get__look {s : St K V E} (hc : cfg.Ok) (w : WF1 cfg s) {k : K} {v : V} (hg : (get_ cfg env s k false).2 = .val v) :
    ∃ e ∈ s.ents, cfg.eqv e.key k = true ∧ e.mapped.val? = some v := by
  rw [get__eq hc w.placed] at hg
  cases hf : s.ents.find? (isHit cfg env k false) with
  | none => rw [hf] at hg; cases hg
  | some e =>
    obtain ⟨he, hk, hx, ⟨u, h1, h2⟩ | ⟨h1, _⟩⟩ := hit_facts hf
    · rw [hf] at hg
      simp only [h2] at hg
      cases hg
      exact ⟨e, he, hk, h1⟩
    · cases h1

theorem tryLink_nw {P : K → V → Prop} {s : St K V E} (w : WF1 cfg s) (h : Holds P s) (env : Env V) (k : K) (v : V) (f : Fail)
    (hm : (tryLink cfg env s (newEntry s k (.value v)) f).2 = true → P k v) :
    WF1 cfg (tryLink cfg env s (newEntry s k (.value v)) f).1 ∧ Holds P (tryLink cfg env s (newEntry s k (.value v)) f).1 := by
  rcases tryLink_cases cfg env s (newEntry s k (.value v)) f with h1 | h1 | h1 <;> rw [h1] at hm ⊢
  · exact link_wf1_holds w h env k _ (fun u hu => by rw [show (Mapped.value v : Mapped V E).val? = some v from rfl] at hu; cases hu; exact hm rfl)
  · exact ⟨w, h⟩
  · exact ⟨beforeLink_wf1 w env, h.shr (beforeLink_shr (F := ({} : Eff K V)) w)⟩

theorem destroy_wf1 {s : St K V E} (w : WF1 cfg s) : WF1 cfg (destroy cfg s).1 := by
  have w : WF1 cfg (dispose cfg { s with tbl := s.tbl.map (fun _ => []) } s.ents) := by
    apply w.remove
    · simp
    · intro i b b' hb hb'
      simp only [List.getElem?_map, hb, Option.map_some, Option.some.injEq] at hb'
      subst hb'; simp
    · have : (s.tbl.map (fun _ => ([] : List (Entry K V E)))).flatten = [] := by simp
      rw [this]; exact List.Perm.refl _
  exact ⟨w.ids, w.lt, w.placed, w.sorted, w.bq, w.dqN, w.dqM⟩

/-- A step keeps what is stored, except for what it stores itself. -/
theorem nstep_holds (hc : cfg.Ok) (hf : cfg.refresh = none) {P : K → V → Prop} {n : NSt K V E} (w : WF1 cfg n.s) (h : Holds P n.s) (hop : n.s.opens = [])
    (e : Ev K V E) (he : e.ok cfg n) (hr : cfg.resolver = .sync) (hP : ∀ k v, Stores cfg.eqv n.stack k v e (next cfg env n e).2 → P k v) :
    WF1 cfg (next cfg env n e).1.s ∧ Holds P (next cfg env n e).1.s ∧ (next cfg env n e).1.s.opens = [] := by
  cases e with
  | get k =>
    have hs : (next cfg env n (.get k)).1.s = (get_ cfg env n.s k false).1 := by
      generalize hgg : get_ cfg env n.s k false = g
      obtain ⟨s1, l⟩ := g
      by_cases hl : l = .none
      · subst hl; rw [next_none hgg]
      · rw [next_some hgg hl]
    rw [hs]
    exact ⟨get__wf1 hc w env k false, h.shr (get__shr (env := env) hc w k false), by simp [hop]⟩
  | ret r =>
    cases hst : n.stack with
    | nil => exact absurd hst he
    | cons k st =>
      have hs : (next cfg env n (.ret r)).1.s = link cfg env n.s (newEntry n.s k (syncMapped r)) := by simp [next, hst, resolveSync]
      rw [hs]
      have := link_wf1_holds w h env k (syncMapped r) (fun v hv => by
        cases r with
        | ok u => exact hP k v ⟨by simpa [syncMapped, Mapped.val?] using hv, k, by simp [hst], hc.refl k⟩
        | err x => simp [syncMapped, Mapped.val?] at hv)
      exact ⟨this.1, this.2, by simp [hop]⟩
  | op o =>
    obtain ⟨h1, h2, h3⟩ := he
    show WF1 cfg (step cfg env n.s o).1 ∧ Holds P (step cfg env n.s o).1 ∧ (step cfg env n.s o).1.opens = []
    cases o with
    | getIfExists k => exact ⟨w, h, hop⟩
    | get k r => exact absurd rfl (h2 k r)
    | asyncGet k x b => exact absurd h1.1 (by rw [hr]; simp)
    | emplace k v f =>
      have w1 := expire_wf1 hc w env k
      have hh1 := h.shr (expire_shr (env := env) (F := { die := fun _ _ _ => True }) hc w k (fun _ _ _ _ => trivial))
      have := tryLink_nw w1 hh1 env k v f (fun hm => hP k v ⟨hc.refl k, rfl, by simp [step, emplace, hm]⟩)
      simp only [step, emplace]
      split
      · exact ⟨maintenance_wf1 this.1, this.2.shr (maintenance_shr env this.1), by simp [hop]⟩
      · exact ⟨this.1, this.2, by simp [hop]⟩
    | getOrEmplace k v f =>
      have w1 := get__wf1 hc w env k true
      have hh1 := h.shr (get__shr (env := env) hc w k true)
      have ho1 : (get_ cfg env n.s k true).1.opens = [] := by simp [hop]
      have hP' : ∀ v', (getOrEmplace cfg env n.s k v f).2.made = true → v = v' → P k v' := by
        intro v' hm hv; exact hP k v' ⟨hc.refl k, hv, hm⟩
      simp only [step, getOrEmplace] at hP' ⊢
      generalize get_ cfg env n.s k true = g at *
      obtain ⟨s1, l⟩ := g
      simp only at *
      cases l with
      | none =>
        simp only at hP' ⊢
        have := tryLink_nw w1 hh1 env k v f (fun hm => hP' v (by simp [hm]) rfl)
        split
        · exact ⟨maintenance_wf1 this.1, this.2.shr (maintenance_shr env this.1), by simp [ho1]⟩
        · exact ⟨this.1, this.2, by simp [ho1]⟩
      | val v' => exact ⟨maintenance_wf1 w1, hh1.shr (maintenance_shr env w1), by simp [ho1]⟩
      | err x => exact ⟨maintenance_wf1 w1, hh1.shr (maintenance_shr env w1), by simp [ho1]⟩
      | pend => exact ⟨maintenance_wf1 w1, hh1.shr (maintenance_shr env w1), by simp [ho1]⟩
    | erase k =>
      exact ⟨expire_wf1 hc w env k, h.shr (expire_shr (env := env) (F := { die := fun _ _ _ => True }) hc w k (fun _ _ _ _ => trivial)), by simp [step, erase, hop]⟩
    | clear => exact ⟨clear_wf1 w, h.shr (clear_shr (env := env) (F := { die := fun _ _ _ => True }) w (fun _ _ _ => trivial)), by simp [step, hop]⟩
    | count => exact ⟨w, h, hop⟩
    | complete t r => simp only [step, complete, hop]; exact ⟨w, h, hop⟩
    | drop t => simp only [step, drop, hop]; exact ⟨w, h, hop⟩
    | tick r b => exact absurd h1.2.1 (by simp [hf])
    | destroy =>
      refine ⟨destroy_wf1 w, ?_, (dispose_fields cfg n.s.ents { n.s with tbl := n.s.tbl.map (fun _ => []) }).2.2.2.1.trans hop⟩
      intro e he; simp only [step] at he; rw [destroy_ents] at he; cases he

/-- Everything stored was stored by an earlier step. -/
theorem runN_holds (hc : cfg.Ok) (hr : cfg.resolver = .sync) (hf : cfg.refresh = none) (h : NHist K V E) (hok : NOk cfg {} h) :
    WF1 cfg (runN cfg ({} : NSt K V E) h).1.s ∧ Holds (StoredBy cfg h) (runN cfg ({} : NSt K V E) h).1.s ∧ (runN cfg ({} : NSt K V E) h).1.s.opens = [] := by
  induction h using snoc_ind with
  | h0 => exact ⟨wf1_init cfg, by intro e he; simp [runN, St.ents] at he, rfl⟩
  | h1 h a ih =>
    obtain ⟨env, e⟩ := a
    rw [NOk_snoc] at hok
    obtain ⟨i1, i2, i3⟩ := ih hok.1
    rw [runN_snoc]
    refine nstep_holds hc hf i1 (i2.mono ?_) i3 e hok.2 hr ?_
    · rintro k v ⟨h1, env1, e1, h2, rfl, hs⟩
      exact ⟨h1, env1, e1, h2 ++ [(env, e)], by simp, hs⟩
    · intro k v hs
      exact ⟨h, env, e, [], rfl, hs⟩

/-! ### With pointers -/

theorem _root_.Hoard.PSim.step_closed {p : PSt K V E} {s : St K V E} {bs : List (List Nat)} (h : PSim cfg p s bs []) (hop : s.opens = []) (env : Env V) (o : Op K V E) (ho : o.ok cfg s) :
    ∃ p' bs', p.step cfg env o = some (p', (Hoard.step cfg env s o).2) ∧ PSim cfg p' (Hoard.step cfg env s o).1 bs' [] := by
  have hn : s.opens.Nodup := by rw [hop]; exact List.nodup_nil
  cases o with
  | getIfExists k => exact ⟨p, bs, by simp only [PSt.step, h.getIfExists env k, Option.bind_eq_bind, Option.bind_some]; rfl, h⟩
  | get k r => exact h.get env k r
  | asyncGet k w b => exact h.asyncGet hn ho.2 env k w b
  | emplace k v f => exact h.emplace env k v f
  | getOrEmplace k v f => exact h.getOrEmplace env k v f
  | erase k =>
    obtain ⟨p', bs', e, h'⟩ := h.expire_ env k
    exact ⟨p', bs', by simp only [PSt.step, e, Option.bind_eq_bind, Option.bind_some]; rfl, h'⟩
  | clear =>
    obtain ⟨p', bs', e, h'⟩ := h.clear
    exact ⟨p', bs', by simp only [PSt.step, e, Option.bind_eq_bind, Option.bind_some]; rfl, h'⟩
  | count => exact ⟨p, bs, by simp only [PSt.step, h.count env, Option.bind_eq_bind, Option.bind_some]; rfl, h⟩
  | complete tok r =>
    obtain ⟨p', e, h', _⟩ := h.complete env r (tok := tok) (by intro hh; rw [hop] at hh; cases hh)
    exact ⟨p', bs, e, h'⟩
  | drop tok =>
    obtain ⟨p', e, h', _⟩ := h.dropTok hn tok
    exact ⟨p', bs, e, h'⟩
  | tick r b => exact h.tick hn ho.2.2 env r b
  | destroy => exact h.destroy

theorem opens_step (hr : cfg.resolver = .sync) {n : NSt K V E} (hop : n.s.opens = []) (e : Ev K V E) (he : e.ok cfg n) : (next cfg env n e).1.s.opens = [] := by
  cases e with
  | get k =>
    generalize hgg : get_ cfg env n.s k false = g
    have : (get_ cfg env n.s k false).1.opens = [] := by simp [hop]
    rw [hgg] at this
    obtain ⟨s1, l⟩ := g
    by_cases hl : l = .none
    · subst hl; rw [next_none hgg]; exact this
    · rw [next_some hgg hl]; exact this
  | ret r =>
    cases hst : n.stack with
    | nil => exact absurd hst he
    | cons k st => simp [next, hst, resolveSync, hop]
  | op o =>
    show (step cfg env n.s o).1.opens = []
    cases o with
    | asyncGet k w b => exact absurd he.1.1 (by rw [hr]; simp)
    | destroy => exact (dispose_fields cfg n.s.ents { n.s with tbl := n.s.tbl.map (fun _ => []) }).2.2.2.1.trans hop
    | complete t r => simp [step, complete, hop]
    | drop t => simp [step, drop, hop]
    | get k r => exact absurd rfl (he.2.1 k r)
    | emplace k v f => simp only [step, emplace]; split <;> simp [hop]
    | getOrEmplace k v f =>
      have : (get_ cfg env n.s k true).1.opens = [] := by simp [hop]
      simp only [step, getOrEmplace]
      generalize get_ cfg env n.s k true = g at this
      obtain ⟨s1, l⟩ := g
      replace this : s1.opens = [] := this
      cases l <;> simp only <;> first | (simp only [maintenance_opens, this]; done) | (split <;> simp [this])
    | erase k => simp [step, erase, hop]
    | tick r b =>
      simp only [step, tick]
      split
      · exact hop
      · split
        · exact hop
        · split
          · unfold refresh
            split
            · exact hop
            · rw [hr]
              simp only [reduceCtorEq, if_false, resolveSync]
              split
              · split
                · simp [hop]
                · simp [hop]
              · simp [hop]
          · exact hop
    | _ => simp [step, hop]

theorem pnext_sim {p : PSt K V E} {n : NSt K V E} {bs : List (List Nat)} (h : PSim cfg p n.s bs []) (hop : n.s.opens = []) (env : Env V) (e : Ev K V E) (he : e.ok cfg n) :
    ∃ p' bs', pnext cfg env p n.stack e = some (p', (next cfg env n e).1.stack, (next cfg env n e).2) ∧ PSim cfg p' (next cfg env n e).1.s bs' [] := by
  cases e with
  | op o =>
    obtain ⟨p', bs', e1, h1⟩ := h.step_closed hop env o he.1
    exact ⟨p', bs', by simp only [pnext, e1, Option.bind_eq_bind, Option.bind_some]; rfl, h1⟩
  | get k =>
    obtain ⟨p1, bs1, e1, h1, m1⟩ := h.get_ env k false
    have hl := get_look (cfg := cfg) env n.s k false
    cases hh : lookup cfg env n.s k false with
    | none =>
      rw [hh] at hl
      have hgg : get_ cfg env n.s k false = ((get_ cfg env n.s k false).1, .none) := Prod.ext rfl hl
      rw [next_none hgg]
      exact ⟨p1, bs1, by simp only [pnext, e1, hh, Option.bind_eq_bind, Option.bind_some], h1⟩
    | some il =>
      obtain ⟨i, l⟩ := il
      rw [hh] at hl
      have hgg : get_ cfg env n.s k false = ((get_ cfg env n.s k false).1, l) := Prod.ext rfl hl
      rw [next_some hgg (getWalk_ne_none env k false _ hh)]
      exact ⟨p1, bs1, by simp only [pnext, e1, hh, Option.bind_eq_bind, Option.bind_some], h1⟩
  | ret r =>
    cases hst : n.stack with
    | nil => exact absurd hst he
    | cons k st =>
      obtain ⟨p2, bs2, e2, h2, m2, g2⟩ := h.resolveSync (by simp) env k r
      have hrd : p2.rd n.s.nextId = some (p2.obj n.s.nextId) := PSt.rd_eq (h2.core.pos_ls m2)
      obtain ⟨p3, e3, h3, _⟩ := h2.dec
      refine ⟨p3, bs2, ?_, by simp only [next, hst]; exact h3⟩
      simp only [pnext, next, hst, e2, Option.bind_eq_bind, Option.bind_some, hrd, e3, g2]

theorem prunN_sim (hr : cfg.resolver = .sync) : ∀ (h : NHist K V E) {p : PSt K V E} {n : NSt K V E} {bs : List (List Nat)}, PSim cfg p n.s bs [] → n.s.opens = [] → NOk cfg n h →
    ∃ p' bs', prunN cfg p n.stack h = some (p', (runN cfg n h).1.stack, (runN cfg n h).2) ∧ PSim cfg p' (runN cfg n h).1.s bs' []
  | [], p, n, bs, hp, _, _ => ⟨p, bs, rfl, hp⟩
  | (env, e) :: h, p, n, bs, hp, hop, hok => by
    obtain ⟨p1, bs1, e1, h1⟩ := pnext_sim hp hop env e hok.1
    obtain ⟨p2, bs2, e2, h2⟩ := prunN_sim hr h h1 (opens_step hr hop e hok.1) hok.2
    refine ⟨p2, bs2, ?_, h2⟩
    simp only [prunN, e1, Option.bind_eq_bind, Option.bind_some, e2, runN]

end Hoard.Nested
