import Verif.FillLemmas
/-! Caches that stay within their size limit. -/
namespace Hoard
open Spec
variable {K V E : Type} {cfg : Cfg K} {M : Md V} {s s' : St K V E} {L : Ledger K V} {env : Env V}

/-! ### Within the limit, weakening makes no difference -/

/-- The same cache without weakening. -/
def Cfg.noWeak (cfg : Cfg K) : Cfg K := { cfg with weaken := false }

theorem getWalk_nw (env : Env V) (k : K) (incl : Bool) (es : List (Entry K V E)) : getWalk cfg.noWeak env k incl es = getWalk cfg env k incl es := by
  induction es with
  | nil => rfl
  | cons e es ih => simp only [getWalk, ih]; rfl

theorem expireWalk_nw (env : Env V) (k : K) (es : List (Entry K V E)) : expireWalk cfg.noWeak env k es = expireWalk cfg env k es := by
  induction es with
  | nil => rfl
  | cons e es ih => simp only [expireWalk, ih]; rfl

theorem peekWalk_nw (env : Env V) (k : K) (es : List (Entry K V E)) : peekWalk cfg.noWeak env k es = peekWalk cfg env k es := by
  induction es with
  | nil => rfl
  | cons e es ih => simp only [peekWalk, ih]; rfl

theorem get__nw (env : Env V) (s : St K V E) (k : K) (incl : Bool) : get_ cfg.noWeak env s k incl = get_ cfg env s k incl := by
  simp only [get_, getWalk_nw]; rfl

theorem expire_nw (env : Env V) (s : St K V E) (k : K) : expire_ cfg.noWeak env s k = expire_ cfg env s k := by
  simp only [expire_, expireWalk_nw]; rfl

theorem maintenance_nw {N : Nat} (hN : cfg.maxSize = some N) (h : (maintenance cfg s).size ≤ N) : maintenance cfg.noWeak s = maintenance cfg s := by
  rw [maintenance_size] at h
  have h0 : s.bq.victims (s.size - N) = [] := by
    rw [show s.size - N = 0 by omega]
    unfold BQ.victims
    cases s.bq.q.reverse <;> rfl
  have hN' : cfg.noWeak.maxSize = some N := hN
  simp only [maintenance, hN, hN', h0]; rfl

theorem tryLink_nw (env : Env V) (s : St K V E) (e : Entry K V E) (f : Fail) : tryLink cfg.noWeak env s e f = tryLink cfg env s e f := rfl

theorem step_nw {N : Nat} (hN : cfg.maxSize = some N) (env : Env V) (s : St K V E) (o : Op K V E) (h : (step cfg env s o).1.size ≤ N) :
    step cfg.noWeak env s o = step cfg env s o := by
  cases o with
  | getIfExists k => simp only [step, getIfExists, peekWalk_nw]; rfl
  | get k r => simp only [step, get, get__nw]; rfl
  | asyncGet k w b =>
    simp only [step, asyncGet, get__nw, getWalk_nw]
    rfl
  | emplace k v f =>
    simp only [step, emplace, expire_nw, tryLink_nw] at h ⊢
    split
    · rename_i hh; rw [if_pos hh] at h; rw [maintenance_nw hN h]
    · rfl
  | getOrEmplace k v f =>
    simp only [step, getOrEmplace, get__nw, tryLink_nw] at h ⊢
    generalize get_ cfg env s k true = g at *
    obtain ⟨s1, l⟩ := g
    simp only at *
    cases l with
    | none =>
      simp only at h ⊢
      split
      · rename_i hh; rw [if_pos hh] at h; rw [maintenance_nw hN h]
      · rfl
    | val u => simp only at h ⊢; rw [maintenance_nw hN h]
    | err u => simp only at h ⊢; rw [maintenance_nw hN h]
    | pend => simp only at h ⊢; rw [maintenance_nw hN h]
  | erase k => simp only [step, erase, expire_nw]
  | clear => rfl
  | count => rfl
  | complete t r => rfl
  | drop t => rfl
  | tick r b => rfl
  | destroy => rfl

theorem WithinH.prefix {N : Nat} {h1 h2 : Hist K V E} (h : WithinH cfg N (h1 ++ h2)) : WithinH cfg N h1 :=
  fun a b hab => h a (b ++ h2) (by rw [hab]; simp)

theorem run_nw {N : Nat} (hN : cfg.maxSize = some N) (h : Hist K V E) (hw : WithinH cfg N h) :
    run cfg.noWeak St.init h = run cfg St.init h := by
  induction h using snoc_ind with
  | h0 => rfl
  | h1 h p ih =>
    obtain ⟨e, o⟩ := p
    have := hw (h ++ [(e, o)]) [] (by simp)
    rw [stateAfter_snoc] at this
    rw [run_append, run_append, ih hw.prefix]
    simp only [run, step_nw hN e (run cfg St.init h).1 o this]

theorem stateAfter_nw {N : Nat} (hN : cfg.maxSize = some N) (h : Hist K V E) (hw : WithinH cfg N h) :
    (stateAfter cfg.noWeak h : St K V E) = stateAfter cfg h := by simp only [stateAfter, run_nw hN h hw]

theorem ledgerAfter_nw {N : Nat} (hN : cfg.maxSize = some N) (h : Hist K V E) (hw : WithinH cfg N h) :
    (ledgerAfter cfg.noWeak h : Ledger K V) = ledgerAfter cfg h := by simp only [ledgerAfter, run_nw hN h hw]; rfl

theorem noEvictH_of {N : Nat} (hN : cfg.maxSize = some N) (h : Hist K V E) (hw : WithinH cfg N h) : NoEvictH cfg (St.init : St K V E) h := by
  induction h using snoc_ind with
  | h0 => intro n hn; left; simp [St.size, St.init, St.ents]
  | h1 h p ih =>
    obtain ⟨e, o⟩ := p
    rw [NoEvictH_append]
    refine ⟨ih hw.prefix, ?_, ?_⟩
    · intro n hn; rw [hN] at hn; cases hn; exact .inl (hw h _ rfl)
    · intro n hn; rw [hN] at hn; cases hn
      have := hw (h ++ [(e, o)]) [] (by simp)
      rw [stateAfter_snoc] at this
      exact .inl this

theorem histOk_nw {N : Nat} (hN : cfg.maxSize = some N) (h : Hist K V E) (hw : WithinH cfg N h) (hok : HistOk cfg (St.init : St K V E) h) :
    HistOk cfg.noWeak (St.init : St K V E) h := by
  induction h using snoc_ind with
  | h0 => trivial
  | h1 h p ih =>
    obtain ⟨e, o⟩ := p
    rw [HistOk_append] at hok ⊢
    refine ⟨ih hw.prefix hok.1, ?_⟩
    rw [run_nw hN h hw.prefix]
    exact ⟨by have := hok.2.1; cases o <;> exact this, trivial⟩

theorem Cfg.Ok.noWeak (hc : cfg.Ok) : cfg.noWeak.Ok := ⟨hc.refl, hc.symm, hc.trans, hc.hash, hc.idle⟩

/-! ### Few keys -/

/-- Every entry has its own key, from the given list. -/
structure Few (cfg : Cfg K) (ks : List K) (s : St K V E) : Prop where
  one : ∀ a ∈ s.ents, ∀ b ∈ s.ents, cfg.eqv a.key b.key = true → a.id = b.id
  mem : ∀ e ∈ s.ents, e.key ∈ ks

theorem Few.shr {F : Eff K V} {ks : List K} (h : Few cfg ks s) (sh : Shr cfg env F s s') : Few cfg ks s' where
  one := by
    intro a ha b hb hab
    obtain ⟨a0, ha0, sa⟩ := sh.bwd a ha
    obtain ⟨b0, hb0, sb⟩ := sh.bwd b hb
    rw [sa.key, sb.key] at hab
    rw [sa.id, sb.id]; exact h.one a0 ha0 b0 hb0 hab
  mem := by
    intro e he
    obtain ⟨e0, he0, se⟩ := sh.bwd e he
    rw [se.key]; exact h.mem e0 he0

theorem Few.link (hc : cfg.Ok) {ks : List K} (h : Few cfg ks s) (w : WF1 cfg s) {k : K} (hk : k ∈ ks) (hn : ∀ e ∈ s.ents, cfg.eqv e.key k = false) (m : Mapped V E) :
    Few cfg ks (link cfg env s (newEntry s k m)) := by
  obtain ⟨wl, r, hin, _⟩ := link_spc (F := ({} : Eff K V)) env w (e := newEntry s k m) rfl
  have hf := linkUpd_facts cfg env (newEntry s k m)
  have key : ∀ e ∈ (Hoard.link cfg env s (newEntry s k m)).ents, (e.id = s.nextId ∧ e.key = k) ∨ ∃ e0 ∈ s.ents, e.id = e0.id ∧ e.key = e0.key := by
    intro e he
    by_cases hx : e.id = (newEntry s k m).id
    · have := eq_of_id wl he hin (hx.trans hf.1.symm)
      subst this
      exact .inl ⟨hx, hf.2.1⟩
    · obtain ⟨e0, he0, sh⟩ := r.bwd e he hx
      exact .inr ⟨e0, he0, sh.id, sh.key⟩
  constructor
  · intro a ha b hb hab
    rcases key a ha with ⟨h1, h2⟩ | ⟨a0, h0, h1, h2⟩ <;> rcases key b hb with ⟨h3, h4⟩ | ⟨b0, h5, h3, h4⟩
    · rw [h1, h3]
    · rw [h2, h4] at hab
      have := hc.symm _ _ hab
      rw [hn b0 h5] at this; cases this
    · rw [h2, h4, hn a0 h0] at hab; cases hab
    · rw [h1, h3]; rw [h2, h4] at hab; exact h.one _ h0 _ h5 hab
  · intro e he
    rcases key e he with ⟨_, h2⟩ | ⟨e0, h0, _, h2⟩
    · rw [h2]; exact hk
    · rw [h2]; exact h.mem e0 h0

theorem few_size (hc : cfg.Ok) (w : WF1 cfg s) {ks : List K} (h : Few cfg ks s) : s.size ≤ ks.length := by
  classical
  have hn : (s.ents.map (·.key)).Nodup := by
    have hid := nodup_ents w
    unfold List.Nodup at hid ⊢
    rw [List.pairwise_map] at hid ⊢
    refine List.Pairwise.imp_of_mem ?_ hid
    intro a b ha hb hne hk
    exact hne (h.one a ha b hb (by rw [hk]; exact hc.refl _))
  have := nodup_len_le hn (m := ks) (by
    intro x hx
    obtain ⟨e, he, rfl⟩ := List.mem_map.1 hx
    exact h.mem e he)
  simpa [St.size] using this

/-- After a miss there is no entry for the key. -/
theorem miss_no_entry (hc : cfg.Ok) (w : WF1 cfg s) (w2 : WF2 cfg s) (hnv : ∀ e ∈ s.ents, e.mapped.isVoid = false) (hr : cfg.resolver ≠ .async) (k : K) (incl : Bool)
    (hi : incl = true ∨ cfg.resolver ≠ .async) (hm : (get_ cfg env s k incl).2 = .none) :
    ∀ e ∈ (get_ cfg env s k incl).1.ents, cfg.eqv e.key k = false := by
  rw [get__eq hc w.placed] at hm ⊢
  cases hf : s.ents.find? (isHit cfg env k incl) with
  | some e =>
    exfalso
    obtain ⟨_, _, _, ⟨v, h1, h2⟩ | ⟨h1, h2, h3⟩⟩ := hit_facts hf
    · simp only [hf, h2] at hm; cases hm
    · simp only [hf, h3] at hm; cases hm
  | none =>
    simp only
    intro e he
    cases hk : cfg.eqv e.key k with
    | false => rfl
    | true =>
      exfalso
      have hmiss := walked_miss hc w.placed env k incl hf e he hk
      have hs := (walked_drops (cfg := cfg) s env k incl).mem he
      have hnp := (w2.noA hr).2 e hs
      have hcl := miss_clean hc env w w2 k incl (hi) hf e he hk
      rcases Bool.eq_false_or_eq_true (e.expired env) with hx | hx
      · simp [stale, hx, hnp] at hmiss
      · have ha := act_of_not_expired hx (hnv e hs)
        simp [act, hcl.1, hcl.2] at ha

theorem expire_no_entry (hc : cfg.Ok) (w : WF1 cfg s) (w2 : WF2 cfg s) (hr : cfg.resolver ≠ .async) (k : K) :
    ∀ e ∈ (expire_ cfg env s k).ents, cfg.eqv e.key k = false := by
  obtain ⟨kept, rem, h1, h2, _, h4⟩ := expire_spec hc w env k
  intro e he
  obtain ⟨e0, he0, rfl⟩ := List.mem_map.1 (h2.mem_iff.1 he)
  have hk := expUpd_idKey cfg k e0
  rw [hk.2]
  cases hh : cfg.eqv e0.key k with
  | false => rfl
  | true =>
    have := (w2.noA hr).2 e0 (h1.mem_iff.2 (List.mem_append_left _ he0))
    rw [h4 e0 he0 hh] at this; cases this

theorem step_few (hc : cfg.Ok) (hr : cfg.resolver ≠ .async) (hf : cfg.refresh = none) {X} (h : Good cfg ⟨False, False, env, True⟩ X s L) {ks : List K}
    (hw : Few cfg ks s) (o : Op K V E) (ho : o.ok cfg s) (hk : ∀ k ∈ o.keys, k ∈ ks) : Few cfg ks (step cfg env s o).1 := by
  have w := h.wf1
  have hop : s.opens = [] := (h.wf2.noA hr).1
  have few_m : ∀ {s1 : St K V E}, WF1 cfg s1 → Few cfg ks s1 → Few cfg ks (maintenance cfg s1) :=
    fun w1 h1 => h1.shr (maintenance_shr env w1)
  have hlink : ∀ {s1 : St K V E} (f : Fail) (k : K) (m : Mapped V E), WF1 cfg s1 → Few cfg ks s1 → k ∈ ks → (∀ e ∈ s1.ents, cfg.eqv e.key k = false) →
      Few cfg ks (if (tryLink cfg env s1 (newEntry s1 k m) f).2 then maintenance cfg (tryLink cfg env s1 (newEntry s1 k m) f).1 else (tryLink cfg env s1 (newEntry s1 k m) f).1) := by
    intro s1 f k m w1 h1 hks hn
    rcases tryLink_cases cfg env s1 (newEntry s1 k m) f with hh | hh | hh <;> rw [hh] <;> simp only [if_true, Bool.false_eq_true, if_false]
    · exact few_m (link_spec env w1 rfl).1 (h1.link hc w1 hks hn m)
    · exact h1
    · exact h1.shr (beforeLink_shr (F := {}) w1)
  cases o with
  | getIfExists k => exact hw
  | count => exact hw
  | get k r =>
    have h1 := hw.shr (get__shr (env := env) hc w k false)
    have w1 := get__wf1 hc w env k false
    have hno := miss_no_entry (env := env) hc w h.wf2 (h.dq.noVoid trivial) hr k false (.inr hr)
    simp only [step, get]
    generalize get_ cfg env s k false = g at *
    obtain ⟨s1, l⟩ := g
    simp only at *
    cases hk2 : cfg.resolver with
    | async => exact absurd hk2 hr
    | none => cases l <;> exact h1
    | sync =>
      cases l with
      | none => exact h1.link hc w1 (hk k (by simp [Op.keys])) (hno rfl) _
      | val u => exact h1
      | err u => exact h1
      | pend => exact h1
  | asyncGet k w b => exact absurd ho.1 hr
  | tick r b => have := ho.2.1; rw [hf] at this; cases this
  | complete t r => simp only [step, complete, hop, List.not_mem_nil, if_false]; exact hw
  | drop t => simp only [step, drop, hop, List.not_mem_nil, if_false]; exact hw
  | erase k => exact hw.shr (expire_shr (env := env) (F := { die := fun _ _ _ => True }) hc w k (fun _ _ _ _ => trivial))
  | clear => exact hw.shr (clear_shr (env := env) (F := { die := fun _ _ _ => True }) w (fun _ _ _ => trivial))
  | destroy => constructor <;> simp [step, destroy_ents]
  | emplace k v f =>
    have h1 := hw.shr (expire_shr (env := env) (F := { die := fun _ _ _ => True }) hc w k (fun _ _ _ _ => trivial))
    have := hlink f k (.value v) (expire_wf1 hc w env k) h1 (hk k (by simp [Op.keys])) (expire_no_entry hc w h.wf2 hr k)
    simp only [step, emplace]
    split <;> simp_all
  | getOrEmplace k v f =>
    have h1 := hw.shr (get__shr (env := env) hc w k true)
    have w1 := get__wf1 hc w env k true
    have hno := miss_no_entry (env := env) hc w h.wf2 (h.dq.noVoid trivial) hr k true (.inl rfl)
    simp only [step, getOrEmplace]
    generalize get_ cfg env s k true = g at *
    obtain ⟨s1, l⟩ := g
    simp only at *
    cases l with
    | none =>
      have := hlink f k (.value v) w1 h1 (hk k (by simp [Op.keys])) (hno rfl)
      simp only
      split <;> simp_all
    | val u => exact few_m w1 h1
    | err u => exact few_m w1 h1
    | pend => exact few_m w1 h1

/-- A cache without asynchronous resolver and refreshing that only ever stored keys
from a list of length at most `N` stays within the limit `N`. -/
theorem within_of_keys (hc : cfg.Ok) (hr : cfg.resolver ≠ .async) (hf : cfg.refresh = none) {N : Nat} (ks : List K) (hN : ks.length ≤ N)
    (h : Hist K V E) (hok : HistOk cfg (St.init : St K V E) h) (hk : ∀ p ∈ h, ∀ k ∈ p.2.keys, k ∈ ks) : WithinH cfg N h := by
  have : Few cfg ks (stateAfter cfg h) ∧ WithinH cfg N h := by
    induction h using snoc_ind with
    | h0 =>
      refine ⟨by constructor <;> simp [St.init, St.ents], ?_⟩
      intro a b hab
      have : a = [] := by cases a with | nil => rfl | cons _ _ => cases hab
      subst this; simp [St.size, St.init, St.ents]
    | h1 h p ih =>
      obtain ⟨e, o⟩ := p
      obtain ⟨ok1, ok2⟩ := HistOk_append.1 hok
      obtain ⟨f1, w1⟩ := ih ok1 (fun p hp => hk p (by simp [hp]))
      have g := good_any hc h ok1 e
      have f2 := step_few hc hr hf g f1 o ok2.1 (hk (e, o) (by simp))
      have g2 := good_any hc (h ++ [(e, o)]) hok e
      rw [← stateAfter_snoc] at f2
      refine ⟨f2, ?_⟩
      intro a b hab
      rcases List.eq_nil_or_concat b with rfl | ⟨b, x, rfl⟩
      · rw [List.append_nil] at hab; subst hab
        exact Nat.le_trans (few_size hc g2.wf1 f2) hN
      · rw [List.concat_eq_append, ← List.append_assoc] at hab
        exact w1 a b (List.append_inj' hab rfl).1
  exact this.2

end Hoard
