import Verif.NestedRun
import Verif.MapLemmas
/-! Helper lemmas about nested calls: how often resolvers are called, and where shown values come from. -/
namespace Hoard.Nested
open Spec
variable {K V E : Type} {cfg : Cfg K}

theorem noEvictN_unlimited (hs : cfg.maxSize = none) : ∀ (h : NHist K V E) (n : NSt K V E), NoEvictN cfg n h
  | [], n => sim_noEvict hs n.s
  | (_, _) :: h, n => ⟨sim_noEvict hs n.s, noEvictN_unlimited hs h _⟩

theorem deadL_untimed (hu : cfg.Untimed) {env : Env V} {L : Ledger K V} {k : K} {v : V} : ¬ DeadL cfg env L k v := by
  obtain ⟨h1, h2, h3⟩ := hu
  rintro (h | h | ⟨a, b, c, _⟩)
  · simp [Ledger.ageLimit, h1, reached] at h
  · simp [Ledger.idleLimit, h2, reached] at h
  · rcases h3 with h | h | h
    · rw [h] at a; cases a
    · rw [h] at b; cases b
    · rw [h] at c; cases c

/-- The key was stored or is being resolved. -/
def Known (cfg : Cfg K) (L : Ledger K V) (stack : List K) (k : K) : Prop := L.cur k ≠ none ∨ ∃ a ∈ stack, cfg.eqv a k = true

theorem write_cur (eqv : K → K → Bool) (now : Time) (L : Ledger K V) (a : K) (v : Option V) (k : K) :
    (L.write eqv now a v).cur k = if eqv k a then v else L.cur k := rfl

/-- Steps that remove nothing keep what is known. -/
theorem known_step (hc : cfg.Ok) {env : Env V} {n : NSt K V E} {L : Ledger K V} (e : Ev K V E) (hk : e.retains) {k : K}
    (h : Known cfg L n.stack k) :
    Known cfg (after cfg.eqv cfg.resolver env.now L n.stack e (next cfg env n e).2) (next cfg env n e).1.stack k := by
  have hw : ∀ (L : Ledger K V) (st : List K) a v, Known cfg L st k → Known cfg (L.write cfg.eqv env.now a (some v)) st k := by
    intro L st a v h
    rcases h with h | h
    · left; rw [write_cur]; split
      · simp
      · exact h
    · exact .inr h
  cases e with
  | get a =>
    generalize hgg : get_ cfg env n.s a false = g
    obtain ⟨s1, l⟩ := g
    by_cases hl : l = .none
    · subst hl; rw [next_none hgg]
      simp only [after]
      rcases h with h | ⟨b, hb, hbk⟩
      · by_cases hka : cfg.eqv k a = true
        · exact .inr ⟨a, List.mem_cons_self .., hc.symm _ _ hka⟩
        · left; rw [write_cur, if_neg hka]; exact h
      · exact .inr ⟨b, List.mem_cons_of_mem _ hb, hbk⟩
    · rw [next_some hgg hl]
      simp only [after, Ledger.read]
      split <;> exact h
  | ret r =>
    cases r with
    | err x => exact hk.elim
    | ok v =>
      cases hs : n.stack with
      | nil => simp only [next, hs, after]; rw [hs] at h; exact h
      | cons a st =>
        simp only [next, hs, after, value?]
        rw [hs] at h
        rcases h with h | ⟨b, hb, hbk⟩
        · exact hw _ _ _ _ (.inl h)
        · rcases List.mem_cons.1 hb with rfl | hb
          · left; rw [write_cur, if_pos (hc.symm _ _ hbk)]; simp
          · exact .inr ⟨b, hb, hbk⟩
  | op o =>
    cases o with
    | getIfExists a => simp only [next, after, Ledger.after]; split <;> exact h
    | emplace a v f =>
      cases f with
      | none =>
        have : (step cfg env n.s (.emplace a v .none)).2.made = true := by simp [step, emplace, tryLink]
        simp only [next, after, Ledger.after, this]
        exact hw _ _ _ _ h
      | _ => exact hk.elim
    | getOrEmplace a v f =>
      simp only [next, after, Ledger.after]
      split
      · exact hw _ _ _ _ h
      · split <;> exact h
    | count => exact h
    | _ => exact hk.elim

theorem once_run (hc : cfg.Ok) (hr : cfg.resolver = .sync) (hs : cfg.maxSize = none) (hu : cfg.Untimed) (h : NHist K V E) (hok : NOk cfg {} h)
    (hap : AllApart cfg {} h) (hk : ∀ p ∈ h, p.2.retains) (k : K) :
    (runN cfg {} h).2.countP (Ans.callsFor cfg.eqv k) ≤ 1 ∧
    (0 < (runN cfg {} h).2.countP (Ans.callsFor cfg.eqv k) → Known cfg (ledgerAfterN cfg h) (runN cfg {} h).1.stack k) := by
  induction h using snoc_ind with
  | h0 => simp [runN]
  | h1 h a ih =>
    obtain ⟨env, e⟩ := a
    rw [NOk_snoc] at hok
    rw [AllApart_snoc] at hap
    obtain ⟨i1, i2⟩ := ih hok.1 hap.1 (fun p hp => hk p (List.mem_append_left _ hp))
    have hke := hk (env, e) (by simp)
    have g := (reachN_good (mo := False) (ex := True) hc hr (fun _ => .inr hu) h env hok.1 hap.1 (fun h => h.elim) (fun _ => noEvictN_unlimited hs _ _)).1
    rw [ledgerAfterN_snoc, runN_snoc, List.countP_append, List.countP_singleton]
    by_cases hcall : (next cfg env (runN cfg {} h).1 e).2.callsFor cfg.eqv k = true
    · rw [if_pos hcall]
      cases e with
      | op o => cases hcall
      | ret r =>
        simp only [next] at hcall
        split at hcall <;> cases hcall
      | get a =>
        have hapa : ∀ b ∈ (runN cfg ({} : NSt K V E) h).1.stack, cfg.eqv a b = false := hap.2
        obtain ⟨_, ⟨v, h1, _⟩ | ⟨h1, h2, h3⟩⟩ := nget_ok (M := ⟨False, True, env, True⟩) hc hr g a hok.2.2 hapa
        · rw [h1] at hcall; cases hcall
        · have h1 : (next cfg env (runN cfg ({} : NSt K V E) h).1 (.get a)).2 = .called a := h1
          have h2 : (next cfg env (runN cfg ({} : NSt K V E) h).1 (.get a)).1.stack = a :: (runN cfg ({} : NSt K V E) h).1.stack := h2
          rw [h1] at hcall
          have hak : cfg.eqv a k = true := hcall
          have hz : (runN cfg ({} : NSt K V E) h).2.countP (Ans.callsFor cfg.eqv k) = 0 := by
            rcases Nat.eq_zero_or_pos ((runN cfg ({} : NSt K V E) h).2.countP (Ans.callsFor cfg.eqv k)) with hz | hz
            · exact hz
            · rcases i2 hz with h4 | ⟨b, hb, hbk⟩
              · rw [← (g.good.g.rsp a k hak).1] at h4
                cases hcu : (ledgerAfterN cfg h).cur a with
                | none => exact absurd hcu h4
                | some u => exact absurd (h3 trivial u hcu) (deadL_untimed hu)
              · have := hapa b hb
                rw [hc.trans _ _ _ hak (hc.symm _ _ hbk)] at this; cases this
          refine ⟨by omega, fun _ => .inr ⟨a, ?_, hak⟩⟩
          rw [h2]; exact List.mem_cons_self ..
    · rw [if_neg hcall]
      exact ⟨i1, fun hp => known_step hc e hke (i2 hp)⟩

/-- Resolvers that only go down keep apart. -/
theorem apart_of_descends (lt : K → K → Prop) (htr : ∀ a b c, lt a b → lt b c → lt a c)
    (hirr : ∀ a b, lt a b → cfg.eqv a b = false) (h : NHist K V E) (hd : Descends cfg lt {} h) :
    AllApart cfg {} h ∧ (runN cfg ({} : NSt K V E) h).1.stack.Pairwise (fun a b => lt a b) := by
  induction h using snoc_ind with
  | h0 => exact ⟨trivial, List.Pairwise.nil⟩
  | h1 h a ih =>
    obtain ⟨env, e⟩ := a
    rw [Descends_snoc] at hd
    obtain ⟨i1, i2⟩ := ih hd.1
    rw [AllApart_snoc, runN_snoc]
    have hall : ∀ k, (∀ a, (runN cfg ({} : NSt K V E) h).1.stack.head? = some a → lt k a) →
        ∀ a ∈ (runN cfg ({} : NSt K V E) h).1.stack, lt k a := by
      intro k hk a ha
      generalize (runN cfg ({} : NSt K V E) h).1.stack = st at *
      cases st with
      | nil => cases ha
      | cons b st =>
        have hb := hk b rfl
        rcases List.mem_cons.1 ha with rfl | ha
        · exact hb
        · exact htr _ _ _ hb ((List.pairwise_cons.1 i2).1 a ha)
    have hap : Apart cfg.eqv (runN cfg ({} : NSt K V E) h).1.stack e := by
      cases e with
      | get k => exact fun a ha => hirr _ _ (hall k hd.2 a ha)
      | ret r => trivial
      | op o =>
        cases o with
        | emplace k v f => intro a ha; rw [show (runN cfg ({} : NSt K V E) h).1.stack = [] from hd.2] at ha; cases ha
        | getOrEmplace k v f => intro a ha; rw [show (runN cfg ({} : NSt K V E) h).1.stack = [] from hd.2] at ha; cases ha
        | _ => trivial
    refine ⟨⟨i1, hap⟩, ?_⟩
    rw [running_eq]
    cases e with
    | op o => exact i2
    | ret r => simp only [running]; exact i2.tail
    | get k =>
      have hlt := hall k hd.2
      generalize hgg : get_ cfg env (runN cfg ({} : NSt K V E) h).1.s k false = g
      obtain ⟨s1, l⟩ := g
      by_cases hl : l = .none
      · subst hl; rw [next_none hgg]; exact List.pairwise_cons.2 ⟨hlt, i2⟩
      · rw [next_some hgg hl]; exact i2

theorem stored_congr (hc : cfg.Ok) {h : NHist K V E} {a k : K} {v : V} (hak : cfg.eqv a k = true) (hs : StoredBy cfg h a v) : StoredBy cfg h k v := by
  obtain ⟨h1, env, e, h2, rfl, h3⟩ := hs
  refine ⟨h1, env, e, h2, rfl, ?_⟩
  cases e with
  | get k => exact h3.elim
  | ret r =>
    cases r with
    | err x => exact h3.elim
    | ok u => obtain ⟨p, b, q, r⟩ := h3; exact ⟨p, b, q, hc.trans _ _ _ r hak⟩
  | op o =>
    cases o with
    | emplace k v f => exact ⟨hc.trans _ _ _ h3.1 hak, h3.2⟩
    | getOrEmplace k v f => exact ⟨hc.trans _ _ _ h3.1 hak, h3.2⟩
    | tick r b =>
      cases r with
      | err x => exact h3.elim
      | ok u => obtain ⟨p, b, t, q, r⟩ := h3; exact ⟨p, b, t, q, hc.trans _ _ _ r hak⟩
    | _ => exact h3.elim

theorem stored_append {h : NHist K V E} {k : K} {v : V} (p) (hs : StoredBy cfg h k v) : StoredBy cfg (h ++ [p]) k v := by
  obtain ⟨h1, env, e, h2, rfl, h3⟩ := hs
  exact ⟨h1, env, e, h2 ++ [p], by simp, h3⟩

/-- A value that is shown was stored. -/
theorem shown_stored (hc : cfg.Ok) (hr : cfg.resolver = .sync) (hf : cfg.refresh = none) (h : NHist K V E) (hok : NOk cfg {} h)
    (env : Env V) (e : Ev K V E) (k : K) (v : V) (hs : Shows k v e (ansAt cfg h env e)) : StoredBy cfg (h ++ [(env, e)]) k v := by
  obtain ⟨w, hh, _⟩ := runN_holds hc hr hf h hok
  have look : ∀ (a : Entry K V E) incl, (runN cfg ({} : NSt K V E) h).1.s.ents.find? (isHit cfg env k incl) = some a → a.mapped.get env incl = .val v →
      StoredBy cfg (h ++ [(env, e)]) k v := by
    intro a incl hfi hg
    obtain ⟨ha, hak, _, ⟨u, h1, h2⟩ | ⟨_, _, h2⟩⟩ := hit_facts hfi
    · rw [hg] at h2; cases h2
      exact stored_append _ (stored_congr hc hak (hh a ha v h1))
    · rw [hg] at h2; cases h2
  have get : ∀ incl, (get_ cfg env (runN cfg ({} : NSt K V E) h).1.s k incl).2 = .val v → StoredBy cfg (h ++ [(env, e)]) k v := by
    intro incl hg
    rw [get__eq hc w.placed] at hg
    cases hfi : (runN cfg ({} : NSt K V E) h).1.s.ents.find? (isHit cfg env k incl) with
    | none => rw [hfi] at hg; cases hg
    | some a => rw [hfi] at hg; exact look a incl hfi hg
  cases e with
  | ret r => simp only [Shows] at hs
  | get a =>
    simp only [ansAt] at hs
    generalize hgg : get_ cfg env (runN cfg ({} : NSt K V E) h).1.s a false = g at hs
    obtain ⟨s1, l⟩ := g
    by_cases hl : l = .none
    · subst hl; rw [next_none hgg] at hs; exact hs.elim
    · rw [next_some hgg hl] at hs
      obtain ⟨rfl, hs⟩ := hs
      apply get false
      rw [hgg]
      cases l with
      | val u => cases hs; rfl
      | _ => cases hs
  | op o =>
    cases o with
    | getIfExists a =>
      obtain ⟨rfl, hs⟩ := hs
      have hs : (getIfExists cfg env (runN cfg ({} : NSt K V E) h).1.s a).ret = .val v := hs
      rw [getIfExists_eq hc w.placed] at hs
      cases hfi : (runN cfg ({} : NSt K V E) h).1.s.ents.find? (isHit cfg env a false) with
      | none => rw [hfi] at hs; cases hs
      | some b =>
        rw [hfi] at hs
        apply look b false hfi
        simp only [Option.map_some, Option.getD_some] at hs
        generalize b.mapped.get env false = l at hs
        cases l with
        | val u => cases hs; rfl
        | _ => cases hs
    | getOrEmplace a u f =>
      obtain ⟨rfl, hs⟩ := hs
      by_cases hm : (step cfg env (runN cfg ({} : NSt K V E) h).1.s (.getOrEmplace a u f)).2.made = true
      · refine ⟨h, env, _, [], rfl, hc.refl _, ?_, hm⟩
        simp only [step, getOrEmplace] at hs hm
        generalize get_ cfg env (runN cfg ({} : NSt K V E) h).1.s a true = g at hs hm
        obtain ⟨s1, l⟩ := g
        cases l with
        | none =>
          simp only at hs hm
          split at hs
          · cases hs; rfl
          · cases hs
        | _ => cases hm
      · apply get true
        simp only [step, getOrEmplace] at hs hm
        generalize get_ cfg env (runN cfg ({} : NSt K V E) h).1.s a true = g at hs hm
        obtain ⟨s1, l⟩ := g
        cases l with
        | none =>
          simp only at hs hm
          split at hs
          · rename_i hx; simp [hx] at hm
          · cases hs
        | val x => cases hs; rfl
        | _ => cases hs
    | _ => simp only [Shows] at hs

end Hoard.Nested
