import Verif.SizeLemmas
/-! All ways of asking for a value agree with `get_if_exists`. -/
namespace Hoard
open Spec
variable {K V E : Type} {cfg : Cfg K} {M : Md V} {s s' : St K V E} {L : Ledger K V} {env : Env V}

/-- What `get_if_exists` returns is also what any other way of asking returns, from the store. -/
theorem stored_of_peek (hc : cfg.Ok) (w : WF1 cfg s) (w2 : WF2 cfg s) {k : K} {v : V} (hp : (getIfExists cfg env s k).ret = .val v)
    {o : Op K V E} (ho : o.ok cfg s) (ha : Asks k o) :
    answered o (step cfg env s o).2 = some (k, v) ∧ (step cfg env s o).2.calls = [] ∧ (step cfg env s o).2.made = false := by
  cases o with
  | getIfExists k' =>
    cases ha
    simp only [step]
    have : getIfExists cfg env s k = { ret := .val v } := by
      simp only [getIfExists] at hp ⊢; rw [hp]
    rw [this]; exact ⟨rfl, rfl, rfl⟩
  | get k' r =>
    cases ha
    have := (get__peek hc w w2 env k false v).2 hp
    simp only [step, get]
    generalize get_ cfg env s k false = g at *
    obtain ⟨s1, l⟩ := g
    simp only at this
    subst this
    cases hr : cfg.resolver <;> exact ⟨rfl, rfl, rfl⟩
  | asyncGet k' w' b =>
    cases ha
    have h1 := (get__peek hc w w2 env k true v).2 hp
    rw [get__eq hc w.placed] at h1
    simp only [step]
    rw [asyncGet_eq hc w.placed]
    cases hf : s.ents.find? (isHit cfg env k true) with
    | none => rw [hf] at h1; cases h1
    | some e =>
      rw [hf] at h1
      simp only at h1 ⊢
      rw [h1]; exact ⟨rfl, rfl, rfl⟩
  | getOrEmplace k' u f =>
    cases ha
    have := (get__peek hc w w2 env k true v).2 hp
    simp only [step, getOrEmplace]
    generalize get_ cfg env s k true = g at *
    obtain ⟨s1, l⟩ := g
    simp only at this
    subst this
    exact ⟨rfl, rfl, rfl⟩
  | _ => exact ha.elim

/-- An answer from the store is what `get_if_exists` returns. -/
theorem peek_of_stored (hc : cfg.Ok) (w : WF1 cfg s) (w2 : WF2 cfg s) {k : K} {v : V} {o : Op K V E} (ho : o.ok cfg s)
    (h : answered o (step cfg env s o).2 = some (k, v)) (hca : (step cfg env s o).2.calls = []) (hmd : (step cfg env s o).2.made = false) :
    Asks k o ∧ (getIfExists cfg env s k).ret = .val v := by
  cases o with
  | getIfExists k' =>
    simp only [step] at h
    unfold getIfExists at h
    unfold getIfExists
    rcases optRet_cases (peekWalk cfg env k' (s.bucket (s.bucketFor (cfg.hash k')))) with h1 | ⟨u, h1⟩
    · rw [h1] at h; simp [answered] at h
    · rw [h1] at h
      simp [answered] at h
      obtain ⟨rfl, rfl⟩ := h
      exact ⟨rfl, h1⟩
  | get k' r =>
    have := get__peek hc w w2 env k' false
    simp only [step, get] at h hca hmd
    generalize get_ cfg env s k' false = g at *
    obtain ⟨s1, l⟩ := g
    simp only at *
    cases hr : cfg.resolver <;> rw [hr] at h hca hmd <;> cases l <;> simp [answered, syncRet] at h hca hmd
    all_goals (obtain ⟨rfl, rfl⟩ := h; exact ⟨rfl, (this _).1 rfl⟩)
  | asyncGet k' w' b =>
    have h1 := get__peek hc w w2 env k' true
    rw [get__eq hc w.placed] at h1
    simp only [step] at h hca hmd
    rw [asyncGet_eq hc w.placed] at h hca hmd
    cases hf : s.ents.find? (isHit cfg env k' true) with
    | none => rw [hf] at hca; simp at hca
    | some e =>
      rw [hf] at h1 h
      simp only at h1 h
      cases hl : e.mapped.get env true <;> rw [hl] at h1 h <;> simp [answer, answered] at h
      obtain ⟨rfl, rfl⟩ := h
      exact ⟨rfl, (h1 _).1 rfl⟩
  | getOrEmplace k' u f =>
    have := get__peek hc w w2 env k' true
    simp only [step, getOrEmplace] at h hca hmd
    generalize get_ cfg env s k' true = g at *
    obtain ⟨s1, l⟩ := g
    simp only at *
    cases l with
    | none => simp only at h hmd; split at h <;> simp_all [answered]
    | val u' => simp [answered] at h; obtain ⟨rfl, rfl⟩ := h; exact ⟨rfl, (this _).1 rfl⟩
    | err _ => simp [answered] at h
    | pend => simp [answered] at h
  | _ => simp [answered] at h

/-- The entry hit, after the hit, in a cache with a size limit: the value is held by a strong reference, and it is not expired. -/
theorem hitUpd_strong (hc : cfg.Ok) (hm : cfg.maxSize.isSome = true) {e : Entry K V E} {k : K} {incl : Bool} {v : V} (hx : e.expired env = false)
    (hv : e.mapped.get env incl = .val v) (env' : Env V) (hn : env'.now = env.now) :
    (hitUpd cfg env e).mapped = .value v ∧ (hitUpd cfg env e).expired env' = false := by
  have h1 : (e.upd (.strengthen env)).mapped = .value v := by
    simp only [Entry.upd]
    cases hme : e.mapped with
    | pending p => rw [hme] at hv; cases incl <;> simp [Mapped.get] at hv
    | value u => rw [hme] at hv; cases hv; rfl
    | weak u =>
      rw [hme] at hv
      simp only [Mapped.get] at hv
      split at hv
      · rename_i ha; cases hv; simp [Mapped.strengthen, ha]
      · cases hv
    | gone => rw [hme] at hv; cases hv
    | error x => rw [hme] at hv; cases hv
    | void => rw [hme] at hv; cases hv
  simp only [Entry.expired, Bool.or_eq_false_iff] at hx
  have h2 : (e.upd (.strengthen env)).expired env' = false := by
    simp only [Entry.expired, h1, Bool.or_eq_false_iff, hn]
    exact ⟨⟨⟨rfl, rfl⟩, hx.1.2⟩, hx.2⟩
  unfold hitUpd
  simp only [hm, if_true]
  split
  · exact ⟨h1, h2⟩
  · rename_i d I hr
    split
    · exact ⟨h1, h2⟩
    · split
      · refine ⟨h1, ?_⟩
        simp only [Entry.expired, h1, Bool.or_eq_false_iff, hn]
        refine ⟨⟨⟨rfl, rfl⟩, hx.1.2⟩, ?_⟩
        have := hc.idle d I hr
        simp [reached]; omega
      · exact ⟨h1, h2⟩

theorem hit_strong (hc : cfg.Ok) (w : WF1 cfg s) (hm : cfg.maxSize.isSome = true) {k : K} {v : V} {o : Op K V E}
    (hg : (∃ k r, o = .get k r) ∨ ∃ k w b, o = .asyncGet k w b)
    (h : answered o (step cfg env s o).2 = some (k, v)) (hca : (step cfg env s o).2.calls = []) :
    ∃ e ∈ (step cfg env s o).1.ents, cfg.eqv e.key k = true ∧ e.mapped = .value v ∧ ∀ env' : Env V, env'.now = env.now → e.expired env' = false := by
  have key : ∀ (k : K) (incl : Bool) (e : Entry K V E), s.ents.find? (isHit cfg env k incl) = some e → e.mapped.get env incl = .val v →
      ∃ e' ∈ (onHit cfg env (walked cfg env s k incl) e.id).ents, cfg.eqv e'.key k = true ∧ e'.mapped = .value v ∧
        ∀ env' : Env V, env'.now = env.now → e'.expired env' = false := by
    intro k incl e hf hv
    have hh := List.find?_some hf
    simp only [isHit, Bool.and_eq_true, Bool.not_eq_true'] at hh
    have hx : e.expired env = false := hh.1.2
    refine ⟨hitUpd cfg env e, ?_, ?_, ?_, fun env' hn => (hitUpd_strong hc hm (k := k) hx hv env' hn).2⟩
    · rw [onHit_ents]
      exact List.mem_map.2 ⟨e, hit_mem_walked hf, by simp [atId]⟩
    · rw [(hitUpd_idKey cfg env e).2]; exact hh.1.1
    · exact (hitUpd_strong hc hm (k := k) hx hv env rfl).1
  rcases hg with ⟨k', r, rfl⟩ | ⟨k', w', b, rfl⟩
  · simp only [step, get] at h hca ⊢
    rw [get__eq hc w.placed] at h hca ⊢
    cases hf : s.ents.find? (isHit cfg env k' false) with
    | none => rw [hf] at h hca; cases hr : cfg.resolver <;> rw [hr] at h hca <;> simp [answered] at h hca
    | some e =>
      rw [hf] at h hca
      simp only at h hca ⊢
      cases hv : e.mapped.get env false with
      | val u =>
        rw [hv] at h
        have := fun h => key k' false e hf (hv.trans h)
        cases hr : cfg.resolver <;> rw [hr] at h <;> simp [answered, syncRet] at h <;> obtain ⟨rfl, rfl⟩ := h <;> simpa using this rfl
      | none => rw [hv] at h hca; cases hr : cfg.resolver <;> rw [hr] at h hca <;> simp [answered] at h hca
      | err x => rw [hv] at h; cases hr : cfg.resolver <;> rw [hr] at h <;> simp [answered, syncRet] at h
      | pend => rw [hv] at h; cases hr : cfg.resolver <;> rw [hr] at h <;> simp [answered, syncRet] at h
  · simp only [step] at h hca ⊢
    rw [asyncGet_eq hc w.placed] at h hca ⊢
    cases hf : s.ents.find? (isHit cfg env k' true) with
    | none => rw [hf] at hca; simp at hca
    | some e =>
      rw [hf] at h
      simp only at h ⊢
      cases hl : e.mapped.get env true <;> rw [hl] at h <;> simp [answer, answered] at h
      obtain ⟨rfl, rfl⟩ := h
      have := key _ _ e hf hl
      simp only [answer]
      rw [get__eq hc w.placed, hf]
      exact this

end Hoard
