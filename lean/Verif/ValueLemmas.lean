import Verif.NonInt
import Verif.Demo
/-! Helper lemmas for `Props/Values`. -/
namespace Hoard
open Spec
variable {K V E : Type} {cfg : Cfg K} {M : Md V} {L L' : Ledger K V} {s s' : St K V E}

/-- Locating an element relative to a split. -/
theorem split_cases {α : Type} {a b c d : List α} {x y : α} (h : a ++ x :: b = c ++ y :: d) :
    (∃ m, a = c ++ y :: m ∧ d = m ++ x :: b) ∨ (a = c ∧ x = y ∧ b = d) ∨ (∃ m, c = a ++ x :: m ∧ b = m ++ y :: d) := by
  rcases List.append_eq_append_iff.1 h with ⟨m, h1, h2⟩ | ⟨m, h1, h2⟩
  · cases m with
    | nil => simp at h1 h2; exact .inr (.inl ⟨h1.symm, h2.1, h2.2⟩)
    | cons z m => simp at h2; obtain ⟨rfl, h2⟩ := h2; exact .inr (.inr ⟨m, h1, h2⟩)
  · cases m with
    | nil => simp at h1 h2; exact .inr (.inl ⟨h1, h2.1.symm, h2.2.symm⟩)
    | cons z m => simp at h2; obtain ⟨rfl, h2⟩ := h2; exact .inl ⟨m, h1, h2⟩

/-- Whatever is in the ledger was written after the last change. -/
theorem write_after {k : K} {v : V} {h1 h2 : Hist K V E} {e : Env V} {o : Op K V E} (hch : ChangesAt cfg k h1 e o)
    (hnw : ¬ WritesAt cfg k v h1 e o) (hv : (ledgerAfter cfg (h1 ++ (e, o) :: h2)).cur k = some v) :
    ∃ h3 e3 o3 h4, h2 = h3 ++ (e3, o3) :: h4 ∧ WritesAt cfg k v (h1 ++ (e, o) :: h3) e3 o3 := by
  obtain ⟨a, e3, o3, b, heq, hw, hk⟩ := last_write _ hv
  rcases split_cases heq with ⟨m, rfl, rfl⟩ | ⟨rfl, hx, rfl⟩ | ⟨m, rfl, rfl⟩
  · exact absurd (by simpa using hch) (hk m e o h2 rfl)
  · cases hx; exact absurd hw hnw
  · exact ⟨m, e3, o3, b, rfl, hw⟩

/-- A lookup that is still valid was started after the last change. -/
theorem start_after {k : K} {tok : Nat} {h1 h2 : Hist K V E} {e : Env V} {o : Op K V E} (hch : ChangesAt cfg k h1 e o)
    (hns : ¬ StartsAt cfg k tok h1 e o) (hv : (ledgerAfter cfg (h1 ++ (e, o) :: h2)).valid k = some tok) :
    ∃ h3 e3 o3 h4, h2 = h3 ++ (e3, o3) :: h4 ∧ StartsAt cfg k tok (h1 ++ (e, o) :: h3) e3 o3 := by
  obtain ⟨a, e3, o3, b, heq, hw, hk, _⟩ := lookup_origin _ hv
  rcases split_cases heq with ⟨m, rfl, rfl⟩ | ⟨rfl, hx, rfl⟩ | ⟨m, rfl, rfl⟩
  · exact absurd (by simpa using hch) (hk m e o h2 rfl)
  · cases hx; exact absurd hw hns
  · exact ⟨m, e3, o3, b, rfl, hw⟩

/-- An entry once expired stays expired. -/
theorem Entry.expired_mono {env env' : Env V} (hle : env.le env') (e : Entry K V E) (h : e.expired env = true) : e.expired env' = true := _root_.Hoard.expired_mono hle h

/-- When `get_if_exists` returns a value, in terms of the entries. -/
theorem peek_val (hc : cfg.Ok) {X} (h : Good cfg M X s L) (env : Env V) (k : K) (v : V) :
    (getIfExists cfg env s k).ret = .val v ↔
      ∃ e ∈ s.ents, cfg.eqv e.key k = true ∧ e.expired env = false ∧ e.mapped.val? = some v := by
  rw [getIfExists_eq hc h.wf1.placed]
  constructor
  · intro hh
    cases hf : s.ents.find? (isHit cfg env k false) with
    | none => rw [hf] at hh; simp [optRet] at hh
    | some e =>
      rw [hf] at hh
      obtain ⟨he, hk, hx, ⟨u, h1, h2⟩ | ⟨h1, _⟩⟩ := hit_facts hf
      · simp [h2, optRet] at hh; subst hh; exact ⟨e, he, hk, hx, h1⟩
      · cases h1
  · rintro ⟨e, he, hk, hx, hv⟩
    have hh := isHit_of_val (incl := false) hk hx hv
    cases hf : s.ents.find? (isHit cfg env k false) with
    | none => exact absurd hh.1 (List.find?_eq_none.1 hf e he)
    | some e' =>
      obtain ⟨he', hk', hx', ⟨u, h1, h2⟩ | ⟨h1, _⟩⟩ := hit_facts hf
      · have a1 := ((h.v k).c1 e he hk v hv).1
        have a2 := ((h.v k).c1 e' he' hk' u h1).1
        rw [a1] at a2; cases a2
        simp [h2, optRet]
      · cases h1

theorem optRet_cases (l : Look V E) : optRet l = .miss ∨ ∃ v, optRet l = .val v := by cases l <;> simp [optRet]

theorem peek_ext (hc : cfg.Ok) (env env' : Env V) (s s' : St K V E) (k k' : K)
    (h : ∀ v, (getIfExists cfg env s k).ret = .val v ↔ (getIfExists cfg env' s' k').ret = .val v) :
    getIfExists cfg env s k = getIfExists cfg env' s' k' := by
  have : (getIfExists cfg env s k).ret = (getIfExists cfg env' s' k').ret := by
    rcases optRet_cases (peekWalk cfg env k (s.bucket (s.bucketFor (cfg.hash k)))) with h1 | ⟨v, h1⟩
    · rcases optRet_cases (peekWalk cfg env' k' (s'.bucket (s'.bucketFor (cfg.hash k')))) with h2 | ⟨u, h2⟩
      · exact h1.trans h2.symm
      · have := (h u).2 h2
        rw [show (getIfExists cfg env s k).ret = .miss from h1] at this; cases this
    · exact (show (getIfExists cfg env s k).ret = .val v from h1).trans ((h v).1 h1).symm
  unfold getIfExists at *
  simp only at this
  rw [this]

/-- Erasing one key leaves the answers for the others. -/
theorem erase_others (hc : cfg.Ok) {X} (h : Good cfg ⟨False, False, env, True⟩ X s L) {env' : Env V} (hle : env.le env') {k a : K}
    (hka : cfg.eqv a k = false) : getIfExists cfg env' (erase cfg env s k) a = getIfExists cfg env' s a := by
  have h' := (expire_ok hc h k).1
  obtain ⟨kept, rem, p1, p2, p3, _⟩ := expire_spec hc h.wf1 env k
  apply peek_ext hc
  intro v
  refine (peek_val hc h' env' a v).trans (Iff.trans ?_ (peek_val hc h env' a v).symm)
  have hne : ∀ e : Entry K V E, cfg.eqv e.key a = true → ¬ cfg.eqv e.key k = true := by
    intro e he hk
    have := hc.trans _ _ _ (hc.symm _ _ he) hk
    rw [hka] at this; cases this
  constructor
  · rintro ⟨e', he', hk', hx', hv'⟩
    obtain ⟨e, he, rfl⟩ := List.mem_map.1 (p2.mem_iff.1 he')
    rw [(expUpd_idKey cfg k e).2] at hk'
    have heq : expUpd cfg k e = e := by unfold expUpd; rw [if_neg (hne e hk')]
    rw [heq] at hx' hv'
    exact ⟨e, p1.mem_iff.2 (List.mem_append_left _ he), hk', hx', hv'⟩
  · rintro ⟨e, he, hk', hx', hv'⟩
    rcases List.mem_append.1 (p1.mem_iff.1 he) with h1 | h1
    · have heq : expUpd cfg k e = e := by unfold expUpd; rw [if_neg (hne e hk')]
      exact ⟨e, p2.mem_iff.2 (List.mem_map.2 ⟨e, h1, heq⟩), hk', hx', hv'⟩
    · have := p3 e h1
      rw [if_neg (hne e hk')] at this
      simp only [stale, Bool.and_eq_true] at this
      rw [e.expired_mono hle this.1] at hx'; cases hx'

end Hoard
