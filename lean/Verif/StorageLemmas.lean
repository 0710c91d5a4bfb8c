import Verif.ReclaimLemmas
/-! Helper lemmas about failing insertions, and about caches without refresh policy. -/
namespace Hoard
open Spec
variable {K V E : Type} {cfg : Cfg K} {env : Env V} {s : St K V E}

theorem untried_step {L : Ledger K V} {eqv : K → K → Bool} {kind : Kind} {now : Time} {k : K} {o : Op K V E} {out : Out K V E}
    (ho : ∀ r b, o ≠ .tick r b) (ht : L.tried k = false) : (L.after eqv kind now o out).tried k = false := by
  have hput : ∀ (L : Ledger K V) k' keep v, L.tried k = false → (L.put eqv now keep k' v).tried k = false := by
    intro L k' keep v ht; simp [Ledger.put, ht]
  have hlook : ∀ (L : Ledger K V) k' tok (b : Beh V E), L.tried k = false → (L.lookup eqv now false k' tok b).tried k = false := by
    intro L k' tok b ht
    cases b with
    | now r => exact hput L k' false _ ht
    | later => simp [Ledger.lookup, Ledger.begin, ht]
    | drop => simp [Ledger.lookup, Ledger.forget, ht]
  cases o with
  | getIfExists k' => simp only [Ledger.after]; split <;> exact ht
  | get k' r =>
    simp only [Ledger.after]; split
    · cases out.ret <;> exact ht
    · exact hput L k' _ _ ht
  | asyncGet k' w b =>
    simp only [Ledger.after]; split
    · split
      · split <;> exact ht
      · exact ht
    · split
      · exact hlook L k' _ _ ht
      · exact hlook L k' _ _ ht
  | emplace k' v f => exact hput L k' _ _ ht
  | getOrEmplace k' v f =>
    simp only [Ledger.after]; split
    · exact hput L k' _ _ ht
    · split <;> exact ht
  | erase k' => exact hput L k' _ _ ht
  | clear => exact ht
  | count => exact ht
  | complete tok r =>
    simp only [Ledger.after]; split
    · simp [Ledger.finish, ht]
    · exact ht
  | drop tok => simp only [Ledger.after]; split <;> exact ht
  | tick r b => exact absurd rfl (ho r b)
  | destroy => exact ht

/-- Without refresh policy nothing is ever refreshed. -/
theorem untried (hr : cfg.refresh = none) (h : Hist K V E) (hok : HistOk cfg St.init h) (k : K) : (ledgerAfter cfg h).tried k = false := by
  induction h using snoc_ind with
  | h0 => rfl
  | h1 l a ih =>
    obtain ⟨e, o⟩ := a
    obtain ⟨h1, h2⟩ := HistOk_append.1 hok
    rw [ledgerAfter_snoc]
    refine untried_step (fun r b hh => ?_) (ih h1)
    subst hh
    have := h2.1.2.1
    rw [hr] at this; cases this

theorem beforeLink_peek (hc : cfg.Ok) {M M' : Md V} {L L'} {X X'} (h : Good cfg M X s L) (h' : Good cfg M' X' (beforeLink cfg env s) L') {env' : Env V} (hle : env.le env') (a : K) :
    getIfExists cfg env' (beforeLink cfg env s) a = getIfExists cfg env' s a := by
  apply peek_ext hc
  intro v
  refine (peek_val hc h' env' a v).trans (Iff.trans ?_ (peek_val hc h env' a v).symm)
  have hd := beforeLink_drops cfg env s
  constructor
  · rintro ⟨e, he, hk⟩; exact ⟨e, hd.mem he, hk⟩
  · rintro ⟨e, he, hk, hx, hv⟩
    rcases hd.keep he with h1 | h1
    · exact ⟨e, h1, hk, hx, hv⟩
    · rw [e.expired_mono hle (stale_expired h1)] at hx; cases hx

/-- A get joins or is answered exactly if the key has a value or a lookup in flight. -/
theorem hit_iff {M : Md V} {L} {X} (h : Good cfg M X s L) (env : Env V) (k : K) :
    (s.ents.find? (isHit cfg env k true)).isSome = (holds cfg env s k || joins cfg s k) := by
  rw [Bool.eq_iff_iff, Bool.or_eq_true, List.find?_isSome]
  simp only [holds, joins, List.any_eq_true, isHit, Bool.and_eq_true, Bool.not_eq_true']
  constructor
  · rintro ⟨e, he, ⟨hk, hx⟩, hg⟩
    cases hm : e.mapped with
    | pending p =>
      refine .inr ⟨e, he, ?_, hk⟩
      simp only [Entry.expired, hm, Mapped.expired, Mapped.holdsError, Bool.or_eq_false_iff] at hx
      simp [hm, Mapped.live, hx]
    | value v => exact .inl ⟨e, he, ⟨hx, by simp [hm, Mapped.val?]⟩, hk⟩
    | weak v => exact .inl ⟨e, he, ⟨hx, by simp [hm, Mapped.val?]⟩, hk⟩
    | gone => simp [hm, Mapped.get] at hg
    | void => simp [hm, Mapped.get] at hg
    | error x => simp [Entry.expired, hm, Mapped.holdsError] at hx
  · rintro (⟨e, he, ⟨hx, hv⟩, hk⟩ | ⟨e, he, hl, hk⟩)
    · refine ⟨e, he, ⟨hk, hx⟩, ?_⟩
      cases hm : e.mapped with
      | pending p => simp [hm, Mapped.val?] at hv
      | value v => simp [Mapped.get]
      | weak v =>
        simp only [Entry.expired, hm, Mapped.expired, Bool.or_eq_false_iff] at hx
        have : env.alive v = true := by simpa using hx.1.1.1
        simp [Mapped.get, this]
      | gone => simp [hm, Mapped.val?] at hv
      | void => simp [hm, Mapped.val?] at hv
      | error x => simp [hm, Mapped.val?] at hv
    · refine ⟨e, he, ⟨hk, ?_⟩, ?_⟩
      · obtain ⟨p1, p2, _⟩ := h.wf2.pen e he (Mapped.live_pending hl)
        cases hm : e.mapped <;> simp [hm, Mapped.live] at hl
        simp [Entry.expired, hm, Mapped.expired, hl, Mapped.holdsError, p1, p2, reached]
      · cases hm : e.mapped <;> simp [hm, Mapped.live] at hl
        simp [Mapped.get]

end Hoard
