import Verif.LoadLemmas
import Verif.Grow
import Verif.Demo
/-! # Load factor and growth: C27, C44

`s.size` is the number of entries linked, `s.tbl.length` the number of buckets. -/
namespace Hoard.Props
open Hoard Spec Demo
variable {K V E : Type} {cfg : Cfg K}

/-! ## C27 -/

theorem room_of_ratio {p q : Nat} (h : q ≤ 4 * p) : Room (fun n b => decide (n * q > p * b)) where
  mono := by
    intro n m b hm hn
    simp only [gt_iff_lt, decide_eq_false_iff_not, Nat.not_lt] at *
    exact Nat.le_trans (Nat.mul_le_mul_right q hm) hn
  init := by simp only [gt_iff_lt, decide_eq_false_iff_not, Nat.not_lt]; omega
  dbl := by
    intro n b hb hn
    simp only [gt_iff_lt, decide_eq_false_iff_not, Nat.not_lt] at *
    have h1 : 4 * p ≤ p * b := by rw [Nat.mul_comm p b]; exact Nat.mul_le_mul_right p hb
    have h2 : p * (2 * b) = p * b + p * b := by rw [← Nat.mul_assoc, Nat.mul_comm p 2, Nat.mul_assoc]; omega
    rw [Nat.add_mul, h2]; omega

/-- C27.  With a load factor limit `p / q` of at least 1/4 (the default is 1): at all times the
number of entries is at most `p / q` times the number of buckets, unless the table has the
maximal number of buckets. -/
theorem C27_load_factor_kept_partial (hc : cfg.Ok) {p q : Nat} (hov : cfg.over = fun n b => decide (n * q > p * b)) (hpq : q ≤ 4 * p) (h : Hist K V E) (hok : HistOk cfg St.init h) :
    (stateAfter cfg h).size * q ≤ p * (stateAfter cfg h).tbl.length ∨ cfg.maxBuckets ≤ (stateAfter cfg h).tbl.length := by
  have hr : Room cfg.over := hov ▸ room_of_ratio hpq
  have : Kept2 cfg (stateAfter cfg h).size (stateAfter cfg h).tbl.length := by
    induction h using snoc_ind with
    | h0 => exact .inl ⟨rfl, rfl⟩
    | h1 l a ih =>
      obtain ⟨env, o⟩ := a
      have hok1 := (HistOk_append.1 hok).1
      rw [stateAfter_snoc]
      exact step_kept2 hc hr (good_any hc _ hok1 env).wf1 (ih hok1) o
  rcases this with h | h | h
  · rw [h.1, h.2]; simp
  · left
    have := h.2
    rw [hov] at this
    simpa using this
  · exact .inr h.2

/-- C27.  An operation makes the table grow only from the empty table, or when after removal of
every dead entry (see `C25_growth_reclaims_partial`) the entries that remain after the
operation are too many for the old number of buckets. -/
theorem C27_grows_only_when_needed (hc : cfg.Ok) (h : Hist K V E) (hok : HistOk cfg St.init h) (env : Env V) (o : Op K V E)
    (hg : (stateAfter cfg (h ++ [(env, o)])).tbl.length ≠ (stateAfter cfg h).tbl.length) :
    ((stateAfter cfg h).tbl.length = 0 ∨
      (cfg.over (stateAfter cfg (h ++ [(env, o)])).size (stateAfter cfg h).tbl.length = true ∧ (stateAfter cfg h).tbl.length < cfg.maxBuckets)) ∧
    (∀ e ∈ (stateAfter cfg h).ents, e.isPending = false → e.expired env = true → ∀ e' ∈ (stateAfter cfg (h ++ [(env, o)])).ents, e'.id ≠ e.id) := by
  rw [stateAfter_snoc] at hg ⊢
  have g := good_any hc h hok env
  exact ⟨step_grows hc g.wf1 o hg, fun e he hp hx => step_grow hc g o hg he (by simp [stale, hp, hx])⟩

/-- C27 is false for small limits: with the limit 1/8 the first value is put into a table of 4
buckets. -/
theorem C27_small_limit_exceeded : ∃ (c : Cfg Nat) (h : Hist Nat Nat Nat), c.Ok ∧ c.over = (fun n b => decide (n * 8 > 1 * b)) ∧ HistOk c St.init h ∧
    (stateAfter c h).size * 8 > 1 * (stateAfter c h).tbl.length ∧ (stateAfter c h).tbl.length < c.maxBuckets :=
  ⟨{ plain with over := fun n b => decide (n * 8 > 1 * b) }, [(at_ 0, .emplace 1 1 .none)], nat_ok rfl (by intro d i h; cases h), rfl, by decide, by decide, by decide⟩

/-- A table that grows, and one that does not because a dead entry makes room. -/
example :
    let c : Cfg Nat := { plain with over := fun n b => decide (n * 2 > 1 * b), maxAge := some 5 }
    let h : Hist Nat Nat Nat := [(at_ 0, .emplace 1 1 .none), (at_ 4, .emplace 2 2 .none)]
    HistOk c St.init h ∧ (stateAfter c h).tbl.length = 4 ∧ (stateAfter c (h ++ [(at_ 4, .emplace 3 3 .none)])).tbl.length = 8 ∧
    (stateAfter c (h ++ [(at_ 5, .emplace 3 3 .none)])).tbl.length = 4 := by decide

end Hoard.Props

namespace Hoard.Props
open Hoard.Grow

/-- The number of entries is within the limit, or the table is as large as possible. -/
def Grow.within (t : Tab) : Prop := t.n * t.q ≤ t.p * t.b ∨ t.mx ≤ t.b

theorem need_ge {n p q : Nat} (hp : 0 < p) : n * q ≤ p * need n p q := by
  unfold need
  have h := Nat.div_add_mod (n * q + p - 1) p
  have h2 := Nat.mod_lt (n * q + p - 1) hp
  omega

theorem need_le {n p q b : Nat} (hp : 0 < p) (h : n * q ≤ p * b) : need n p q ≤ b := by
  unfold need
  rw [Nat.div_le_iff_le_mul_add_pred hp]
  omega

/-- C27 for the table itself, whose limit can be changed and whose number of buckets can be
chosen by `reserve`.  An insertion keeps the number of entries within the limit if the table
has no bucket and `4 p ≥ q`, or it has buckets for at least one entry. -/
theorem C27_link_within (t : Tab) (d : Nat) (h : Grow.within t) (hb : (t.b = 0 ∧ t.q ≤ 4 * t.p) ∨ (0 < t.b ∧ t.q ≤ t.p * t.b)) (h0 : t.b = 0 → t.n = 0) : Grow.within (t.step (.link d)) := by
  show Grow.within (t.link d)
  have hle : t.left d ≤ t.n := by unfold Tab.left; split <;> omega
  unfold Tab.link
  simp only
  generalize t.left d = n' at *
  obtain ⟨n, b, p, q, mx⟩ := t
  simp only [Grow.within, Tab.over] at *
  have hmul : n' * q ≤ n * q := Nat.mul_le_mul_right q hle
  by_cases hb0 : b = 0
  · subst hb0
    have := h0 rfl
    have hn' : n' = 0 := by omega
    subst hn'
    have : q ≤ 4 * p := by rcases hb with hb | hb <;> omega
    simp; left; omega
  · have hq : q ≤ p * b := by rcases hb with hb | hb <;> omega
    simp only [hb0, false_or, if_false, decide_eq_true_eq]
    split
    · rename_i hg
      split
      · exact .inr (Nat.le_refl _)
      · left
        rcases h with h | h
        · have h2 : p * (2 * b) = p * b + p * b := by rw [← Nat.mul_assoc, Nat.mul_comm p 2, Nat.mul_assoc]; omega
          have h3 : (n' + 1) * q = n' * q + q := by rw [Nat.add_mul, Nat.one_mul]
          show (n' + 1) * q ≤ p * (2 * b)
          rw [h3, h2]; omega
        · omega
    · rename_i hg
      simp only
      by_cases h5 : (n' + 1) * q > p * b
      · right; exact Nat.not_lt.1 fun h6 => hg ⟨h5, h6⟩
      · left; omega

/-- The insertion of `Verif.Cache` changes the number of entries and buckets as `Tab.link` does. -/
theorem C27_models_agree {K V E : Type} {cfg : Cfg K} {p q : Nat} (hov : cfg.over = fun n b => decide (n * q > p * b)) (env : Env V) (s : St K V E) (e : Entry K V E) :
    (⟨(link cfg env s e).size, (link cfg env s e).tbl.length, p, q, cfg.maxBuckets⟩ : Tab) =
      Tab.link ⟨s.size, s.tbl.length, p, q, cfg.maxBuckets⟩ (s.ents.filter (fun e => e.expired env && !e.isPending)).length := by
  have hl : (beforeLink cfg env s).size = Tab.left ⟨s.size, s.tbl.length, p, q, cfg.maxBuckets⟩ (s.ents.filter (fun e => e.expired env && !e.isPending)).length := by
    unfold beforeLink Tab.left Tab.over
    rw [hov]
    split
    · simp only [St.size, purge_ents]
      have : ∀ l : List (Entry K V E), (l.filter (fun e => !stale env e)).length = l.length - (l.filter (fun e => e.expired env && !e.isPending)).length := by
        intro l
        induction l with
        | nil => rfl
        | cons e l ih =>
          have := List.length_filter_le (fun e : Entry K V E => e.expired env && !e.isPending) l
          simp only [List.filter_cons, stale] at ih ⊢
          cases (e.expired env && !e.isPending) <;> simp only [Bool.not_false, Bool.not_true, if_true, Bool.false_eq_true, if_false, List.length_cons, ih] <;> omega
      exact this _
    · rfl
  have hb := beforeLink_len (cfg := cfg) (env := env) (s := s)
  rw [(link_shape e).1, (link_shape e).2]
  unfold Tab.link maybeRehash
  simp only
  rw [← hl]
  by_cases hm : mustGrow cfg (beforeLink cfg env s) = true
  · have h2 := hm
    simp only [mustGrow, Bool.or_eq_true, decide_eq_true_eq, Bool.and_eq_true, hov, hb] at h2
    rw [if_pos hm, if_pos (by simpa [Tab.over] using h2)]
    have := rehash_shape (cfg := cfg) (s := beforeLink cfg env s) (grown cfg (beforeLink cfg env s).tbl.length) (grown_pos hm)
    rw [this.1, this.2, hb]
    rfl
  · have h2 := hm
    simp only [mustGrow, Bool.or_eq_true, decide_eq_true_eq, Bool.and_eq_true, hov, hb] at h2
    rw [if_neg hm, if_neg (by simpa [Tab.over] using h2), hb]

/-- C27: changing the limit to `p / q > 0` brings the table within it, whatever its state. -/
theorem C27_new_limit_within (t : Tab) (p q : Nat) (hp : 0 < p) : Grow.within (t.step (.setMax p q)) := by
  show Grow.within (t.setMax p q)
  simp only [Tab.setMax, Grow.within, hp, true_and]
  have h := need_ge (n := t.n) (q := q) hp
  have hm : need t.n p q ≤ t.mx ∨ t.mx < need t.n p q := by omega
  split
  · simp only
    rcases hm with hm | hm
    · left; rw [Nat.min_eq_left hm]; exact h
    · right; rw [Nat.min_eq_right (by omega)]; exact Nat.le_refl _
  · rename_i hg
    simp only
    rcases hm with hm | hm
    · left
      rw [Nat.min_eq_left hm] at hg
      exact Nat.le_trans h (Nat.mul_le_mul_left p (by omega))
    · right; omega

/-- C27 is false for the table when `reserve` made few buckets and the limit is below 1: with a limit of 1/4, not
even the next insertion brings it within the limit. -/
theorem C27_reserved_small_exceeded : ∃ t : Tab, t = (Tab.init 1 1 1000).run [.reserve 1 0, .setMax 1 4, .link 0] ∧ ¬ Grow.within t ∧ t.n = 1 ∧ t.b = 2 :=
  ⟨_, rfl, by unfold Grow.within; decide, by decide, by decide⟩

/-! ## C44 -/

/-- C44.  After `reserve(m)` (for `m` entries that a table of maximal size can take) the table does not grow as long as it has at most `m` entries:
whatever insertions and removals follow. -/
theorem C44_reserved_is_enough_partial (t : Tab) (hp : 0 < t.p) (m dead : Nat) (hmx : m * t.q ≤ t.p * t.mx) (hm0 : 0 < m) (hq : 0 < t.q) (os : List Grow.Op)
    (hos : ∀ o ∈ os, (∃ d, o = .link d) ∨ o = .unlink) (hn : ∀ os1 os2, os = os1 ++ os2 → ((t.reserve m dead).run os1).n ≤ m) :
    ((t.reserve m dead).run os).b = (t.reserve m dead).b := by
  have hb : m * t.q ≤ t.p * (t.reserve m dead).b ∧ (t.reserve m dead).p = t.p ∧ (t.reserve m dead).q = t.q ∧ 0 < (t.reserve m dead).b := by
    have h := need_ge (n := m) (q := t.q) hp
    have hpos : 0 < need m t.p t.q := by
      rcases Nat.eq_zero_or_pos (need m t.p t.q) with hz | hz
      · rw [hz] at h
        have := Nat.mul_pos hm0 hq
        omega
      · exact hz
    unfold Tab.reserve; simp only
    rw [Nat.min_eq_left (need_le hp hmx)]
    split
    · exact ⟨h, rfl, rfl, hpos⟩
    · rename_i hg
      exact ⟨Nat.le_trans h (Nat.mul_le_mul_left _ (by omega)), rfl, rfl, by omega⟩
  generalize t.reserve m dead = r at *
  have key : ∀ (os2 : List Grow.Op) (r' : Tab), r'.p = r.p → r'.q = r.q → r'.b = r.b → (∀ o ∈ os2, (∃ d, o = .link d) ∨ o = .unlink) →
      (∀ a b, os2 = a ++ b → (r'.run a).n ≤ m) → (r'.run os2).b = r.b := by
    intro os2
    induction os2 with
    | nil => intro r' _ _ h3 _ _; exact h3
    | cons o os2 ih =>
      intro r' h1 h2 h3 h4 h5
      have h6 : (r'.step o).n ≤ m := h5 [o] os2 rfl
      show ((r'.step o).run os2).b = _
      have hs : (r'.step o).p = r.p ∧ (r'.step o).q = r.q ∧ (r'.step o).b = r.b := by
        rcases h4 o (by simp) with ⟨d, rfl⟩ | rfl
        · simp only [Tab.step, Tab.link] at h6 ⊢
          generalize r'.left d = n' at *
          have hnot : ¬ (r'.b = 0 ∨ r'.over (n' + 1) r'.b = true ∧ r'.b < r'.mx) := by
            have hn' : n' + 1 ≤ m := by split at h6 <;> exact h6
            have : r'.over (n' + 1) r'.b = false := by
              simp only [Tab.over, h1, h2, h3, hb.2.1, hb.2.2.1, decide_eq_false_iff_not, gt_iff_lt, Nat.not_lt]
              exact Nat.le_trans (Nat.mul_le_mul_right _ hn') hb.1
            rw [this, h3]
            have := hb.2.2.2
            simp; omega
          rw [if_neg hnot]
          exact ⟨h1, h2, h3⟩
        · exact ⟨h1, h2, h3⟩
      exact ih _ hs.1 hs.2.1 hs.2.2 (fun o ho => h4 o (by simp [ho])) (fun a b hab => h5 (o :: a) b (by simp [hab]))
  exact key os r rfl rfl rfl hos hn

/-- How many entries there are, at most, after insertions and removals: an insertion adds one, a removal takes one away. -/
def Grow.balance (n : Nat) : List Grow.Op → Nat
  | [] => n
  | .link _ :: os => Grow.balance (n + 1) os
  | .unlink :: os => Grow.balance (n - 1) os
  | _ :: os => Grow.balance n os

theorem run_balance (t : Tab) (n : Nat) (ht : t.n ≤ n) (os : List Grow.Op) : (t.run os).n ≤ Grow.balance n os := by
  induction os generalizing t n with
  | nil => exact ht
  | cons o os ih =>
    show ((t.step o).run os).n ≤ _
    cases o with
    | link d =>
      refine ih _ _ ?_
      have : t.left d ≤ t.n := by unfold Tab.left; split <;> omega
      simp only [Tab.step, Tab.link]; split <;> (try simp only) <;> omega
    | unlink => exact ih _ _ (by simp only [Tab.step, Tab.unlink]; omega)
    | reserve m d => exact ih _ _ (by simp only [Tab.step, Tab.reserve]; split <;> (try simp only) <;> omega)
    | setMax p q => exact ih _ _ (by simp only [Tab.step, Tab.setMax]; split <;> exact ht)

/-- C44, by counting calls only: after `reserve(m)`, if the entries there were, with one more for every insertion and one less
for every removal, are never more than `m`, then the table does not grow.  A removal makes room for another insertion. -/
theorem C44_removals_make_room_partial (t : Tab) (hp : 0 < t.p) (m dead : Nat) (hmx : m * t.q ≤ t.p * t.mx) (hm0 : 0 < m) (hq : 0 < t.q) (os : List Grow.Op)
    (hos : ∀ o ∈ os, (∃ d, o = .link d) ∨ o = .unlink) (hn : ∀ os1 os2, os = os1 ++ os2 → Grow.balance t.n os1 ≤ m) :
    (t.run (.reserve m dead :: os)).b = (t.step (.reserve m dead)).b := by
  refine C44_reserved_is_enough_partial t hp m dead hmx hm0 hq os hos fun os1 os2 h => Nat.le_trans (run_balance _ t.n ?_ os1) (hn os1 os2 h)
  simp only [Tab.reserve]; split <;> (try simp only) <;> omega

theorem balance_rounds (m n k : Nat) (a b : List Grow.Op) (h : (List.replicate k [Grow.Op.link 0, .unlink]).flatten = a ++ b) (hn : n < m) :
    Grow.balance n a ≤ m := by
  induction k generalizing a with
  | zero => simp at h; simp [h.1, Grow.balance]; omega
  | succ k ih =>
    match a with
    | [] => simp [Grow.balance]; omega
    | [x] => simp [List.replicate_succ] at h; rw [← h.1]; simp [Grow.balance]; omega
    | x :: y :: a =>
      simp [List.replicate_succ] at h
      rw [← h.1, ← h.2.1]
      simpa [Grow.balance] using ih a h.2.2

/-- C44: a table reserved for one entry takes any number of entries, one at a time, without growing. -/
theorem C44_one_at_a_time_partial (p q mx : Nat) (hp : 0 < p) (hq : 0 < q) (hmx : q ≤ p * mx) (k : Nat) :
    ((Tab.init p q mx).run (.reserve 1 0 :: (List.replicate k [Grow.Op.link 0, .unlink]).flatten)).b = ((Tab.init p q mx).step (.reserve 1 0)).b := by
  refine C44_removals_make_room_partial _ hp 1 0 (by simpa [Tab.init] using hmx) (by omega) hq _ ?_ fun a b h => balance_rounds 1 0 k a b h (by omega)
  intro o ho
  simp only [List.mem_flatten, List.mem_replicate] at ho
  obtain ⟨l, ⟨_, rfl⟩, ho⟩ := ho
  simp at ho
  rcases ho with rfl | rfl
  · exact .inl ⟨_, rfl⟩
  · exact .inr rfl

/-- Room for 10 entries with the limit 2/3. -/
example : ((Tab.init 2 3 1000).reserve 10 0).b = 15 ∧ (((Tab.init 2 3 1000).reserve 10 0).run (List.replicate 10 (.link 0))).b = 15 ∧
    (((Tab.init 2 3 1000).reserve 10 0).run (List.replicate 11 (.link 0))).b = 30 := by decide

/-- Ten entries, of which two are replaced by others: still room. -/
example : ((Tab.init 2 3 1000).run (.reserve 10 0 :: (List.replicate 10 (.link 0) ++ [.unlink, .unlink, .link 0, .link 0]))).b = 15 ∧
    ((Tab.init 2 3 1000).run (.reserve 10 0 :: (List.replicate 10 (.link 0) ++ [.unlink, .unlink, .link 0, .link 0, .link 0]))).b = 30 := by decide

example : ((Tab.init 2 3 1000).run (.reserve 1 0 :: (List.replicate 500 [Grow.Op.link 0, .unlink]).flatten)).b = 2 :=
  C44_one_at_a_time_partial 2 3 1000 (by decide) (by decide) (by decide) 500

/-- A limit lowered below what the table has, and an insertion after that. -/
example : Grow.within (((Tab.init 1 1 1000).run (List.replicate 5 (.link 0))).step (.setMax 1 4)) ∧
    (((Tab.init 1 1 1000).run (List.replicate 5 (.link 0))).step (.setMax 1 4)).b = 20 ∧
    Grow.within ((((Tab.init 1 1 1000).run (List.replicate 5 (.link 0))).step (.setMax 1 4)).step (.link 0)) :=
  ⟨C27_new_limit_within _ 1 4 (by decide), by decide, C27_link_within _ 0 (C27_new_limit_within _ 1 4 (by decide)) (by decide) (by decide)⟩

end Hoard.Props
