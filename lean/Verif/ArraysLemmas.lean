import Verif.Spec.Arrays
namespace Hoard.Arrays
open Grow

theorem inUse_append (a b : List Ev) (l : List (Nat × Nat)) : inUse (a ++ b) l = (inUse a l).bind (inUse b) := by
  induction a generalizing l with
  | nil => rfl
  | cons e a ih =>
    cases e with
    | alloc x n => simp only [List.cons_append, inUse]; split <;> simp [ih]
    | dealloc x n => cases x <;> (simp only [List.cons_append, inUse]; split <;> simp [ih])
    | fill n => simp only [List.cons_append, inUse, ih]

theorem filled_append (a b : List Ev) : filled (a ++ b) = filled a + filled b := by
  induction a with
  | nil => simp [filled]
  | cons e a ih => cases e <;> simp [filled, ih]; omega

/-- The array in use. -/
def St.has (s : St) : List (Nat × Nat) := match s.arr with
  | none => []
  | some a => [(a, s.tab.b)]

structure Inv (s : St) : Prop where
  use : inUse s.log [] = some s.has
  new : ∀ a, s.arr = some a → a < s.next
  none0 : s.arr = none ↔ s.tab.b = 0
  nul : nulls s.log ≤ (if s.tab.b = 0 ∧ s.gone = false then 0 else 1)
  gone : s.gone = true → s.arr = none

theorem Inv.same {s : St} (h : Inv s) (t : Tab) (hb : t.b = s.tab.b) : Inv { s with tab := t } :=
  ⟨by rw [h.use]; simp [St.has, hb], h.new, by simp [h.none0, hb], by have := h.nul; simpa [hb] using this, h.gone⟩

theorem nulls_append (a b : List Ev) : nulls (a ++ b) = nulls a + nulls b := by simp [nulls]

theorem Inv.rehash {s : St} (h : Inv s) (hg : s.gone = false) (t : Tab) (hb : t.b ≠ 0) : Inv (s.rehash t t.b) := by
  obtain ⟨h1, h2, h3, h4, h5⟩ := h
  unfold St.rehash St.swap
  cases ha : s.arr with
  | none =>
    have hb0 := h3.1 ha
    rw [St.has, ha] at h1
    simp only [hb0, hg, and_self, if_true] at h4
    refine ⟨?_, ?_, ?_, ?_, ?_⟩
    · simp [inUse_append, h1, inUse, hb0, St.has]
    · simp
    · simp [hb]
    · simp only [nulls_append, Nat.le_zero_eq] at h4 ⊢
      rw [h4, if_neg (by simp [hb])]; simp [nulls, isNull]
    · simp [hg]
  | some a =>
    have hlt := h2 a ha
    have hb0 : s.tab.b ≠ 0 := fun hh => by rw [h3.2 hh] at ha; cases ha
    rw [St.has, ha] at h1
    refine ⟨?_, ?_, ?_, ?_, ?_⟩
    · have hn : a ≠ s.next := by omega
      have hn' : ¬ ((s.next, t.b) = (a, s.tab.b)) := by simp; omega
      simp [inUse_append, h1, inUse, St.has, hn, hn', List.erase_cons]
    · simp
    · simp [hb]
    · simp only [nulls_append, hb0, false_and, if_false] at h4 ⊢
      simpa [nulls, isNull, hb] using h4
    · simp [hg]

theorem Inv.setMaxSwap {s : St} (h : Inv s) (hg : s.gone = false) (t : Tab) (hb : t.b ≠ 0) :
    Inv (match (s.swap t t.b).2.1 with
      | none => (s.swap t t.b).1
      | some a => { (s.swap t t.b).1 with log := (s.swap t t.b).1.log ++ [.dealloc (some a) (s.swap t t.b).2.2] }) := by
  obtain ⟨h1, h2, h3, h4, h5⟩ := h
  unfold St.swap
  cases ha : s.arr with
  | none =>
    have hb0 := h3.1 ha
    rw [St.has, ha] at h1
    simp only [hb0, hg, and_self, if_true] at h4
    refine ⟨?_, ?_, ?_, ?_, ?_⟩
    · simp [inUse_append, h1, inUse, St.has]
    · simp
    · simp [hb]
    · simp only [nulls_append, Nat.le_zero_eq] at h4 ⊢
      rw [h4, if_neg (by simp [hb])]; simp [nulls, isNull]
    · simp [hg]
  | some a =>
    have hlt := h2 a ha
    have hb0 : s.tab.b ≠ 0 := fun hh => by rw [h3.2 hh] at ha; cases ha
    rw [St.has, ha] at h1
    refine ⟨?_, ?_, ?_, ?_, ?_⟩
    · have hn : a ≠ s.next := by omega
      have hn' : ¬ ((s.next, t.b) = (a, s.tab.b)) := by simp; omega
      simp [inUse_append, h1, inUse, St.has, hn, hn', List.erase_cons]
    · simp
    · simp [hb]
    · simp only [nulls_append, hb0, false_and, if_false] at h4 ⊢
      simpa [nulls, isNull, hb] using h4
    · simp [hg]

theorem link_b (t : Tab) (d : Nat) : (t.link d).b = t.b ∨ t.b < (t.link d).b := by
  unfold Tab.link
  simp only
  split
  · rename_i h
    simp only
    split
    · right; omega
    · split
      · have : t.b < t.mx := by rcases h with h | h; omega; exact h.2
        right; exact this
      · right; omega
  · left; rfl

theorem reserve_b (t : Tab) (m d : Nat) : (t.reserve m d).b = t.b ∨ t.b < (t.reserve m d).b := by
  unfold Tab.reserve
  simp only
  split
  · right; assumption
  · left; rfl

theorem setMax_b (t : Tab) (p q : Nat) : (t.setMax p q).b = t.b ∨ t.b < (t.setMax p q).b := by
  unfold Tab.setMax
  simp only
  split
  · right; rename_i h; exact h.2
  · left; rfl

theorem Inv.step {s : St} (h : Inv s) (o : Op) : Inv (s.step o) := by
  unfold St.step
  cases hg : s.gone with
  | true => exact h
  | false =>
    simp only [Bool.false_eq_true, if_false]
    cases o with
    | link d f =>
      simp only [St.link]
      split
      · rename_i hb; exact h.same _ hb
      · rename_i hb
        split
        · exact h.same _ rfl
        · exact h.rehash hg _ (by rcases link_b s.tab d with hh | hh <;> omega)
    | unlink => exact hg ▸ h.same s.tab.unlink rfl
    | reserve m d f =>
      simp only [St.reserve]
      split
      · rename_i hb; exact h.same _ hb
      · rename_i hb
        split
        · exact h.same _ rfl
        · exact h.rehash hg _ (by rcases reserve_b s.tab m d with hh | hh <;> omega)
    | setMax p q f =>
      simp only [St.setMax]
      split
      · rename_i hb; exact h.same _ hb
      · rename_i hb
        split
        · exact h
        · have := h.setMaxSwap hg (s.tab.setMax p q) (by rcases setMax_b s.tab p q with hh | hh <;> omega)
          cases ha : (s.swap (s.tab.setMax p q) (s.tab.setMax p q).b).2.1 with
          | none => simpa only [ha] using this
          | some a => simpa only [ha] using this
    | clear =>
      refine ⟨?_, h.new, h.none0, ?_, h.gone⟩
      · simp [St.clear, inUse_append, h.use, inUse, St.has]
      · have := h.nul
        simp only [St.clear, nulls_append]
        have h0 : nulls [Ev.fill s.tab.b] = 0 := rfl
        rw [h0]; exact this
    | destroy =>
      have h1 := h.use
      have h4 := h.nul
      unfold St.destroy
      cases ha : s.arr with
      | none =>
        rw [St.has, ha] at h1
        refine ⟨by simpa [St.has] using h1, by simp, by simp, ?_, by simp⟩
        simp only [reduceCtorEq, and_false, if_false]
        split at h4 <;> omega
      | some a =>
        rw [St.has, ha] at h1
        refine ⟨?_, by simp, by simp, ?_, by simp⟩
        · simp [inUse_append, h1, inUse, St.has]
        · simp only [nulls_append, reduceCtorEq, and_false, if_false]
          have : nulls [Ev.dealloc (some a) s.tab.b] = 0 := rfl
          rw [this]
          split at h4 <;> omega

theorem Inv.run {s : St} (h : Inv s) (os : List Op) : Inv (s.run os) := by
  induction os generalizing s with
  | nil => exact h
  | cons o os ih => exact ih (h.step o)

theorem inv_init (p q mx : Nat) : Inv (St.init p q mx) := ⟨rfl, by simp [St.init], by simp [St.init, Tab.init], by simp [St.init, Tab.init, nulls], by simp [St.init]⟩

end Hoard.Arrays

namespace Hoard.Arrays
open Grow

theorem run_append (s : St) (a b : List Op) : s.run (a ++ b) = (s.run a).run b := by simp [St.run]

/-! ### How much is filled -/

/-- The sum of the sizes of all arrays so far. -/
structure Cheap (s : St) (N : Nat) : Prop where
  sum : (s.tab.b = 0 ∧ filled s.log = 0) ∨ (0 < s.tab.b ∧ filled s.log + 4 ≤ 2 * s.tab.b) ∨ (s.tab.mx ≤ s.tab.b ∧ filled s.log ≤ 3 * s.tab.b)
  size : s.tab.n ≤ N
  few : s.tab.b ≤ 4 ∨ s.tab.p * s.tab.b ≤ 2 * s.tab.q * N

theorem left_le (t : Tab) (d : Nat) : t.left d ≤ t.n := by unfold Tab.left; split <;> omega

theorem Cheap.step {s : St} {N : Nat} (h : Cheap s N) (o : Op) (ho : o.plain = true) : Cheap (s.step o) (N + (if o.isLink then 1 else 0)) := by
  obtain ⟨h1, h2, h3⟩ := h
  have up : s.tab.b ≤ 4 ∨ s.tab.p * s.tab.b ≤ 2 * s.tab.q * (N + 1) := by
    rcases h3 with h | h
    · exact .inl h
    · exact .inr (Nat.le_trans h (Nat.mul_le_mul_left _ (by omega)))
  unfold St.step
  cases hg : s.gone with
  | true =>
    refine ⟨h1, by simp only [if_true]; omega, ?_⟩
    cases o <;> first | exact up | exact h3
  | false =>
    simp only [Bool.false_eq_true, if_false]
    cases o with
    | unlink => exact ⟨h1, by simp only [Tab.unlink, Op.isLink]; simp; omega, h3⟩
    | link d f =>
      have hl := left_le s.tab d
      have hn : (s.tab.link d).n ≤ N + 1 := by
        simp only [Tab.link]; split <;> simp only <;> omega
      have hp : (s.tab.link d).p = s.tab.p ∧ (s.tab.link d).q = s.tab.q ∧ (s.tab.link d).mx = s.tab.mx := by
        simp only [Tab.link]; split <;> exact ⟨rfl, rfl, rfl⟩
      simp only [St.link, Op.isLink, if_true]
      split
      · rename_i hb
        refine ⟨?_, hn, ?_⟩
        · simp only [hb, hp]; exact h1
        · simp only [hb, hp]; exact up
      · rename_i hb
        split
        · exact ⟨h1, by simp only; omega, up⟩
        · have hf : filled (s.rehash (s.tab.link d) (s.tab.link d).b).log = filled s.log + (s.tab.link d).b := by
            simp [St.rehash, St.swap, filled_append, filled]
          refine ⟨?_, hn, ?_⟩
          · rw [hf]
            show ((s.tab.link d).b = 0 ∧ _) ∨ (0 < (s.tab.link d).b ∧ _ ≤ 2 * (s.tab.link d).b) ∨ ((s.tab.link d).mx ≤ (s.tab.link d).b ∧ _ ≤ 3 * (s.tab.link d).b)
            rw [hp.2.2]
            revert hb
            simp only [Tab.link]
            split
            · rename_i hc
              simp only
              intro hb
              by_cases h0 : s.tab.b = 0
              · simp only [h0, if_true]
                rcases h1 with h | h | h <;> omega
              · simp only [h0, if_false]
                have hlt : s.tab.b < s.tab.mx := by
                  rcases hc with h | h
                  · exact absurd h h0
                  · exact h.2
                split <;> (rcases h1 with h | h | h <;> omega)
            · simp
          · show (s.tab.link d).b ≤ 4 ∨ (s.tab.link d).p * (s.tab.link d).b ≤ 2 * (s.tab.link d).q * (N + 1)
            rw [hp.1, hp.2.1]
            revert hb
            simp only [Tab.link]
            split
            · rename_i hc
              simp only
              intro hb
              by_cases h0 : s.tab.b = 0
              · simp [h0]
              · right
                simp only [h0, if_false]
                have hov : s.tab.p * s.tab.b < (s.tab.left d + 1) * s.tab.q := by
                  rcases hc with h | h
                  · exact absurd h h0
                  · have := h.1; simpa [Tab.over] using this
                have hov2 : s.tab.p * s.tab.b ≤ s.tab.q * (N + 1) := by
                  rw [Nat.mul_comm s.tab.q]
                  exact Nat.le_trans (Nat.le_of_lt hov) (Nat.mul_le_mul_right _ (by omega))
                have e2 : s.tab.p * (2 * s.tab.b) = 2 * (s.tab.p * s.tab.b) := by rw [Nat.mul_left_comm]
                have e3 : 2 * s.tab.q * (N + 1) = 2 * (s.tab.q * (N + 1)) := Nat.mul_assoc _ _ _
                split
                · have hm : s.tab.mx ≤ 2 * s.tab.b := by omega
                  have := Nat.mul_le_mul_left s.tab.p hm
                  omega
                · omega
            · simp
    | reserve m d f => cases ho
    | setMax p q f => cases ho
    | clear => cases ho
    | destroy => cases ho

theorem links_cons (o : Op) (os : List Op) : links (o :: os) = links os + (if o.isLink then 1 else 0) := by
  simp [links, List.countP_cons]

theorem Cheap.run {s : St} {N : Nat} (h : Cheap s N) (os : List Op) (hp : ∀ o ∈ os, o.plain = true) : Cheap (s.run os) (N + links os) := by
  induction os generalizing s N with
  | nil => exact h
  | cons o os ih =>
    have := ih (h.step o (hp o (by simp))) (fun x hx => hp x (by simp [hx]))
    rw [links_cons]
    rwa [show N + (links os + if o.isLink = true then 1 else 0) = N + (if o.isLink = true then 1 else 0) + links os by omega]

theorem cheap_init (p q mx : Nat) : Cheap (St.init p q mx) 0 := ⟨.inl ⟨rfl, rfl⟩, Nat.le_refl 0, .inl (Nat.zero_le 4)⟩

theorem plain_params {s : St} (os : List Op) (hp : ∀ o ∈ os, o.plain = true) : (s.run os).tab.p = s.tab.p ∧ (s.run os).tab.q = s.tab.q ∧ (s.run os).tab.mx = s.tab.mx := by
  induction os generalizing s with
  | nil => exact ⟨rfl, rfl, rfl⟩
  | cons o os ih =>
    have h := ih (s := s.step o) (fun x hx => hp x (by simp [hx]))
    have h1 : (s.step o).tab.p = s.tab.p ∧ (s.step o).tab.q = s.tab.q ∧ (s.step o).tab.mx = s.tab.mx := by
      have := hp o (by simp)
      unfold St.step
      split
      · exact ⟨rfl, rfl, rfl⟩
      · cases o with
        | unlink => exact ⟨rfl, rfl, rfl⟩
        | link d f =>
          have hq : (s.tab.link d).p = s.tab.p ∧ (s.tab.link d).q = s.tab.q ∧ (s.tab.link d).mx = s.tab.mx := by
            simp only [Tab.link]; split <;> exact ⟨rfl, rfl, rfl⟩
          simp only [St.link]
          split
          · exact hq
          · split
            · exact ⟨rfl, rfl, rfl⟩
            · exact hq
        | reserve m d f => cases this
        | setMax p q f => cases this
        | clear => cases this
        | destroy => cases this
    exact ⟨h.1.trans h1.1, h.2.1.trans h1.2.1, h.2.2.trans h1.2.2⟩

end Hoard.Arrays
