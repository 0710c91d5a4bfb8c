import Verif.SpecLemmas
/-! Histories: splitting, last writes, origins of lookups. -/
namespace Hoard
open Spec
variable {K V E : Type} {cfg : Cfg K}

theorem run_append (cfg : Cfg K) : ∀ (h1 h2 : Hist K V E) (s : St K V E),
    run cfg s (h1 ++ h2) = ((run cfg (run cfg s h1).1 h2).1, (run cfg s h1).2 ++ (run cfg (run cfg s h1).1 h2).2)
  | [], h2, s => by simp [run]
  | (e, o) :: h1, h2, s => by simp [run, run_append cfg h1 h2]

theorem run_len (cfg : Cfg K) : ∀ (h : Hist K V E) (s : St K V E), (run cfg s h).2.length = h.length
  | [], s => rfl
  | (e, o) :: h, s => by simp [run, run_len cfg h]

theorem history_append (eqv : K → K → Bool) (kind : Kind) : ∀ (h1 h2 : Hist K V E) (o1 o2 : List (Out K V E)) (L : Ledger K V),
    o1.length = h1.length → L.history eqv kind (h1 ++ h2) (o1 ++ o2) = (L.history eqv kind h1 o1).history eqv kind h2 o2
  | [], h2, o1, o2, L, hl => by cases o1 with | nil => simp [Ledger.history] | cons _ _ => cases hl
  | (e, o) :: h1, h2, o1, o2, L, hl => by
    cases o1 with
    | nil => cases hl
    | cons a o1 =>
      simp only [List.cons_append, Ledger.history]
      exact history_append eqv kind h1 h2 o1 o2 _ (by simpa using hl)

@[simp] theorem stateAfter_nil : stateAfter cfg ([] : Hist K V E) = St.init := rfl
@[simp] theorem ledgerAfter_nil : ledgerAfter cfg ([] : Hist K V E) = {} := rfl

theorem stateAfter_append (h1 h2 : Hist K V E) : stateAfter cfg (h1 ++ h2) = (run cfg (stateAfter cfg h1) h2).1 := by
  simp [stateAfter, run_append]

theorem stateAfter_snoc (h : Hist K V E) (e : Env V) (o : Op K V E) :
    stateAfter cfg (h ++ [(e, o)]) = (step cfg e (stateAfter cfg h) o).1 := by
  simp [stateAfter_append, run]

theorem ledgerAfter_append (h1 h2 : Hist K V E) :
    ledgerAfter cfg (h1 ++ h2) = (ledgerAfter cfg h1).history cfg.eqv cfg.resolver h2 (run cfg (stateAfter cfg h1) h2).2 := by
  simp only [ledgerAfter, run_append, stateAfter]
  exact history_append _ _ _ _ _ _ _ (run_len ..)

theorem ledgerAfter_snoc (h : Hist K V E) (e : Env V) (o : Op K V E) :
    ledgerAfter cfg (h ++ [(e, o)]) = (ledgerAfter cfg h).after cfg.eqv cfg.resolver e.now o (outAt cfg h e o) := by
  simp [ledgerAfter_append, run, Ledger.history, outAt]

theorem HistOk_append {s : St K V E} {h1 h2 : Hist K V E} :
    HistOk cfg s (h1 ++ h2) ↔ HistOk cfg s h1 ∧ HistOk cfg (run cfg s h1).1 h2 := by
  induction h1 generalizing s with
  | nil => simp [HistOk, run]
  | cons p h1 ih => obtain ⟨e, o⟩ := p; simp [HistOk, run, ih, and_assoc]

theorem NoEvictH_append {s : St K V E} {h1 h2 : Hist K V E} :
    NoEvictH cfg s (h1 ++ h2) ↔ NoEvictH cfg s h1 ∧ NoEvictH cfg (run cfg s h1).1 h2 := by
  have hne : ∀ (s : St K V E) h, NoEvictH cfg s h → NoEvict cfg s := by
    intro s h hh; cases h with
    | nil => exact hh
    | cons p h => exact hh.1
  induction h1 generalizing s with
  | nil => simp only [List.nil_append, NoEvictH, run]; exact ⟨fun h => ⟨hne _ _ h, h⟩, fun h => h.2⟩
  | cons p h1 ih => obtain ⟨e, o⟩ := p; simp [NoEvictH, run, ih, and_assoc]

/-- Induction over histories from the end. -/
theorem snoc_ind {α : Type} {P : List α → Prop} (h0 : P []) (h1 : ∀ l a, P l → P (l ++ [a])) (l : List α) : P l := by
  have : ∀ n (l : List α), l.length = n → P l := by
    intro n
    induction n with
    | zero => intro l hl; rw [List.length_eq_zero_iff.1 hl]; exact h0
    | succ n ih =>
      intro l hl
      have hne : l ≠ [] := by intro h; rw [h] at hl; cases hl
      rw [← List.dropLast_concat_getLast hne]
      exact h1 _ _ (ih _ (by rw [List.length_dropLast, hl]; rfl))
  exact this _ l rfl

/-- Splitting off the last operation. -/
theorem snoc_split {α : Type} {l1 l2 l : List α} {a b : α} (h : l ++ [a] = l1 ++ b :: l2) :
    (l2 = [] ∧ b = a ∧ l = l1) ∨ ∃ l3, l2 = l3 ++ [a] ∧ l = l1 ++ b :: l3 := by
  rcases List.eq_nil_or_concat l2 with rfl | ⟨l3, c, rfl⟩
  · left
    have := List.append_inj' h (by simp)
    exact ⟨rfl, by simpa using this.2.symm, this.1⟩
  · right
    rw [List.concat_eq_append, ← List.cons_append, ← List.append_assoc] at h
    have := List.append_inj' h (by simp)
    have hc : c = a := by simpa using this.2.symm
    exact ⟨l3, by rw [hc, List.concat_eq_append], this.1⟩

theorem Kept.nil (k : K) (h : Hist K V E) : Kept cfg k h [] := by
  intro h1 env o h2 hh; cases h1 <;> cases hh

theorem Kept.snoc {k : K} {h h' : Hist K V E} {env : Env V} {o : Op K V E} :
    Kept cfg k h (h' ++ [(env, o)]) ↔ Kept cfg k h h' ∧ ¬ ChangesAt cfg k (h ++ h') env o := by
  constructor
  · intro hk
    exact ⟨fun h1 e1 o1 h2 hh => hk h1 e1 o1 (h2 ++ [(env, o)]) (by rw [hh]; simp), hk h' env o [] rfl⟩
  · rintro ⟨h1, h2⟩ a e1 o1 b hh
    rcases snoc_split hh with ⟨rfl, hb, rfl⟩ | ⟨l3, rfl, hl⟩
    · cases hb; exact h2
    · exact h1 a e1 o1 l3 hl

theorem Kept.append {k : K} {h h1 h2 : Hist K V E} : Kept cfg k h (h1 ++ h2) ↔ Kept cfg k h h1 ∧ Kept cfg k (h ++ h1) h2 := by
  induction h2 using snoc_ind with
  | h0 => simp [Kept.nil]
  | h1 l a ih => obtain ⟨e, o⟩ := a; rw [← List.append_assoc, Kept.snoc, Kept.snoc, ih, and_assoc, List.append_assoc]

/-- The value of a key in the ledger was put there by its last write, and nothing
was written to the key or removed since. -/
theorem last_write {k : K} {v : V} (h : Hist K V E) (hv : (ledgerAfter cfg h).cur k = some v) :
    ∃ h1 e1 o1 h2, h = h1 ++ (e1, o1) :: h2 ∧ WritesAt cfg k v h1 e1 o1 ∧ Kept cfg k (h1 ++ [(e1, o1)]) h2 := by
  induction h using snoc_ind with
  | h0 => cases hv
  | h1 l a ih =>
    obtain ⟨e, o⟩ := a
    rw [ledgerAfter_snoc] at hv
    rcases after_cur hv with h | ⟨h1, h2⟩
    · exact ⟨l, e, o, [], rfl, h, Kept.nil _ _⟩
    · obtain ⟨a, e1, o1, b, rfl, hw, hk⟩ := ih h1
      refine ⟨a, e1, o1, b ++ [(e, o)], by simp, hw, Kept.snoc.2 ⟨hk, ?_⟩⟩
      simpa [ChangesAt] using h2

theorem kept_facts {k : K} {h h' : Hist K V E} (hk : Kept cfg k h h') :
    (ledgerAfter cfg (h ++ h')).cur k = (ledgerAfter cfg h).cur k ∧ (ledgerAfter cfg (h ++ h')).time k = (ledgerAfter cfg h).time k ∧
    ((ledgerAfter cfg h).gone k = true → (ledgerAfter cfg (h ++ h')).gone k = true) := by
  induction h' using snoc_ind with
  | h0 => simp
  | h1 l a ih =>
    obtain ⟨e, o⟩ := a
    obtain ⟨h1, h2⟩ := Kept.snoc.1 hk
    obtain ⟨i1, i2, i3⟩ := ih h1
    rw [← List.append_assoc, ledgerAfter_snoc]
    have := after_kept (now := e.now) h2
    exact ⟨this.1.trans i1, this.2.1.trans i2, fun h => this.2.2 (i3 h)⟩

/-- A lookup in flight of a key was started for that key, and since then nothing was
written to the key or removed, and the lookup was neither completed nor dropped. -/
theorem lookup_origin {k : K} {tok : Nat} (h : Hist K V E) (hv : (ledgerAfter cfg h).valid k = some tok) :
    ∃ h1 e1 o1 h2, h = h1 ++ (e1, o1) :: h2 ∧ StartsAt cfg k tok h1 e1 o1 ∧ Kept cfg k (h1 ++ [(e1, o1)]) h2 ∧
      ∀ h3 e3 o3 h4, h2 = h3 ++ (e3, o3) :: h4 → ((∃ r, o3 = .complete tok r) ∨ o3 = .drop tok) →
        (outAt cfg (h1 ++ (e1, o1) :: h3) e3 o3).ret ≠ .bool true := by
  induction h using snoc_ind with
  | h0 => cases hv
  | h1 l a ih =>
    obtain ⟨e, o⟩ := a
    rw [ledgerAfter_snoc] at hv
    rcases after_valid hv with h | ⟨h1, h2, h3, h4⟩
    · exact ⟨l, e, o, [], rfl, h, Kept.nil _ _, fun h3 _ _ _ h => by cases h3 <;> cases h⟩
    · obtain ⟨a, e1, o1, b, rfl, hw, hk, hn⟩ := ih h1
      refine ⟨a, e1, o1, b ++ [(e, o)], by simp, hw, Kept.snoc.2 ⟨hk, ?_⟩, ?_⟩
      · simpa [ChangesAt] using h2
      · intro a3 e3 o3 b3 hh hor
        rcases snoc_split hh with ⟨rfl, hb, rfl⟩ | ⟨l3, rfl, hl⟩
        · cases hb
          rcases hor with ⟨r, rfl⟩ | rfl
          · exact h3 r rfl
          · exact h4 rfl
        · exact hn a3 e3 o3 l3 hl hor

end Hoard
