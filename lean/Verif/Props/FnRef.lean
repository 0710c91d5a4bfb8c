import Verif.Spec.FnRef
/-! # C112: function references -/
namespace Hoard.FnRef
variable {S A R X : Type}

/-- What is stored fits what was noted. -/
def Fits (t : List Info) (n : Nat) (o : Obj S) : Prop :=
  match o with
  | .fn _ => ∃ i, t[n]? = some i ∧ i.root = n ∧ i.needs = [] ∧ i.cst = false ∧ i.stops = false
  | .ref nx c to => to < n ∧ ∃ i j, t[n]? = some i ∧ t[to]? = some j ∧ i.nx = nx ∧ i.root = j.root ∧ i.needs = to :: j.needs ∧ i.stops = (nx || j.stops) ∧
      i.cst = if j.needs = [] then c else j.cst
  | .gone => True

structure Inv (m : List (Obj S)) (t : List Info) : Prop where
  len : m.length = t.length
  fits : ∀ (n : Nat) (o : Obj S), m[n]? = some o → Fits t n o
  /-- what needs nothing is a function object -/
  fn : ∀ (n : Nat) (i : Info), t[n]? = some i → i.needs = [] → i.root = n ∧ i.stops = false

theorem Fits.mono {t : List Info} {n : Nat} {o : Obj S} (h : Fits t n o) (u : List Info) : Fits (t ++ u) n o := by
  have hg : ∀ {k : Nat} {i : Info}, t[k]? = some i → (t ++ u)[k]? = some i := by
    intro k i hk
    rw [List.getElem?_append_left (List.getElem?_eq_some_iff.1 hk).1]; exact hk
  cases o with
  | fn s => obtain ⟨i, h1, h2⟩ := h; exact ⟨i, hg h1, h2⟩
  | ref nx c to => obtain ⟨h0, i, j, h1, h2, h3⟩ := h; exact ⟨h0, i, j, hg h1, hg h2, h3⟩
  | gone => trivial

theorem Inv.snoc {m : List (Obj S)} {t : List Info} (h : Inv m t) (o : Obj S) (i : Info) (ho : Fits (t ++ [i]) m.length o)
    (hi : i.needs = [] → i.root = t.length ∧ i.stops = false) : Inv (m ++ [o]) (t ++ [i]) := by
  refine ⟨by simp [h.len], fun n p hn => ?_, fun n p hn hp => ?_⟩
  · rcases Nat.lt_trichotomy n m.length with hl | hl | hl
    · rw [List.getElem?_append_left hl] at hn; exact (h.fits n p hn).mono _
    · subst hl; simp at hn; subst hn; exact ho
    · have := (List.getElem?_eq_some_iff.1 hn).1; simp at this; omega
  · rcases Nat.lt_trichotomy n t.length with hl | hl | hl
    · rw [List.getElem?_append_left hl] at hn; exact h.fn n p hn hp
    · subst hl; simp at hn; subst hn; exact hi hp
    · have := (List.getElem?_eq_some_iff.1 hn).1; simp at this; omega

theorem Inv.gone {m : List (Obj S)} {t : List Info} (h : Inv m t) (a : Nat) : Inv (m.set a .gone) t := by
  refine ⟨by simp [h.len], fun n p hn => ?_, h.fn⟩
  rw [List.getElem?_set] at hn
  split at hn
  · split at hn
    · cases hn; trivial
    · cases hn
  · exact h.fits n p hn

theorem Inv.fnSet {m : List (Obj S)} {t : List Info} (h : Inv m t) {a : Nat} {s : S} (ha : m[a]? = some (.fn s)) (s' : S) : Inv (m.set a (.fn s')) t := by
  refine ⟨by simp [h.len], fun n p hn => ?_, h.fn⟩
  rw [List.getElem?_set] at hn
  split at hn
  · rename_i e; subst e
    split at hn
    · cases hn; show Fits t a (.fn s); exact h.fits _ _ ha
    · cases hn
  · exact h.fits n p hn

/-- A call of an object with the number `n`. -/
theorem Inv.call {m : List (Obj S)} {t : List Info} (h : Inv m t) (F : Code S A R X) (x : A) (n k : Nat) (hk : n < k) (i : Info) (hi : t[n]? = some i) (cst : Bool)
    (ha : alive m n = true) :
    ((∀ v ∈ i.needs, alive m v = true) → ∃ s, m[i.root]? = some (.fn s) ∧
      FnRef.call F m x k cst n = ((once F (if i.needs = [] then { i with cst := cst } else i) x s).1,
        m.set i.root (.fn (once F (if i.needs = [] then { i with cst := cst } else i) x s).2))) ∧
    ((∃ v ∈ i.needs, alive m v = false) → FnRef.call F m x k cst n = (.ub, m)) := by
  induction n using Nat.strongRecOn generalizing k i cst with
  | ind n ih =>
    obtain ⟨k, rfl⟩ : ∃ k', k = k' + 1 := ⟨k - 1, by omega⟩
    rcases ho : m[n]? with _ | o
    · simp [alive, ho] at ha
    · have hf := h.fits n o ho
      cases o with
      | gone => simp [alive, ho] at ha
      | fn s =>
        obtain ⟨i', h1, h2, h3, h4, h5⟩ := hf
        cases hi.symm.trans h1
        refine ⟨fun _ => ⟨s, by rw [h2]; exact ho, ?_⟩, fun ⟨v, hv, _⟩ => by simp [h3] at hv⟩
        simp only [h3, if_true, FnRef.call, ho, once, h5, h2]
        rcases F.call cst x s with ⟨_ | _, s'⟩ <;> rfl
      | ref nx c to =>
        obtain ⟨h0, i', j, h1, hj, h3, h4, h5, h6, h7⟩ := hf
        cases hi.symm.trans h1
        have hne : i.needs ≠ [] := by rw [h5]; simp
        by_cases hto : alive m to = true
        · have hc := ih to h0 k (by omega) j hj c hto
          constructor
          · intro hv
            obtain ⟨s, hs, hr⟩ := hc.1 fun v hv' => hv v (by rw [h5]; exact List.mem_cons_of_mem _ hv')
            refine ⟨s, by rw [h4]; exact hs, ?_⟩
            simp only [if_neg hne, FnRef.call, ho, hr, h4]
            by_cases hjn : j.needs = []
            · have hjs := (h.fn to j hj hjn).2
              rw [if_pos hjn] at h7
              simp only [if_pos hjn, once, h7, h6, hjs]
              rcases F.call c x s with ⟨_ | _, s'⟩ <;> simp
            · rw [if_neg hjn] at h7
              simp only [if_neg hjn, once, h7, h6]
              rcases F.call j.cst x s with ⟨_ | _, s'⟩ <;> cases nx <;> cases j.stops <;> simp
          · rintro ⟨v, hv, hva⟩
            rw [h5] at hv
            rcases List.mem_cons.1 hv with rfl | hv
            · rw [hto] at hva; cases hva
            · simp only [FnRef.call, ho, hc.2 ⟨v, hv, hva⟩]
        · constructor
          · intro hv; exact absurd (hv to (by rw [h5]; exact List.mem_cons_self ..)) hto
          · intro _
            simp only [FnRef.call, ho]
            have : FnRef.call F m x k c to = (.ub, m) := by
              obtain ⟨k, rfl⟩ : ∃ k', k = k' + 1 := ⟨k - 1, by omega⟩
              unfold FnRef.call
              rcases hm : m[to]? with _ | (s | ⟨a, b, d⟩ | _) <;> simp [alive, hm] at hto <;> rfl
            rw [this]

theorem Inv.step {m m' : List (Obj S)} {t : List Info} (h : Inv m t) (F : Code S A R X) (o : Op S A) (r : Option (Except X R)) (hs : FnRef.step F m o = some (m', r)) :
    Inv m' (note t o) := by
  have hlast : ∀ i : Info, (t ++ [i])[m.length]? = some i := by intro i; simp [h.len]
  cases o with
  | fn s =>
    simp only [FnRef.step, Option.some.injEq, Prod.mk.injEq] at hs
    rw [← hs.1]
    exact h.snoc _ _ ⟨_, hlast _, h.len.symm, rfl, rfl, rfl⟩ fun _ => ⟨rfl, rfl⟩
  | make nx cat a =>
    simp only [FnRef.step, Option.map_eq_some_iff, Prod.mk.injEq] at hs
    obtain ⟨o, ho, rfl, -⟩ := hs
    unfold construct at ho
    rcases hm : m[a]? with _ | (s | ⟨nx', c, to⟩ | _) <;> rw [hm] at ho
    · cases ho
    · cases ho
      obtain ⟨i, hi, h2, h3, h4, h5⟩ := h.fits a _ hm
      have hl : a < t.length := (List.getElem?_eq_some_iff.1 hi).1
      simp only [note, hi, h3, if_true]
      refine h.snoc _ _ ⟨by rw [h.len]; exact hl, _, i, hlast _, ?_, rfl, h2.symm, by simp [h3], by simp [h5], by simp [h3]; cases cat <;> rfl⟩ (by simp)
      rw [List.getElem?_append_left hl]; exact hi
    · obtain ⟨h0, i, j, hi, hj, h3, h4, h5, h6, h7⟩ := h.fits a _ hm
      have hl : a < t.length := (List.getElem?_eq_some_iff.1 hi).1
      have hne : i.needs ≠ [] := by rw [h5]; simp
      have hcat : cat.implicit = true ↔ cat = .constLvalue ∨ cat = .rvalue := by cases cat <;> simp [Cat.implicit]
      simp only [note, hi, if_neg hne, h3]
      by_cases hc : nx' = nx ∧ cat.implicit = true
      · rw [if_pos ⟨hc.1, hcat.1 hc.2⟩]
        simp only [if_pos hc] at ho
        cases ho
        refine h.snoc _ _ ⟨by rw [h.len]; omega, i, j, hlast _, ?_, h3, h4, h5, h6, h7⟩ (fun e => absurd e hne)
        rw [List.getElem?_append_left (by omega)]; exact hj
      · rw [if_neg (fun e => hc ⟨e.1, hcat.2 e.2⟩)]
        simp only [if_neg hc] at ho
        cases ho
        refine h.snoc _ _ ⟨by rw [h.len]; exact hl, _, i, hlast _, ?_, rfl, rfl, rfl, rfl, by simp [hne]⟩ (by simp)
        rw [List.getElem?_append_left hl]; exact hi
    · cases ho
  | call a x =>
    have hcl : ∀ res mm, FnRef.call F m x m.length false a = (res, mm) → res ≠ .ub → res ≠ .loops → Inv mm t := by
      intro res mm hc hu hlo
      by_cases ha : alive m a = true
      · have hl : a < m.length := by
          rcases Nat.lt_or_ge a m.length with hl | hl
          · exact hl
          · simp [alive, List.getElem?_eq_none hl] at ha
        obtain ⟨i, hi⟩ : ∃ i, t[a]? = some i := ⟨t[a]'(by rw [← h.len]; exact hl), by simp [h.len ▸ hl]⟩
        have hcc := h.call F x a m.length hl i hi false ha
        by_cases hv : ∀ v ∈ i.needs, alive m v = true
        · obtain ⟨s, hs, hr⟩ := hcc.1 hv
          rw [hr] at hc; cases hc
          exact h.fnSet hs _
        · have : ∃ v ∈ i.needs, alive m v = false := by
            refine Classical.byContradiction fun hn => hv fun v hv' => ?_
            cases hb : alive m v with
            | true => rfl
            | false => exact absurd ⟨v, hv', hb⟩ hn
          rw [hcc.2 this] at hc; cases hc; exact absurd rfl hu
      · exfalso
        rcases hm : m.length with _ | k
        · rw [hm] at hc; cases hc; exact hlo rfl
        · rw [hm] at hc
          unfold FnRef.call at hc
          rcases hm : m[a]? with _ | (s | ⟨a, b, d⟩ | _) <;> simp [alive, hm] at ha <;> rw [hm] at hc <;> cases hc <;> exact hu rfl
    simp only [FnRef.step] at hs
    rcases hc : FnRef.call F m x m.length false a with ⟨res, mm⟩
    rw [hc] at hs
    have := hcl res mm hc
    cases res <;> simp at hs <;> (obtain ⟨rfl, -⟩ := hs; exact this (by simp) (by simp))
  | destroy a =>
    simp only [FnRef.step] at hs
    split at hs <;> cases hs <;> exact h.gone a

theorem Inv.run {m m' : List (Obj S)} {t : List Info} (h : Inv m t) (F : Code S A R X) (os : List (Op S A)) (hr : FnRef.run F m os = some m') :
    Inv m' (os.foldl note t) := by
  induction os generalizing m t with
  | nil => cases hr; exact h
  | cons o os ih =>
    simp only [FnRef.run] at hr
    split at hr
    · rename_i m1 r hs
      exact ih (h.step F o r hs) hr
    · cases hr

theorem inv_notes (F : Code S A R X) (os : List (Op S A)) (m : List (Obj S)) (hr : FnRef.run F [] os = some m) : Inv m (notes os) :=
  Inv.run ⟨rfl, by simp, by simp⟩ F os hr

theorem alive_lt {m : List (Obj S)} {a : Nat} (h : alive m a = true) : a < m.length := by
  rcases Nat.lt_or_ge a m.length with hl | hl
  · exact hl
  · simp [alive, List.getElem?_eq_none hl] at h

theorem notes_ok (os : List (Op S A)) : ∀ (n : Nat) (i : Info), (notes os)[n]? = some i → (∀ v ∈ i.needs, v < n) ∧ (i.needs ≠ [] → i.root ∈ i.needs) := by
  suffices ∀ (os : List (Op S A)) (t : List Info), (∀ (n : Nat) (i : Info), t[n]? = some i → (∀ v ∈ i.needs, v < n) ∧ (i.needs ≠ [] → i.root ∈ i.needs)) →
      ∀ (n : Nat) (i : Info), (os.foldl note t)[n]? = some i → (∀ v ∈ i.needs, v < n) ∧ (i.needs ≠ [] → i.root ∈ i.needs) from
    this os [] (by simp)
  intro os
  induction os with
  | nil => intro t h; exact h
  | cons o os ih =>
    intro t h
    refine ih _ ?_
    have snoc : ∀ i : Info, ((∀ v ∈ i.needs, v < t.length) ∧ (i.needs ≠ [] → i.root ∈ i.needs)) →
        ∀ (n : Nat) (j : Info), (t ++ [i])[n]? = some j → (∀ v ∈ j.needs, v < n) ∧ (j.needs ≠ [] → j.root ∈ j.needs) := by
      intro i hi n j hj
      rcases Nat.lt_or_ge n t.length with hl | hl
      · rw [List.getElem?_append_left hl] at hj; exact h n j hj
      · have : n = t.length := by have := (List.getElem?_eq_some_iff.1 hj).1; simp at this; omega
        subst this; simp at hj; subst hj; exact hi
    cases o with
    | fn s => exact snoc _ (by simp)
    | make nx cat a =>
      simp only [note]
      rcases ha : t[a]? with _ | i
      · exact h
      · have hl : a < t.length := (List.getElem?_eq_some_iff.1 ha).1
        have hi := h a i ha
        dsimp only
        split
        · exact snoc _ ⟨by simpa using hl, by simp⟩
        · rename_i hne
          split
          · exact snoc _ ⟨fun v hv => Nat.lt_trans (hi.1 v hv) hl, hi.2⟩
          · refine snoc _ ⟨fun v hv => ?_, fun _ => List.mem_cons_of_mem _ (hi.2 hne)⟩
            rcases List.mem_cons.1 hv with rfl | hv
            · exact hl
            · exact Nat.lt_trans (hi.1 v hv) hl
    | call a x => exact h
    | destroy a => exact h

theorem run_snoc (F : Code S A R X) (os : List (Op S A)) (m0 m1 : List (Obj S)) (os' : List (Op S A)) (h : FnRef.run F m0 os = some m1) :
    FnRef.run F m0 (os ++ os') = FnRef.run F m1 os' := by
  induction os generalizing m0 with
  | nil => cases h; rfl
  | cons o os ih =>
    simp only [FnRef.run, List.cons_append] at h ⊢
    split at h
    · exact ih _ h
    · cases h

/-- What is needed is there. -/
def Sound (m : List (Obj S)) (t : List Info) : Prop :=
  ∀ n i, t[n]? = some i → alive m n = true → ∀ v ∈ i.needs, v < n ∧ alive m v = true

theorem alive_set_of {m : List (Obj S)} {a : Nat} {s s' : S} (ha : m[a]? = some (.fn s)) (n : Nat) : alive (m.set a (.fn s')) n = alive m n := by
  unfold alive
  rw [List.getElem?_set]
  by_cases e : a = n
  · subst e
    rw [if_pos rfl, if_pos (List.getElem?_eq_some_iff.1 ha).1, ha]
  · rw [if_neg e]

theorem alive_gone {m : List (Obj S)} {a n : Nat} : alive (m.set a .gone) n = (alive m n && decide (n ≠ a)) := by
  unfold alive
  rw [List.getElem?_set]
  by_cases e : a = n
  · subst e
    by_cases hl : a < m.length <;> simp [hl]
  · rw [if_neg e]
    simp [Ne.symm e]

theorem alive_snoc {m : List (Obj S)} {o : Obj S} {n : Nat} (h : n < m.length) : alive (m ++ [o]) n = alive m n := by
  unfold alive; rw [List.getElem?_append_left h]

/-- Alive objects after a call are those before. -/
theorem Inv.call_alive {m m' : List (Obj S)} {t : List Info} (h : Inv m t) (F : Code S A R X) (a : Nat) (x : A) (r : Option (Except X R))
    (hs : FnRef.step F m (.call a x) = some (m', r)) (n : Nat) : alive m' n = alive m n := by
  simp only [FnRef.step] at hs
  rcases hc : FnRef.call F m x m.length false a with ⟨res, mm⟩
  have hmm : mm = m' := by rw [hc] at hs; cases res <;> simp at hs <;> exact hs.1
  have hu : res ≠ .ub ∧ res ≠ .loops := by rw [hc] at hs; cases res <;> simp at hs <;> simp
  subst hmm
  by_cases ha : alive m a = true
  · have hl := alive_lt ha
    obtain ⟨i, hi⟩ : ∃ i, t[a]? = some i := ⟨t[a]'(by rw [← h.len]; exact hl), by simp [h.len ▸ hl]⟩
    have hcc := h.call F x a m.length hl i hi false ha
    by_cases hv : ∃ v ∈ i.needs, alive m v = false
    · rw [hcc.2 hv] at hc; cases hc; exact absurd rfl hu.1
    · obtain ⟨s, hs', hr⟩ := hcc.1 fun v hv' => by
        cases hb : alive m v with
        | true => rfl
        | false => exact absurd ⟨v, hv', hb⟩ hv
      rw [hr] at hc; cases hc
      exact alive_set_of hs' n
  · exfalso
    rcases hm : m.length with _ | k
    · rw [hm] at hc; cases hc; exact hu.2 rfl
    · rw [hm] at hc
      unfold FnRef.call at hc
      rcases hm : m[a]? with _ | (s | ⟨a, b, d⟩ | _) <;> simp [alive, hm] at ha <;> rw [hm] at hc <;> cases hc <;> exact hu.1 rfl

theorem Sound.step {m m' : List (Obj S)} {t : List Info} (h : Inv m t) (hw : Sound m t) (F : Code S A R X) (o : Op S A) (r : Option (Except X R))
    (hs : FnRef.step F m o = some (m', r)) (ho : ∀ a, o = .destroy a → ∀ b, a < b → alive m b = false) : Sound m' (note t o) := by
  have snoc : ∀ (p : Obj S) (i : Info), (∀ v ∈ i.needs, v < t.length ∧ alive m v = true) → Sound (m ++ [p]) (t ++ [i]) := by
    intro p i hi n j hj hn v hv
    rcases Nat.lt_or_ge n t.length with hl | hl
    · rw [List.getElem?_append_left hl] at hj
      rw [alive_snoc (by rw [h.len]; exact hl)] at hn
      obtain ⟨h1, h2⟩ := hw n j hj hn v hv
      exact ⟨h1, by rw [alive_snoc (alive_lt h2)]; exact h2⟩
    · have : n = t.length := by have := (List.getElem?_eq_some_iff.1 hj).1; simp at this; omega
      subst this
      simp at hj; subst hj
      obtain ⟨h1, h2⟩ := hi v hv
      exact ⟨h1, by rw [alive_snoc (alive_lt h2)]; exact h2⟩
  cases o with
  | fn s =>
    simp only [FnRef.step, Option.some.injEq, Prod.mk.injEq] at hs
    rw [← hs.1]
    exact snoc _ _ (by simp)
  | make nx cat a =>
    simp only [FnRef.step, Option.map_eq_some_iff, Prod.mk.injEq] at hs
    obtain ⟨p, hp, rfl, -⟩ := hs
    have ha : alive m a = true := by
      unfold construct at hp
      unfold alive
      split at hp <;> simp_all
    have hl : a < t.length := by rw [← h.len]; exact alive_lt ha
    obtain ⟨i, hi⟩ : ∃ i, t[a]? = some i := ⟨t[a], by simp [hl]⟩
    have hn := hw a i hi ha
    simp only [note, hi]
    split
    · exact snoc _ _ (by intro v hv; simp at hv; subst hv; exact ⟨hl, ha⟩)
    · split
      · exact snoc _ _ fun v hv => ⟨Nat.lt_trans (hn v hv).1 hl, (hn v hv).2⟩
      · refine snoc _ _ fun v hv => ?_
        rcases List.mem_cons.1 hv with rfl | hv
        · exact ⟨hl, ha⟩
        · exact ⟨Nat.lt_trans (hn v hv).1 hl, (hn v hv).2⟩
  | call a x =>
    intro n i hi hn v hv
    have := h.call_alive F a x r hs
    rw [this] at hn ⊢
    exact hw n i hi hn v hv
  | destroy a =>
    have hm' : m' = m.set a .gone := by
      simp only [FnRef.step] at hs
      split at hs <;> cases hs <;> rfl
    subst hm'
    intro n i hi hn v hv
    rw [alive_gone] at hn ⊢
    simp at hn
    obtain ⟨h1, h2⟩ := hw n i hi hn.1 v hv
    refine ⟨h1, ?_⟩
    simp [h2]
    rintro rfl
    rw [ho v rfl n h1] at hn
    exact absurd hn.1 (by simp)

theorem sound_run {m m' : List (Obj S)} {t : List Info} (h : Inv m t) (hw : Sound m t) (F : Code S A R X) (os : List (Op S A)) (hn : nested F m os)
    (hr : FnRef.run F m os = some m') : Sound m' (os.foldl note t) := by
  induction os generalizing m t with
  | nil => cases hr; exact hw
  | cons o os ih =>
    simp only [FnRef.run] at hr
    split at hr
    · rename_i m1 r hs
      exact ih (h.step F o r hs) (hw.step h F o r hs hn.1) (hn.2 _ _ hs) hr
    · cases hr

end Hoard.FnRef

namespace Hoard.Props
open Hoard.FnRef
variable {S A R X : Type}

/-- C112.  In every program: a call of a function reference calls the function it stands for, once, with the same argument, as const if the reference says so; the state of the
function object is changed by that call, and nothing else is; the result is the result, an exception that of the function, unless a reference to a noexcept function is on the way,
which ends the program.  The reference may be made from others in any way; all that matters is that the objects it needs are there. -/
theorem C112_calls_the_function (F : Code S A R X) (ops : List (Op S A)) (m : List (Obj S)) (hr : run F [] ops = some m) (n : Nat) (i : Info)
    (hi : (notes ops)[n]? = some i) (hn : alive m n = true) (hv : ∀ v ∈ i.needs, alive m v = true) (x : A) :
    ∃ s, m[i.root]? = some (.fn s) ∧ call F m x m.length false n = ((once F i x s).1, m.set i.root (.fn (once F i x s).2)) := by
  have h := inv_notes F ops m hr
  obtain ⟨s, hs, hc⟩ := (h.call F x n m.length (alive_lt hn) i hi false hn).1 hv
  refine ⟨s, hs, ?_⟩
  rw [hc]
  by_cases he : i.needs = []
  · have : ({ i with cst := false } : Info) = i := by
      rcases ho : m[n]? with _ | o
      · simp [alive, ho] at hn
      · have hf := h.fits n o ho
        cases o with
        | fn s =>
          obtain ⟨i', h1, -, -, h4, -⟩ := hf
          cases hi.symm.trans h1
          cases i; simp at h4; simp [h4]
        | ref nx c to =>
          obtain ⟨-, i', j, h1, -, -, -, h5, -⟩ := hf
          cases hi.symm.trans h1
          rw [he] at h5; cases h5
        | gone => simp [alive, ho] at hn
    rw [if_pos he, this]
  · rw [if_neg he]

/-- C112.  A call is undefined exactly if one of the objects it needs is gone, and it never runs for ever in references. -/
theorem C112_undefined_exactly (F : Code S A R X) (ops : List (Op S A)) (m : List (Obj S)) (hr : run F [] ops = some m) (n : Nat) (i : Info)
    (hi : (notes ops)[n]? = some i) (hn : alive m n = true) (x : A) :
    ((call F m x m.length false n).1 = .ub ↔ ∃ v ∈ i.needs, alive m v = false) ∧ (call F m x m.length false n).1 ≠ .loops := by
  have h := inv_notes F ops m hr
  have hc := h.call F x n m.length (alive_lt hn) i hi false hn
  by_cases hv : ∃ v ∈ i.needs, alive m v = false
  · rw [hc.2 hv]; simp [hv]
  · obtain ⟨s, -, hr'⟩ := C112_calls_the_function F ops m hr n i hi hn (fun v hv' => by
      cases hb : alive m v with
      | true => rfl
      | false => exact absurd ⟨v, hv', hb⟩ hv) x
    rw [hr']
    simp only [hv, iff_false, once]
    rcases (F.call i.cst x s).1 with _ | _ <;> cases i.stops <;> simp

/-- C112.  In programs that destroy objects in the opposite order of their construction, as parameters are, every call of an object that is there is defined: so it is with the
functions that the cache hands on from call to call. -/
theorem C112_nested_is_defined (F : Code S A R X) (ops : List (Op S A)) (hnest : nested F [] ops) (m : List (Obj S)) (hr : run F [] ops = some m) (n : Nat)
    (hn : alive m n = true) (x : A) : (call F m x m.length false n).1 ≠ .ub := by
  have h := inv_notes F ops m hr
  have hl := alive_lt hn
  obtain ⟨i, hi⟩ : ∃ i, (notes ops)[n]? = some i := ⟨(notes ops)[n]'(by rw [← h.len]; exact hl), by simp [h.len ▸ hl]⟩
  have hs : Sound m (notes ops) := sound_run ⟨rfl, by simp, by simp⟩ (by intro n i h; simp at h) F ops hnest hr
  rw [Ne, (C112_undefined_exactly F ops m hr n i hi hn x).1]
  rintro ⟨v, hv, hva⟩
  rw [(hs n i hi hn v hv).2] at hva
  cases hva

/-- C112.  A copy of a const reference, and the result of a move, is like the original: it may outlive it.  After the original is destroyed, a call of the copy does what a call of
the original did. -/
theorem C112_const_copy_outlives (F : Code S A R X) (ops : List (Op S A)) (nx c : Bool) (to : Nat) (m : List (Obj S)) (hr : run F [] ops = some m) (a : Nat)
    (ha : m[a]? = some (.ref nx c to)) (cat : Cat) (hc : cat = .constLvalue ∨ cat = .rvalue) (x : A)
    (hd : (call F m x m.length false a).1 ≠ .ub) :
    ∃ m', run F [] (ops ++ [.make nx cat a, .destroy a]) = some m' ∧
      (call F m' x m'.length false m.length).1 = (call F m x m.length false a).1 := by
  have hi := inv_notes F ops m hr
  have hal : alive m a = true := by simp [alive, ha]
  have hl := alive_lt hal
  have him : cat.implicit = true := by rcases hc with rfl | rfl <;> rfl
  have hrun' : run F [] (ops ++ [.make nx cat a, .destroy a]) = some ((m ++ [Obj.ref nx c to]).set a Obj.gone) := by
    rw [run_snoc F ops [] m _ hr]
    simp [run, step, construct, ha, him, List.getElem?_append_left hl]
  refine ⟨_, hrun', ?_⟩
  obtain ⟨-, i, j, h1, hj, h3, h4, h5, h6, h7⟩ := hi.fits a _ ha
  have hne : i.needs ≠ [] := by rw [h5]; simp
  have hn' : (notes (ops ++ [.make nx cat a, .destroy a] : List (Op S A)))[m.length]? = some i := by
    unfold notes
    rw [List.foldl_append]
    show (note (note (notes ops) (Op.make nx cat a : Op S A)) (Op.destroy a : Op S A))[m.length]? = some i
    simp [note, h1, hne, h3, hc, hi.len]
  have hv : ∀ v ∈ i.needs, alive m v = true := by
    intro v hv
    cases hb : alive m v with
    | true => rfl
    | false => exact absurd ((C112_undefined_exactly F ops m hr a i h1 hal x).1.2 ⟨v, hv, hb⟩) hd
  have hlt : ∀ v ∈ i.needs, v < a := (notes_ok ops a i h1).1
  obtain ⟨s, hs, hcall⟩ := C112_calls_the_function F ops m hr a i h1 hal hv x
  obtain ⟨s', hs', hcall'⟩ := C112_calls_the_function F _ _ hrun' m.length i hn' (by
      rw [alive_gone]; simp [alive]; exact Nat.ne_of_gt hl) (by
      intro v hv'
      have := hlt v hv'
      rw [alive_gone, alive_snoc (by omega), hv v hv']
      simp; omega) x
  rw [hcall, hcall']
  have hroot : i.root < a := by
    have := (notes_ok ops a i h1).2 hne
    exact hlt _ this
  rw [List.getElem?_set_ne (by omega), List.getElem?_append_left (by omega), hs] at hs'
  cases hs'
  rfl

/-- C112 is false of copies of references that are not const, `function_ref g = f;`: this is not a copy of `f`, but a reference to `f`.  When `f` is destroyed a call of `g` is
undefined, though the function is still there. -/
theorem C112_copy_dangles (F : Code S A R X) (ops : List (Op S A)) (nx c : Bool) (to : Nat) (m : List (Obj S)) (hr : run F [] ops = some m) (a : Nat)
    (ha : m[a]? = some (.ref nx c to)) (x : A) :
    ∃ m', run F [] (ops ++ [.make nx .lvalue a, .destroy a]) = some m' ∧ (call F m' x m'.length false m.length).1 = .ub ∧
      (∀ b, b ≠ a → alive m b = true → alive m' b = true) := by
  have hal : alive m a = true := by simp [alive, ha]
  have hl := alive_lt hal
  refine ⟨(m ++ [Obj.ref nx false a]).set a Obj.gone, ?_, ?_, fun b hb hb' => ?_⟩
  · rw [run_snoc F ops [] m _ hr]
    simp [run, step, construct, ha, Cat.implicit, Cat.const, List.getElem?_append_left hl]
  · obtain ⟨k, hk⟩ : ∃ k, ((m ++ [Obj.ref nx false a]).set a Obj.gone).length = k + 2 := ⟨m.length - 1, by simp; omega⟩
    rw [hk]
    have h1 : ((m ++ [Obj.ref nx false a]).set a Obj.gone)[m.length]? = some (Obj.ref nx false a) := by
      rw [List.getElem?_set_ne (by omega)]; simp
    have h2 : ((m ++ [Obj.ref nx false a]).set a Obj.gone)[a]? = some Obj.gone := by
      rw [List.getElem?_set_self (by simp; omega)]
    simp only [call, h1, h2]
  · rw [alive_gone, alive_snoc (alive_lt hb'), hb']; simp [hb]

/-! ## Examples -/

/-- A function that counts its calls, and throws if it is asked for 0. -/
def counter : Code Nat Nat Nat String where
  call c x n := if x = 0 then (.error "zero", n + 1) else (.ok (if c then 100 * n + x else n + x), n + 1)

/-- As in a lookup in a set: a temporary from the function, two parameters made from the parameter before. -/
def passedOn : List (Op Nat Nat) := [.fn 0, .make false .rvalue 0, .make false .lvalue 1, .make false .lvalue 2]

example : (run counter [] passedOn).map (fun m => call counter m 5 m.length false 3) = some (.ret 5, [.fn 1, .ref false false 0, .ref false false 1, .ref false false 2]) := by decide

/-- The objects needed by the last reference: all before. -/
example : (notes passedOn)[3]? = some { root := 0, needs := [2, 1, 0], cst := false, nx := false, stops := false } := by decide

/-- `passedOn`, a call, and the end of the parameters are nested. -/
example : nested counter [] (passedOn ++ [.call 3 5, .destroy 3, .destroy 2, .destroy 1, .call 0 7]) ∧
    run counter [] (passedOn ++ [.call 3 5, .destroy 3, .destroy 2, .destroy 1, .call 0 7]) = some [.fn 2, .gone, .gone, .gone] := by
  refine ⟨?_, by decide⟩
  refine ⟨by simp, fun m r h => ?_⟩; cases h
  refine ⟨by simp, fun m r h => ?_⟩; cases h
  refine ⟨by simp, fun m r h => ?_⟩; cases h
  refine ⟨by simp, fun m r h => ?_⟩; cases h
  refine ⟨by simp, fun m r h => ?_⟩; cases h
  refine ⟨fun a ha b hb => ?_, fun m r h => ?_⟩
  · cases ha
    match b, hb with
    | b + 4, _ => simp [alive]
  cases h
  refine ⟨fun a ha b hb => ?_, fun m r h => ?_⟩
  · cases ha
    match b, hb with
    | 3, _ => rfl
    | b + 4, _ => simp [alive]
  cases h
  refine ⟨fun a ha b hb => ?_, fun m r h => ?_⟩
  · cases ha
    match b, hb with
    | 2, _ => rfl
    | 3, _ => rfl
    | b + 4, _ => simp [alive]
  cases h
  exact ⟨by simp, fun _ _ _ => trivial⟩

/-- Const functions are called as const, through any number of references; a noexcept reference ends the program. -/
example : (run counter [] [.fn 3, .make false .constLvalue 0, .make true .lvalue 1, .make false .constLvalue 2]).map
      (fun m => ((call counter m 5 m.length false 3).1, (call counter m 0 m.length false 3).1, (call counter m 0 m.length false 1).1)) =
    some (.ret 305, .ended, .threw "zero") := by decide

/-- A copy that dangles, and one that does not. -/
example : (run counter [] [.fn 0, .make false .lvalue 0, .make false .lvalue 1, .make false .constLvalue 1, .destroy 1]).map
    (fun m => ((call counter m 5 m.length false 2).1, (call counter m 5 m.length false 3).1)) = some (.ub, .ret 5) := by decide

end Hoard.Props
