import Verif.Queue
/-! Helper lemmas about the recency queue. -/
namespace Hoard

theorem insBefore_append {hs cs : List Nat} {m v : Nat} (h : m ∉ hs) :
    insBefore m v (hs ++ m :: cs) = hs ++ v :: m :: cs := by
  induction hs with
  | nil => simp [insBefore]
  | cons x xs ih =>
    simp only [List.mem_cons, not_or] at h
    simp [insBefore, Ne.symm h.1, ih h.2]

theorem insAfter_append {hs cs : List Nat} {m v : Nat} (h : m ∉ hs) :
    insAfter m v (hs ++ m :: cs) = hs ++ m :: v :: cs := by
  induction hs with
  | nil => simp [insAfter]
  | cons x xs ih =>
    simp only [List.mem_cons, not_or] at h
    simp [insAfter, Ne.symm h.1, ih h.2]

theorem nextOf_append {hs cs : List Nat} {m : Nat} (h : m ∉ hs) :
    nextOf m (hs ++ m :: cs) = cs.head? := by
  induction hs with
  | nil => simp [nextOf]
  | cons x xs ih =>
    simp only [List.mem_cons, not_or] at h
    simp [nextOf, Ne.symm h.1, ih h.2]

theorem prevOfElem_not_mem : ∀ {l : List Nat} {m : Nat}, m ∉ l.tail → prevOfElem m l = none
  | [], _, _ => rfl
  | [_], _, _ => rfl
  | x :: y :: ys, m, h => by
    simp only [List.tail_cons, List.mem_cons, not_or] at h
    simp only [prevOfElem, Ne.symm h.1, if_false]
    exact prevOfElem_not_mem (by simpa using h.2)

theorem prevOfElem_append : ∀ {hs cs : List Nat} {m : Nat}, m ∉ hs → m ∉ cs →
    prevOfElem m (hs ++ m :: cs) = hs.getLast?
  | [], cs, m, _, hc => by simpa using prevOfElem_not_mem (l := m :: cs) (by simpa using hc)
  | [x], cs, m, _, _ => by simp [prevOfElem]
  | x :: y :: ys, cs, m, h, hc => by
    simp only [List.mem_cons, not_or] at h
    have := prevOfElem_append (hs := y :: ys) (cs := cs) (m := m) (by simp [h.2.1, h.2.2]) hc
    simp only [List.cons_append] at this
    simp [prevOfElem, Ne.symm h.2.1, this]

theorem prevOf_append {hs cs : List Nat} (hn : (hs ++ cs).Nodup) :
    prevOf cs.head? (hs ++ cs) = hs.getLast? := by
  cases cs with
  | nil => simp [prevOf]
  | cons m cs =>
    simp only [List.nodup_append, List.nodup_cons] at hn
    simp only [List.head?_cons, prevOf]
    exact prevOfElem_append (fun h => hn.2.2 m h m (by simp) rfl) hn.2.1.1

theorem setHot_self (h : Nat → Bool) (v : Nat) (b : Bool) : setHot h v b v = b := by simp [setHot]
theorem setHot_ne (h : Nat → Bool) {v x : Nat} (b : Bool) (hx : x ≠ v) : setHot h v b x = h x := by
  simp [setHot, hx]

namespace BQ

/-- Shape of a well-formed queue: hot prefix, cold suffix, the prefix being
half of the length rounded down. -/
structure Shape (s : BQ) (hs cs : List Nat) : Prop where
  q : s.q = hs ++ cs
  mid : s.mid = cs.head?
  hot : ∀ x ∈ hs, s.hot x = true
  cold : ∀ x ∈ cs, s.hot x = false
  len : hs.length = s.q.length / 2
  odd : s.odd = decide (s.q.length % 2 = 1)
  nodup : s.q.Nodup
  noub : s.ub = false

/-- The invariant in existential form. -/
def Inv (s : BQ) : Prop := ∃ hs cs, s.Shape hs cs

theorem inv_init : Inv init := ⟨[], [], by constructor <;> simp [init]⟩

theorem Shape.lens {s : BQ} {hs cs} (h : s.Shape hs cs) :
    (s.odd = true ∧ cs.length = hs.length + 1) ∨ (s.odd = false ∧ cs.length = hs.length) := by
  have h1 := h.len; have h2 := h.odd; have h3 := congrArg List.length h.q
  simp only [List.length_append] at h3
  by_cases hp : s.q.length % 2 = 1
  · left; refine ⟨by simp [h2, hp], by omega⟩
  · right; refine ⟨by simp [h2, hp], by omega⟩

/-- Constructor for `Shape` from length facts. -/
theorem Shape.mk' {s : BQ} {hs cs : List Nat} (q : s.q = hs ++ cs) (mid : s.mid = cs.head?)
    (hot : ∀ x ∈ hs, s.hot x = true) (cold : ∀ x ∈ cs, s.hot x = false)
    (l : (s.odd = true ∧ cs.length = hs.length + 1) ∨ (s.odd = false ∧ cs.length = hs.length))
    (nodup : s.q.Nodup) (noub : s.ub = false) : s.Shape hs cs := by
  refine ⟨q, mid, hot, cold, ?_, ?_, nodup, noub⟩
  · rw [q, List.length_append]; omega
  · rw [q, List.length_append]
    rcases l with ⟨h, l⟩ | ⟨h, l⟩
    · rw [h, l]; symm; apply decide_eq_true; omega
    · rw [h, l]; symm; apply decide_eq_false; omega

theorem shape_onCreate {s : BQ} {hs cs : List Nat} {v : Nat} (h : s.Shape hs cs) (hv : v ∉ s.q) :
    ∃ hs' cs', (s.onCreate v).1.Shape hs' (v :: cs') ∧ hs' ++ cs' = hs ++ cs ∧
      (s.onCreate v).2 = (if s.odd then cs.head? else none) := by
  have hn := h.nodup
  rw [h.q] at hv hn
  simp only [List.mem_append, not_or] at hv
  rcases h.lens with ⟨ho, hl⟩ | ⟨ho, hl⟩
  · cases cs with
    | nil => simp at hl
    | cons m cs =>
      have hm : s.mid = some m := by simp [h.mid]
      have hmv : m ≠ v := fun e => hv.2 (by simp [e])
      have hmh : m ∉ hs := fun hmem => by
        simp only [List.nodup_append] at hn; exact hn.2.2 m hmem m (by simp) rfl
      have hmc : m ∉ cs := by simp only [List.nodup_append, List.nodup_cons] at hn; exact hn.2.1.1
      refine ⟨hs ++ [m], cs, ?_, by simp, by simp [onCreate, ho, hm]⟩
      have e : (s.onCreate v).1 = { s with q := insAfter m v s.q, mid := some v, hot := setHot (setHot s.hot v false) m true, odd := false } := by
        simp [onCreate, ho, hm]
      rw [e]
      have hq : insAfter m v s.q = (hs ++ [m]) ++ v :: cs := by
        rw [h.q, insAfter_append hmh]; simp
      apply Shape.mk'
      · exact hq
      · rfl
      · intro x hx
        simp only [List.mem_append, List.mem_singleton] at hx
        by_cases hxm : x = m
        · simp [setHot, hxm]
        · have hx' : x ∈ hs := by simpa [hxm] using hx
          have : x ≠ v := fun e => hv.1 (e ▸ hx')
          simp [setHot, hxm, this, h.hot x hx']
      · intro x hx
        have hxm : x ≠ m := by
          rintro rfl
          rcases List.mem_cons.1 hx with h' | h'
          · exact hmv h'
          · exact hmc h'
        rcases List.mem_cons.1 hx with rfl | hx'
        · simp [setHot, hxm]
        · simp [setHot, hxm]
          intro _
          exact h.cold x (by simp [hx'])
      · right; simp at hl ⊢; omega
      · show (insAfter m v s.q).Nodup
        rw [hq]
        have : (hs ++ [m] ++ v :: cs).Perm (v :: (hs ++ m :: cs)) := by
          have := List.perm_middle (a := v) (l₁ := hs ++ [m]) (l₂ := cs)
          simpa using this
        rw [this.nodup_iff]
        exact List.nodup_cons.2 ⟨by simpa using hv, hn⟩
      · exact h.noub
  · refine ⟨hs, cs, ?_, rfl, by simp [onCreate, ho]⟩
    have hq : insBeforePos s.mid v s.q = hs ++ v :: cs := by
      cases cs with
      | nil => simp [h.mid, h.q, insBeforePos]
      | cons m cs =>
        have hmh : m ∉ hs := fun hmem => by
          simp only [List.nodup_append] at hn; exact hn.2.2 m hmem m (by simp) rfl
        simp only [h.mid, List.head?_cons, insBeforePos]
        rw [h.q, insBefore_append hmh]
    have e : (s.onCreate v).1 = { s with q := hs ++ v :: cs, mid := some v, hot := setHot s.hot v false, odd := true } := by
      simp [onCreate, ho, ← hq]
    rw [e]
    apply Shape.mk'
    · rfl
    · rfl
    · intro x hx
      have : x ≠ v := fun e => hv.1 (e ▸ hx)
      simp [setHot, this, h.hot x hx]
    · intro x hx
      rcases List.mem_cons.1 hx with rfl | hx'
      · simp [setHot]
      · have : x ≠ v := fun e => hv.2 (e ▸ hx')
        simp [setHot, this, h.cold x hx']
    · left; simp; omega
    · show (hs ++ v :: cs).Nodup
      rw [(List.perm_middle (a := v) (l₁ := hs) (l₂ := cs)).nodup_iff]
      exact List.nodup_cons.2 ⟨by simpa using hv, hn⟩
    · exact h.noub

/-- Position and list after removing `v` (first lines of `on_hit_`, `on_unlink_`). -/
theorem remove_hot {s : BQ} {hs cs : List Nat} {v : Nat} (h : s.Shape hs cs) (hv : v ∈ hs) :
    (if s.mid = some v then nextOf v s.q else s.mid) = cs.head? ∧ s.q.erase v = hs.erase v ++ cs := by
  have hn := h.nodup
  rw [h.q] at hn
  constructor
  · have : s.mid ≠ some v := by
      rw [h.mid]
      cases cs with
      | nil => simp
      | cons m cs =>
        simp only [List.nodup_append] at hn
        intro e
        simp only [List.head?_cons, Option.some.injEq] at e
        exact hn.2.2 v hv m (by simp) e.symm
    rw [if_neg this, h.mid]
  · rw [h.q, List.erase_append_left _ hv]

theorem remove_cold {s : BQ} {hs cs : List Nat} {v : Nat} (h : s.Shape hs cs) (hv : v ∈ cs) :
    (if s.mid = some v then nextOf v s.q else s.mid) = (cs.erase v).head? ∧ s.q.erase v = hs ++ cs.erase v := by
  have hn := h.nodup
  rw [h.q] at hn
  simp only [List.nodup_append] at hn
  have hvh : v ∉ hs := fun hm => hn.2.2 v hm v hv rfl
  constructor
  · cases cs with
    | nil => simp at hv
    | cons m cs =>
      rw [h.mid, h.q]
      by_cases e : m = v
      · subst e; simp [nextOf_append hvh]
      · simp [e]
  · rw [h.q, List.erase_append_right _ hvh]

theorem shape_onHit {s : BQ} {hs cs : List Nat} {v : Nat} (h : s.Shape hs cs) (hv : v ∈ s.q) :
    ∃ hs' cs', (s.onHit v).Shape hs' cs' ∧ hs' ++ cs' = v :: (hs ++ cs).erase v := by
  have hn := h.nodup
  have hn' : (hs ++ cs).Nodup := h.q ▸ hn
  rw [h.q, List.mem_append] at hv
  have hnd : (v :: s.q.erase v).Nodup := List.nodup_cons.2 ⟨hn.not_mem_erase, hn.erase v⟩
  rcases hv with hv | hv
  · obtain ⟨e1, e2⟩ := remove_hot h hv
    refine ⟨v :: hs.erase v, cs, ?_, by rw [← h.q, e2]; simp⟩
    have e : s.onHit v = { s with q := v :: s.q.erase v, mid := cs.head? } := by
      simp only [onHit, e1, h.hot v hv, if_true]
    rw [e]
    have hl : (v :: hs.erase v).length = hs.length := by
      have := List.length_pos_of_mem hv
      simp [List.length_erase_of_mem hv]; omega
    apply Shape.mk'
    · simp [e2]
    · rfl
    · intro x hx
      apply h.hot
      rcases List.mem_cons.1 hx with rfl | hx
      · exact hv
      · exact List.mem_of_mem_erase hx
    · exact h.cold
    · rw [hl]; exact h.lens
    · exact hnd
    · exact h.noub
  · obtain ⟨e1, e2⟩ := remove_cold h hv
    have hq : v :: s.q.erase v = (v :: hs) ++ cs.erase v := by simp [e2]
    have hne : (v :: hs) ≠ [] := by simp
    obtain ⟨ini, m, hm⟩ : ∃ ini m, v :: hs = ini ++ [m] :=
      ⟨(v :: hs).dropLast, (v :: hs).getLast hne, (List.dropLast_concat_getLast hne).symm⟩
    have hprev : prevOf (cs.erase v).head? (v :: s.q.erase v) = some m := by
      rw [hq, prevOf_append (by rw [← hq]; exact hnd), hm]; simp
    have hcold : s.hot v = false := h.cold v hv
    refine ⟨ini, m :: cs.erase v, ?_, by rw [← h.q, hq, hm]; simp⟩
    have e : s.onHit v = { s with q := v :: s.q.erase v, mid := some m, hot := setHot (setHot s.hot v true) m false } := by
      simp only [onHit, e1, hcold, hprev]
      simp
    rw [e]
    have hq2 : v :: s.q.erase v = ini ++ m :: cs.erase v := by rw [hq, hm]; simp
    have hnd2 := hnd
    rw [hq2] at hnd2
    simp only [List.nodup_append, List.nodup_cons] at hnd2
    have hlen : ini.length = hs.length := by
      have := congrArg List.length hm; simp at this; omega
    apply Shape.mk'
    · exact hq2
    · rfl
    · intro x hx
      have hxm : x ≠ m := hnd2.2.2 x hx m (by simp)
      by_cases hxv : x = v
      · simp [setHot, hxv]
        intro e; exact absurd (hxv.trans e) hxm
      · have : x ∈ v :: hs := by rw [hm]; simp [hx]
        have : x ∈ hs := by simpa [hxv] using this
        simp [setHot, hxm, hxv, h.hot x this]
    · intro x hx
      rcases List.mem_cons.1 hx with rfl | hx'
      · simp [setHot]
      · have hxv : x ≠ v := by
          rintro rfl
          exact (List.nodup_append.1 hn').2.1.not_mem_erase hx'
        have hxc := h.cold x (List.mem_of_mem_erase hx')
        simp [setHot, hxv, hxc]
    · have := List.length_pos_of_mem hv
      rcases h.lens with ⟨ho, hl⟩ | ⟨ho, hl⟩
      · left; refine ⟨ho, ?_⟩; simp [List.length_erase_of_mem hv]; omega
      · right; refine ⟨ho, ?_⟩; simp [List.length_erase_of_mem hv]; omega
    · exact hnd
    · exact h.noub

theorem shape_onUnlink {s : BQ} {hs cs : List Nat} {v : Nat} (h : s.Shape hs cs) (hv : v ∈ s.q) :
    ∃ hs' cs', (s.onUnlink v).Shape hs' cs' ∧ hs' ++ cs' = (hs ++ cs).erase v := by
  have hn := h.nodup
  have hn' : (hs ++ cs).Nodup := h.q ▸ hn
  have hnd : (s.q.erase v).Nodup := hn.erase v
  rw [h.q, List.mem_append] at hv
  rcases hv with hv | hv
  · obtain ⟨e1, e2⟩ := remove_hot h hv
    have hp := List.length_pos_of_mem hv
    have hhot : s.hot v = true := h.hot v hv
    rcases h.lens with ⟨ho, hl⟩ | ⟨ho, hl⟩
    · cases cs with
      | nil => simp at hl
      | cons m cs =>
        refine ⟨hs.erase v ++ [m], cs, ?_, by rw [← h.q, e2]; simp⟩
        have hnd2 := hnd
        rw [e2] at hnd2
        simp only [List.nodup_append, List.nodup_cons] at hnd2
        have hmh : m ∉ hs.erase v := fun hx => hnd2.2.2 m hx m (by simp) rfl
        have e : s.onUnlink v = { s with q := s.q.erase v, mid := cs.head?, hot := setHot s.hot m true, odd := false } := by
          simp only [onUnlink, e1, hhot, ho, List.head?_cons, if_true]
          rw [e2, nextOf_append hmh]
        rw [e]
        apply Shape.mk'
        · simp [e2]
        · rfl
        · intro x hx
          simp only [List.mem_append, List.mem_singleton] at hx
          by_cases hxm : x = m
          · simp [setHot, hxm]
          · have : x ∈ hs := List.mem_of_mem_erase (by simpa [hxm] using hx)
            simp [setHot, hxm, h.hot x this]
        · intro x hx
          have hxm : x ≠ m := fun e => hnd2.2.1.1 (e ▸ hx)
          simp [setHot, hxm, h.cold x (by simp [hx])]
        · right; simp [List.length_erase_of_mem hv] at hl ⊢; omega
        · exact hnd
        · exact h.noub
    · refine ⟨hs.erase v, cs, ?_, by rw [← h.q, e2]⟩
      have e : s.onUnlink v = { s with q := s.q.erase v, mid := cs.head?, odd := true } := by
        simp [onUnlink, e1, hhot, ho]
      rw [e]
      apply Shape.mk'
      · exact e2
      · rfl
      · exact fun x hx => h.hot x (List.mem_of_mem_erase hx)
      · exact h.cold
      · left; simp [List.length_erase_of_mem hv]; omega
      · exact hnd
      · exact h.noub
  · obtain ⟨e1, e2⟩ := remove_cold h hv
    have hp := List.length_pos_of_mem hv
    have hcold : s.hot v = false := h.cold v hv
    rcases h.lens with ⟨ho, hl⟩ | ⟨ho, hl⟩
    · refine ⟨hs, cs.erase v, ?_, by rw [← h.q, e2]⟩
      have e : s.onUnlink v = { s with q := s.q.erase v, mid := (cs.erase v).head?, odd := false } := by
        simp [onUnlink, e1, hcold, ho]
      rw [e]
      apply Shape.mk'
      · exact e2
      · rfl
      · exact h.hot
      · exact fun x hx => h.cold x (List.mem_of_mem_erase hx)
      · right; simp [List.length_erase_of_mem hv]; omega
      · exact hnd
      · exact h.noub
    · have hne : hs ≠ [] := by intro e; rw [e] at hl; simp at hl; simp [hl] at hv
      obtain ⟨ini, m, hm⟩ : ∃ ini m, hs = ini ++ [m] :=
        ⟨hs.dropLast, hs.getLast hne, (List.dropLast_concat_getLast hne).symm⟩
      have hprev : prevOf (cs.erase v).head? (s.q.erase v) = some m := by
        rw [e2, prevOf_append (by rw [← e2]; exact hnd), hm]; simp
      refine ⟨ini, m :: cs.erase v, ?_, by rw [← h.q, e2, hm]; simp⟩
      have e : s.onUnlink v = { s with q := s.q.erase v, mid := some m, hot := setHot s.hot m false, odd := true } := by
        simp only [onUnlink, e1, hcold, ho, hprev]; simp
      rw [e]
      have hq2 : s.q.erase v = ini ++ m :: cs.erase v := by rw [e2, hm]; simp
      have hnd2 := hnd
      rw [hq2] at hnd2
      simp only [List.nodup_append, List.nodup_cons] at hnd2
      have hlen : ini.length + 1 = hs.length := by rw [hm]; simp
      apply Shape.mk'
      · exact hq2
      · rfl
      · intro x hx
        have hxm : x ≠ m := hnd2.2.2 x hx m (by simp)
        simp [setHot, hxm, h.hot x (by rw [hm]; simp [hx])]
      · intro x hx
        rcases List.mem_cons.1 hx with rfl | hx'
        · simp [setHot]
        · simp [setHot, h.cold x (List.mem_of_mem_erase hx')]
      · left; simp [List.length_erase_of_mem hv]; omega
      · exact hnd
      · exact h.noub

theorem lruGo_all_cold {hot : Nat → Bool} : ∀ {l : List Nat} {c : Nat}, (∀ x ∈ l.take c, hot x = false) →
    lruGo hot l c = l.take c
  | [], _, _ => by simp [lruGo]
  | _ :: _, 0, _ => by simp [lruGo]
  | x :: xs, c + 1, h => by
    have hx : hot x = false := h x (by simp)
    simp [lruGo, hx]
    exact lruGo_all_cold (fun y hy => h y (by simp [hy]))

theorem lruGo_append_hot {hot : Nat → Bool} : ∀ {l r : List Nat} {c : Nat}, (∀ x ∈ l, hot x = false) →
    (∀ x ∈ r, hot x = true) → lruGo hot (l ++ r) c = l.take c
  | [], r, c, _, hr => by
    cases r with
    | nil => simp [lruGo]
    | cons y ys => cases c <;> simp [lruGo, hr y (by simp)]
  | x :: xs, r, 0, _, _ => by simp [lruGo]
  | x :: xs, r, c + 1, hl, hr => by
    have hx : hot x = false := hl x (by simp)
    simp [lruGo, hx]
    exact lruGo_append_hot (fun y hy => hl y (by simp [hy])) hr

theorem victims_eq {s : BQ} {hs cs : List Nat} (h : s.Shape hs cs) (n : Nat) :
    s.victims n = cs.reverse.take n := by
  rw [victims, h.q, List.reverse_append]
  exact lruGo_append_hot (by simpa using h.cold) (by simpa using h.hot)

theorem mem_victims {s : BQ} {hs cs : List Nat} (h : s.Shape hs cs) (n x : Nat) :
    x ∈ s.victims n ↔ x ∈ cs.drop (cs.length - n) := by
  rw [victims_eq h, List.take_reverse]; simp

end BQ
end Hoard
