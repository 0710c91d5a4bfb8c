import Verif.Spec.DListSpec
/-! Helper lemmas about the doubly linked list. -/
namespace Hoard.DL

theorem Seg.congr {H H' : Heap} : ∀ {a : Nat} {l : List Nat} {b : Nat}, Seg H a l b →
    (∀ x, x ∈ a :: l → H'.succ x = H.succ x) → (∀ x, x ∈ l ++ [b] → H'.pred x = H.pred x) → Seg H' a l b
  | a, [], b, h, hs, hp => by
    refine ⟨?_, ?_⟩
    · rw [hs a (by simp)]; exact h.1
    · rw [hp b (by simp)]; exact h.2
  | a, x :: xs, b, h, hs, hp => by
    refine ⟨?_, ?_, h.2.2.congr (fun y hy => hs y (by simp at hy ⊢; right; exact hy)) (fun y hy => hp y (by simp at hy ⊢; right; exact hy))⟩
    · rw [hs a (by simp)]; exact h.1
    · rw [hp x (by simp)]; exact h.2.1

theorem Seg.append {H : Heap} : ∀ {a : Nat} {l1 : List Nat} {x : Nat} {l2 : List Nat} {b : Nat},
    Seg H a (l1 ++ x :: l2) b ↔ Seg H a l1 x ∧ Seg H x l2 b
  | a, [], x, l2, b => by simp [Seg, and_assoc]
  | a, y :: ys, x, l2, b => by simp [Seg, Seg.append (l1 := ys), and_assoc]

/-- last element of `a :: l` -/
def lastOf (a : Nat) (l : List Nat) : Nat := l.getLast?.getD a
/-- first element of `l ++ [b]` -/
def firstOf (l : List Nat) (b : Nat) : Nat := l.head?.getD b

theorem lastOf_mem (a : Nat) (l : List Nat) : lastOf a l ∈ a :: l := by
  unfold lastOf
  cases h : l.getLast? with
  | none => simp
  | some x => simp [List.mem_of_getLast? h]

theorem lastOf_cons (a x : Nat) (l : List Nat) : lastOf a (x :: l) = lastOf x l := by
  unfold lastOf; cases l <;> simp [List.getLast?_cons]

theorem firstOf_mem (l : List Nat) (b : Nat) : firstOf l b ∈ l ++ [b] := by
  cases l <;> simp [firstOf]

theorem Seg.succ_last {H : Heap} : ∀ {a : Nat} {l1 l2 : List Nat} {b : Nat}, Seg H a (l1 ++ l2) b →
    H.succ (lastOf a l1) = some (firstOf l2 b) ∧ H.pred (firstOf l2 b) = some (lastOf a l1)
  | a, [], [], b, h => by simpa [lastOf, firstOf, Seg] using h
  | a, [], y :: ys, b, h => by
    simp only [lastOf, firstOf]
    exact ⟨h.1, h.2.1⟩
  | a, x :: xs, l2, b, h => by
    rw [lastOf_cons]
    exact Seg.succ_last (l1 := xs) h.2.2

theorem seg_insert {H : Heap} : ∀ {a : Nat} {l1 l2 : List Nat} {b e : Nat}, Seg H a (l1 ++ l2) b →
    (a :: (l1 ++ l2)).Nodup → (l1 ++ l2 ++ [b]).Nodup → e ∉ a :: (l1 ++ l2) → e ∉ l1 ++ l2 ++ [b] →
    Seg (link H (lastOf a l1) e (firstOf l2 b)) a (l1 ++ e :: l2) b
  | a, [], [], b, e, h, n1, n2, e1, e2 => by
    simp at e1 e2
    simp [Seg, link, lastOf, firstOf, Heap.setPred, Heap.setSucc, e1, e2]
  | a, [], y :: ys, b, e, h, n1, n2, e1, e2 => by
    simp only [List.nil_append, List.mem_cons, not_or, List.nodup_cons, List.cons_append, List.mem_append] at e1 e2 n1 n2
    simp only [List.nil_append, Seg, lastOf, firstOf]
    refine ⟨?_, ?_, ?_, ?_, ?_⟩
    · simp [link, Heap.setPred, Heap.setSucc]
    · simp [link, Heap.setPred, Heap.setSucc, e1.2.1]
    · have : e ≠ a := e1.1
      simp [link, Heap.setPred, Heap.setSucc, this]
    · simp [link, Heap.setPred, Heap.setSucc]
    · refine h.2.2.congr (fun x hx => ?_) (fun x hx => ?_)
      · have hxe : x ≠ e := by rintro rfl; simp at hx; rcases hx with h | h; exact e1.2.1 h; exact e1.2.2 h
        have hxa : x ≠ a := by rintro rfl; simp at hx; rcases hx with h | h; exact n1.1.1 h; exact n1.1.2 h
        simp [link, Heap.setPred, Heap.setSucc, hxe, hxa]
      · have hxe : x ≠ e := by rintro rfl; simp at hx; rcases hx with h | h; exact e2.2.1 h; exact e2.2.2.1 h
        have hxy : x ≠ y := by rintro rfl; simp at hx; rcases hx with h | h; exact n2.1.1 h; exact n2.1.2.1 h
        simp [link, Heap.setPred, Heap.setSucc, hxe, hxy]
  | a, x :: l1, l2, b, e, h, n1, n2, e1, e2 => by
    have hrec := seg_insert (l1 := l1) (l2 := l2) (e := e) h.2.2 (List.nodup_cons.1 n1).2
      (List.nodup_cons.1 n2).2 (fun hm => e1 (by simp at hm ⊢; right; exact hm)) (fun hm => e2 (by simp at hm ⊢; right; exact hm))
    rw [lastOf_cons]
    refine ⟨?_, ?_, hrec⟩
    · have hap : a ≠ lastOf x l1 := by
        intro he
        have := lastOf_mem x l1
        rw [← he] at this
        exact (List.nodup_cons.1 n1).1 (by simp at this ⊢; rcases this with h | h; exact Or.inl h; exact Or.inr (Or.inl h))
      have hae : a ≠ e := by rintro rfl; exact e1 (by simp)
      simp [link, Heap.setPred, Heap.setSucc, hap, hae, h.1]
    · have hxs : x ≠ firstOf l2 b := by
        intro he
        have := firstOf_mem l2 b
        rw [← he] at this
        exact (List.nodup_cons.1 n2).1 (by simp at this ⊢; rcases this with h | h; exact Or.inr (Or.inl h); exact Or.inr (Or.inr h))
      have hxe : x ≠ e := by rintro rfl; exact e1 (by simp)
      simp [link, Heap.setPred, Heap.setSucc, hxs, hxe, h.2.1]

theorem ring_nodup {h : Nat} {l : List Nat} (hn : (h :: l).Nodup) : (l ++ [h]).Nodup := by
  have : (l ++ [h]).Perm (h :: l) := by simp
  exact this.nodup_iff.2 hn

theorem represents_link {H : Heap} {h : Nat} {l1 l2 : List Nat} {e : Nat} (hr : Represents H h (l1 ++ l2))
    (he : e ∉ h :: (l1 ++ l2)) :
    Represents (link H (lastOf h l1) e (firstOf l2 h)) h (l1 ++ e :: l2) := by
  refine ⟨seg_insert hr.1 hr.2 (ring_nodup hr.2) he ?_, ?_⟩
  · intro hm; apply he; simp at hm ⊢; grind
  · have : (h :: (l1 ++ e :: l2)).Perm (e :: h :: (l1 ++ l2)) := by
      have := List.perm_middle (a := e) (l₁ := h :: l1) (l₂ := l2)
      simpa using this
    exact this.nodup_iff.2 (List.nodup_cons.2 ⟨he, hr.2⟩)

/-- Heap after `unlink e`. -/
def cut (H : Heap) (p e s : Nat) : Heap :=
  ((((H.setSucc p (some s)).setPred s (some p)).setSucc e none).setPred e none)

theorem seg_cut {H : Heap} : ∀ {a : Nat} {l1 : List Nat} {e : Nat} {l2 : List Nat} {b : Nat},
    Seg H a (l1 ++ e :: l2) b → (a :: (l1 ++ e :: l2)).Nodup → (l1 ++ e :: l2 ++ [b]).Nodup →
    Seg (cut H (lastOf a l1) e (firstOf l2 b)) a (l1 ++ l2) b
  | a, [], e, [], b, h, n1, n2 => by
    simp at n1 n2
    have : b ≠ e := fun h => n2 h.symm
    simp [Seg, cut, lastOf, firstOf, Heap.setPred, Heap.setSucc, n1, this]
  | a, [], e, y :: ys, b, h, n1, n2 => by
    simp only [List.nil_append, List.mem_cons, not_or, List.nodup_cons, List.cons_append, List.mem_append] at n1 n2
    simp only [List.nil_append, Seg, lastOf, firstOf]
    refine ⟨?_, ?_, ?_⟩
    · simp [cut, Heap.setPred, Heap.setSucc, n1.1.1]
    · simp [cut, Heap.setPred, Heap.setSucc, Ne.symm n1.2.1.1]
    · refine h.2.2.2.2.congr (fun x hx => ?_) (fun x hx => ?_)
      · have hxe : x ≠ e := by rintro rfl; simp at hx; rcases hx with h | h; exact n1.2.1.1 h; exact n1.2.1.2 h
        have hxa : x ≠ a := by rintro rfl; simp at hx; rcases hx with h | h; exact n1.1.2.1 h; exact n1.1.2.2 h
        simp [cut, Heap.setPred, Heap.setSucc, hxe, hxa]
      · have hxe : x ≠ e := by rintro rfl; simp at hx; rcases hx with h | h; exact n2.1.2.1 h; exact n2.1.2.2.1 h
        have hxy : x ≠ y := by rintro rfl; simp at hx; rcases hx with h | h; exact n2.2.1.1 h; exact n2.2.1.2.1 h
        simp [cut, Heap.setPred, Heap.setSucc, hxe, hxy]
  | a, x :: l1, e, l2, b, h, n1, n2 => by
    have hrec := seg_cut (l1 := l1) (e := e) (l2 := l2) h.2.2 (List.nodup_cons.1 n1).2 (List.nodup_cons.1 n2).2
    rw [lastOf_cons]
    refine ⟨?_, ?_, hrec⟩
    · have hap : a ≠ lastOf x l1 := by
        intro he
        have := lastOf_mem x l1
        rw [← he] at this
        exact (List.nodup_cons.1 n1).1 (by simp at this ⊢; rcases this with h | h; exact Or.inl h; exact Or.inr (Or.inl h))
      have hae : a ≠ e := by rintro rfl; exact (List.nodup_cons.1 n1).1 (by simp)
      simp [cut, Heap.setPred, Heap.setSucc, hap, hae, h.1]
    · have hxs : x ≠ firstOf l2 b := by
        intro he
        have := firstOf_mem l2 b
        rw [← he] at this
        exact (List.nodup_cons.1 n2).1 (by simp at this ⊢; rcases this with h | h; exact Or.inr (Or.inr (Or.inl h)); exact Or.inr (Or.inr (Or.inr h)))
      have hxe : x ≠ e := by rintro rfl; exact (List.nodup_cons.1 n2).1 (by simp)
      simp [cut, Heap.setPred, Heap.setSucc, hxs, hxe, h.2.1]

theorem represents_cut {H : Heap} {h : Nat} {l1 l2 : List Nat} {e : Nat} (hr : Represents H h (l1 ++ e :: l2)) :
    unlink H e = some (cut H (lastOf h l1) e (firstOf l2 h), firstOf l2 h) ∧
    Represents (cut H (lastOf h l1) e (firstOf l2 h)) h (l1 ++ l2) := by
  have h1 := hr.1.succ_last (l1 := l1) (l2 := e :: l2)
  have h2 : H.succ e = some (firstOf l2 h) ∧ H.pred (firstOf l2 h) = some e := by
    have := (Seg.append.1 hr.1).2
    simpa [lastOf] using this.succ_last (l1 := []) (l2 := l2)
  have h1' : H.pred e = some (lastOf h l1) := by simpa [firstOf] using h1.2
  refine ⟨by simp [unlink, h1', h2.1, cut], seg_cut hr.1 hr.2 (ring_nodup hr.2), ?_⟩
  have : (h :: (l1 ++ e :: l2)).Perm (e :: h :: (l1 ++ l2)) := by
    have := List.perm_middle (a := e) (l₁ := h :: l1) (l₂ := l2)
    simpa using this
  exact (List.nodup_cons.1 (this.nodup_iff.1 hr.2)).2

end Hoard.DL
