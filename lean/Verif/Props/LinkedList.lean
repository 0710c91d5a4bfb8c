import Verif.DListLemmas
import Verif.Queue
/-! C28 (and the pointer-level support of C13): the doubly linked list. -/
namespace Hoard.DL

/-- Execute a call on the pointer structure. -/
def exec (H : Heap) : LOp → Option Heap
  | .front h e => linkFront H h e
  | .back h e => linkBack H h e
  | .after _ pos e => linkAfter H pos e
  | .before _ pos e => linkBefore H pos e
  | .unlink _ e => (unlink H e).map (·.1)

/-- Execute a sequence of calls; `none` is undefined behaviour. -/
def execAll (H : Heap) : List LOp → Option Heap
  | [] => some H
  | o :: os => (exec H o).bind (fun H' => execAll H' os)

/-- Every list represents its sequence, the lists are disjoint, and exactly
the linked elements have non-null links. -/
structure Good (hs : List Nat) (H : Heap) (A : Seqs) : Prop where
  rep : ∀ h ∈ hs, Represents H h (A h)
  disj : ∀ h ∈ hs, ∀ h' ∈ hs, h ≠ h' → ∀ x ∈ h :: A h, x ∉ h' :: A h'
  free : ∀ e, Free hs A e → H.succ e = none

theorem idxOf_split {l : List Nat} {p : Nat} (hp : p ∈ l) :
    l = l.take (l.idxOf p) ++ p :: l.drop (l.idxOf p + 1) ∧ p ∉ l.take (l.idxOf p) := by
  induction l with
  | nil => simp at hp
  | cons x xs ih =>
    by_cases h : x = p
    · subst h; simp
    · have hp' : p ∈ xs := by simpa [Ne.symm h] using hp
      obtain ⟨h1, h2⟩ := ih hp'
      have hi : (x :: xs).idxOf p = xs.idxOf p + 1 := by
        have : (x == p) = false := by simpa using h
        simp [List.idxOf_cons, this]
      rw [hi]
      refine ⟨?_, ?_⟩
      · simp only [List.take_succ_cons, List.drop_succ_cons, List.cons_append, List.cons.injEq, true_and]
        exact h1
      · simp only [List.take_succ_cons, List.mem_cons, not_or]
        exact ⟨Ne.symm h, h2⟩

theorem link_frame {H : Heap} {p e s x : Nat} (h1 : x ≠ p) (h2 : x ≠ e) (h3 : x ≠ s) :
    (link H p e s).succ x = H.succ x ∧ (link H p e s).pred x = H.pred x := by
  simp [link, Heap.setPred, Heap.setSucc, h1, h2, h3]

theorem cut_frame {H : Heap} {p e s x : Nat} (h1 : x ≠ p) (h2 : x ≠ e) (h3 : x ≠ s) :
    (cut H p e s).succ x = H.succ x ∧ (cut H p e s).pred x = H.pred x := by
  simp [cut, Heap.setPred, Heap.setSucc, h1, h2, h3]

theorem Represents.frame {H H' : Heap} {h : Nat} {l : List Nat} (hr : Represents H h l)
    (hf : ∀ x ∈ h :: l, H'.succ x = H.succ x ∧ H'.pred x = H.pred x) : Represents H' h l := by
  refine ⟨hr.1.congr (fun x hx => (hf x hx).1) (fun x hx => (hf x ?_).2), hr.2⟩
  simp at hx ⊢; grind

/-- Inserting a free element somewhere in list `h`. -/
theorem good_insert {hs : List Nat} {H : Heap} {A : Seqs} {h e : Nat} {l1 l2 : List Nat}
    (hg : Good hs H A) (hh : h ∈ hs) (he : Free hs A e) (hl : A h = l1 ++ l2) :
    Good hs (link H (lastOf h l1) e (firstOf l2 h)) (A.set h (l1 ++ e :: l2)) := by
  have hrep := hg.rep h hh
  rw [hl] at hrep
  have heh : e ∉ h :: (l1 ++ l2) := by
    intro hm
    rcases List.mem_cons.1 hm with rfl | hm
    · exact he.1 hh
    · exact he.2 h hh (hl ▸ hm)
  have hp : lastOf h l1 ∈ h :: A h := by
    have := lastOf_mem h l1; rw [hl]; simp at this ⊢; grind
  have hs' : firstOf l2 h ∈ h :: A h := by
    have := firstOf_mem l2 h; rw [hl]; simp at this ⊢; grind
  refine ⟨?_, ?_, ?_⟩
  · intro h2 hh2
    by_cases e2 : h2 = h
    · subst e2; simpa [Seqs.set] using represents_link hrep heh
    · have : A.set h (l1 ++ e :: l2) h2 = A h2 := by simp [Seqs.set, e2]
      rw [this]
      apply (hg.rep h2 hh2).frame
      intro x hx
      apply link_frame
      · rintro rfl; exact hg.disj h hh h2 hh2 (Ne.symm e2) _ hp hx
      · rintro rfl
        rcases List.mem_cons.1 hx with rfl | hx
        · exact he.1 hh2
        · exact he.2 h2 hh2 hx
      · rintro rfl; exact hg.disj h hh h2 hh2 (Ne.symm e2) _ hs' hx
  · have hmem : ∀ x, x ∈ h :: (l1 ++ e :: l2) → x = e ∨ x ∈ h :: A h := by
      intro x hx; rw [hl]; simp at hx ⊢; grind
    have hne : ∀ h' ∈ hs, e ∉ h' :: A h' := by
      intro h' hh' hm
      rcases List.mem_cons.1 hm with rfl | hm
      · exact he.1 hh'
      · exact he.2 h' hh' hm
    intro h1 hh1 h2 hh2 h12 x hx hx2
    by_cases e1 : h1 = h
    · subst e1
      have e2 : ¬ h2 = h1 := fun e => h12 e.symm
      simp only [Seqs.set, if_true, e2, if_false] at hx hx2
      rcases hmem x hx with rfl | hx
      · exact hne h2 hh2 hx2
      · exact hg.disj h1 hh1 h2 hh2 h12 x hx hx2
    · by_cases e2 : h2 = h
      · subst e2
        simp only [Seqs.set, if_true, e1, if_false] at hx hx2
        rcases hmem x hx2 with rfl | hx2
        · exact hne h1 hh1 hx
        · exact hg.disj h1 hh1 h2 hh2 h12 x hx hx2
      · simp only [Seqs.set, e1, e2, if_false] at hx hx2
        exact hg.disj h1 hh1 h2 hh2 h12 x hx hx2
  · intro x hx
    have hfree : Free hs A x := by
      refine ⟨hx.1, fun h2 hh2 hm => hx.2 h2 hh2 ?_⟩
      by_cases e2 : h2 = h
      · subst e2; rw [hl] at hm; simp [Seqs.set] at hm ⊢; grind
      · simpa [Seqs.set, e2] using hm
    have hxe : x ≠ e := by rintro rfl; exact hx.2 h hh (by simp [Seqs.set])
    have hxl : x ∉ h :: A h := by
      intro hm
      rcases List.mem_cons.1 hm with rfl | hm
      · exact hx.1 hh
      · exact hfree.2 h hh hm
    rw [(link_frame (p := lastOf h l1) (x := x) (s := firstOf l2 h) (fun e => hxl (e ▸ hp)) hxe (fun e => hxl (e ▸ hs'))).1]
    exact hg.free x hfree

theorem good_unlink {hs : List Nat} {H : Heap} {A : Seqs} {h e : Nat} {l1 l2 : List Nat}
    (hg : Good hs H A) (hh : h ∈ hs) (hl : A h = l1 ++ e :: l2) :
    Good hs (cut H (lastOf h l1) e (firstOf l2 h)) (A.set h (l1 ++ l2)) := by
  have hrep := hg.rep h hh
  rw [hl] at hrep
  have hp : lastOf h l1 ∈ h :: A h := by
    have := lastOf_mem h l1; rw [hl]; simp at this ⊢; grind
  have hs' : firstOf l2 h ∈ h :: A h := by
    have := firstOf_mem l2 h; rw [hl]; simp at this ⊢; grind
  have hee : e ∈ h :: A h := by rw [hl]; simp
  refine ⟨?_, ?_, ?_⟩
  · intro h2 hh2
    by_cases e2 : h2 = h
    · subst e2; simpa [Seqs.set] using (represents_cut hrep).2
    · have : A.set h (l1 ++ l2) h2 = A h2 := by simp [Seqs.set, e2]
      rw [this]
      apply (hg.rep h2 hh2).frame
      intro x hx
      apply cut_frame
      · rintro rfl; exact hg.disj h hh h2 hh2 (Ne.symm e2) _ hp hx
      · rintro rfl; exact hg.disj h hh h2 hh2 (Ne.symm e2) _ hee hx
      · rintro rfl; exact hg.disj h hh h2 hh2 (Ne.symm e2) _ hs' hx
  · have hmem : ∀ x, x ∈ h :: (l1 ++ l2) → x ∈ h :: A h := by
      intro x hx; rw [hl]; simp at hx ⊢; grind
    intro h1 hh1 h2 hh2 h12 x hx hx2
    by_cases e1 : h1 = h
    · subst e1
      have e2 : ¬ h2 = h1 := fun e => h12 e.symm
      simp only [Seqs.set, if_true, e2, if_false] at hx hx2
      exact hg.disj h1 hh1 h2 hh2 h12 x (hmem x hx) hx2
    · by_cases e2 : h2 = h
      · subst e2
        simp only [Seqs.set, if_true, e1, if_false] at hx hx2
        exact hg.disj h1 hh1 h2 hh2 h12 x hx (hmem x hx2)
      · simp only [Seqs.set, e1, e2, if_false] at hx hx2
        exact hg.disj h1 hh1 h2 hh2 h12 x hx hx2
  · intro x hx
    by_cases hxe : x = e
    · subst hxe; simp [cut, Heap.setPred, Heap.setSucc]
    · have hfree : Free hs A x := by
        refine ⟨hx.1, fun h2 hh2 hm => hx.2 h2 hh2 ?_⟩
        by_cases e2 : h2 = h
        · subst e2; rw [hl] at hm; simp [Seqs.set] at hm ⊢; grind
        · simpa [Seqs.set, e2] using hm
      have hxl : x ∉ h :: A h := by
        intro hm
        rcases List.mem_cons.1 hm with rfl | hm
        · exact hx.1 hh
        · exact hfree.2 h hh hm
      rw [(cut_frame (p := lastOf h l1) (x := x) (s := firstOf l2 h) (fun e => hxl (e ▸ hp)) hxe (fun e => hxl (e ▸ hs'))).1]
      exact hg.free x hfree

theorem exec_good {hs : List Nat} {H : Heap} {A : Seqs} (o : LOp) (hg : Good hs H A) (ho : o.ok hs A) :
    ∃ H', exec H o = some H' ∧ Good hs H' (o.apply A) := by
  cases o with
  | front h e =>
    have := (hg.rep h ho.1).1.succ_last (l1 := []) (l2 := A h)
    refine ⟨_, by simp only [exec, linkFront]; rw [show H.succ h = _ from this.1]; rfl, ?_⟩
    exact good_insert (l1 := []) hg ho.1 ho.2 rfl
  | back h e =>
    have := (by simpa using (hg.rep h ho.1).1 : Seg H h (A h ++ []) h).succ_last
    refine ⟨_, by simp only [exec, linkBack]; rw [show H.pred h = _ from this.2]; rfl, ?_⟩
    exact good_insert (l2 := []) hg ho.1 ho.2 (by simp)
  | after h pos e =>
    obtain ⟨hsp, _⟩ := idxOf_split ho.2.2
    have hl : A h = ((A h).take ((A h).idxOf pos + 1)) ++ (A h).drop ((A h).idxOf pos + 1) := by simp
    have hlast : lastOf h ((A h).take ((A h).idxOf pos + 1)) = pos := by
      have : (A h).take ((A h).idxOf pos + 1) = (A h).take ((A h).idxOf pos) ++ [pos] := by
        have hlt := List.idxOf_lt_length_iff.2 ho.2.2
        rw [List.take_succ_eq_append_getElem hlt]; simp
      rw [this]; simp [lastOf]
    have := (hl ▸ (hg.rep h ho.1).1 : Seg H h (((A h).take ((A h).idxOf pos + 1)) ++ (A h).drop ((A h).idxOf pos + 1)) h).succ_last
    rw [hlast] at this
    refine ⟨_, by simp only [exec, linkAfter]; rw [this.1]; rfl, ?_⟩
    have hgi := good_insert hg ho.1 ho.2.1 hl
    rw [hlast] at hgi
    exact hgi
  | before h pos e =>
    obtain ⟨hsp, _⟩ := idxOf_split ho.2.2
    have hl : A h = ((A h).take ((A h).idxOf pos)) ++ (A h).drop ((A h).idxOf pos) := by simp
    have hfirst : firstOf ((A h).drop ((A h).idxOf pos)) h = pos := by
      have hlt := List.idxOf_lt_length_iff.2 ho.2.2
      rw [List.drop_eq_getElem_cons hlt]; simp [firstOf]
    have := (hl ▸ (hg.rep h ho.1).1 : Seg H h (((A h).take ((A h).idxOf pos)) ++ (A h).drop ((A h).idxOf pos)) h).succ_last
    rw [hfirst] at this
    refine ⟨_, by simp only [exec, linkBefore]; rw [this.2]; rfl, ?_⟩
    have hgi := good_insert hg ho.1 ho.2.1 hl
    rw [hfirst] at hgi
    exact hgi
  | unlink h e =>
    obtain ⟨hsp, hnm⟩ := idxOf_split ho.2
    have hr := hg.rep h ho.1
    rw [hsp] at hr
    have := represents_cut hr
    refine ⟨_, by simp only [exec]; rw [this.1]; rfl, ?_⟩
    have hgu := good_unlink hg ho.1 hsp
    have : (A h).erase e = (A h).take ((A h).idxOf e) ++ (A h).drop ((A h).idxOf e + 1) := by
      have := congrArg (·.erase e) hsp
      rw [show (A h).erase e = _ from this, List.erase_append_right _ hnm]; simp
    simp only [LOp.apply, this]
    exact hgu

/-- C28. Starting from any number of freshly constructed lists, any sequence
of legal calls runs without undefined behaviour, each list then represents
exactly the specified sequence with both link directions consistent, and the
linked test holds exactly for the elements in some list. -/
theorem C28_list_is_sequence (hs : List Nat) (os : List LOp) (H0 : Heap)
    (hfresh : ∀ x, x ∉ hs → H0.succ x = none)
    (hok : LOk hs (fun _ => []) os) :
    ∃ H, execAll (hs.foldl ctor H0) os = some H ∧
      (∀ h ∈ hs, Represents H h (os.foldl LOp.apply (fun _ => []) h)) ∧
      (∀ e, e ∉ hs → (isLinked H e = true ↔ ∃ h ∈ hs, e ∈ os.foldl LOp.apply (fun _ => []) h)) := by
  have hctor : ∀ (hs : List Nat) (H : Heap) (x : Nat),
      ((hs.foldl ctor H).succ x = if x ∈ hs then some x else H.succ x) ∧
      ((hs.foldl ctor H).pred x = if x ∈ hs then some x else H.pred x) := by
    intro hs
    induction hs with
    | nil => simp
    | cons h hs ih =>
      intro H x
      rw [List.foldl_cons]
      obtain ⟨i1, i2⟩ := ih (ctor H h) x
      rw [i1, i2]
      by_cases hx : x ∈ hs
      · simp [hx]
      · by_cases he : x = h <;> simp [hx, he, ctor, Heap.setPred, Heap.setSucc]
  have hg0 : Good hs (hs.foldl ctor H0) (fun _ => []) := by
    refine ⟨?_, ?_, ?_⟩
    · intro h hh
      refine ⟨⟨?_, ?_⟩, by simp⟩
      · rw [(hctor hs H0 h).1]; simp [hh]
      · rw [(hctor hs H0 h).2]; simp [hh]
    · intro h _ h' _ hne x hx hx'
      simp at hx hx'; exact hne (hx ▸ hx')
    · intro e he; rw [(hctor hs H0 e).1]; simp [he.1, hfresh e he.1]
  clear hfresh
  generalize hs.foldl ctor H0 = H at hg0
  suffices Hs : ∀ (os : List LOp) (H : Heap) (A : Seqs), Good hs H A → LOk hs A os →
      ∃ H', execAll H os = some H' ∧ Good hs H' (os.foldl LOp.apply A) by
    obtain ⟨H', h1, h2⟩ := Hs os H _ hg0 hok
    refine ⟨H', h1, h2.rep, fun e he => ?_⟩
    constructor
    · intro hl
      apply Classical.byContradiction
      intro hne
      have := h2.free e ⟨he, fun h hh hm => hne ⟨h, hh, hm⟩⟩
      simp [isLinked, this] at hl
    · rintro ⟨h, hh, hm⟩
      obtain ⟨hsp, _⟩ := idxOf_split hm
      have hr := h2.rep h hh
      rw [hsp] at hr
      have := (Seg.append.1 hr.1).2.succ_last (l1 := []) (l2 := _)
      simp only [isLinked]
      rw [show H'.succ e = _ from this.1]; rfl
  clear hok os hg0 H
  intro os
  induction os with
  | nil => intro H A hg _; exact ⟨H, rfl, hg⟩
  | cons o os ih =>
    intro H A hg hok
    obtain ⟨H1, e1, hg1⟩ := exec_good o hg hok.1
    obtain ⟨H2, e2, hg2⟩ := ih H1 _ hg1 hok.2
    exact ⟨H2, by simp [execAll, e1, e2], hg2⟩

/-- A legal sequence over two lists. -/
example : LOk [100, 200] (fun _ => []) [.front 100 1, .back 100 2, .after 100 1 3, .before 100 2 4,
    .unlink 100 1, .back 200 1] := by
  simp [LOk, LOp.ok, LOp.apply, Free, Seqs.set, insertAt]
  decide

/-- C28, `empty` is true of the empty sequence only. -/
theorem C28_empty_exact (H : Heap) (h : Nat) (l : List Nat) (hr : Represents H h l) : empty H h = true ↔ l = [] := by
  cases l with
  | nil => simp [empty, hr.1.1]
  | cons x l =>
    have hx : x ≠ h := fun e => by have := hr.2; simp [e] at this
    simp [empty, hr.1.1, hx]

/-- C28, move construction. Moving from a non-empty list transfers the
sequence and leaves the source empty.

The full claim ("moving any list") fails for an empty source, see
`C28_move_empty_corrupts`. -/
theorem C28_move_partial (H : Heap) (h h' : Nat) (l : List Nat) (hl : l ≠ [])
    (hr : Represents H h l) (hne : h' ∉ h :: l) :
    ∃ H', moveCtor H h' h = some H' ∧ Represents H' h' l ∧ Represents H' h [] := by
  have hsl := hr.1.succ_last (l1 := []) (l2 := l)
  have hpl := (by simpa using hr.1 : Seg H h (l ++ []) h).succ_last (l1 := l) (l2 := [])
  have h1 : H.succ h = some (firstOf l h) := hsl.1
  have h2 : H.pred h = some (lastOf h l) := hpl.2
  refine ⟨_, by simp only [moveCtor, h1, h2]; rfl, ?_, ?_⟩
  · obtain ⟨x, xs, rfl⟩ : ∃ x xs, l = x :: xs := by
      cases l with
      | nil => exact absurd rfl hl
      | cons x xs => exact ⟨x, xs, rfl⟩
    have hn := hr.2
    have hx : firstOf (x :: xs) h = x := rfl
    have hlm : lastOf h (x :: xs) ∈ x :: xs := by rw [lastOf_cons]; exact lastOf_mem x xs
    have hhne : h' ≠ h := fun e => hne (by simp [e])
    refine ⟨⟨?_, ?_, ?_⟩, List.nodup_cons.2 ⟨fun hm => hne (by simp at hm ⊢; grind), (List.nodup_cons.1 hn).2⟩⟩
    · have : h' ≠ lastOf h (x :: xs) := by rintro rfl; exact hne (List.mem_cons_of_mem _ hlm)
      simp [Heap.setPred, Heap.setSucc, this, hx]
    · simp [Heap.setPred, Heap.setSucc, hx]
    · -- the tail: decompose on whether there is more than one element
      clear hsl hpl
      have hseg := hr.1.2.2
      -- generalise: seg from x through xs to h becomes seg to h'
      have key : ∀ (G G' : Heap) (a : Nat) (l : List Nat), Seg G a l h → (a :: l).Nodup → h ∉ a :: l →
          (∀ y, y ∈ a :: l → y ≠ lastOf a l → G'.succ y = G.succ y) →
          (∀ y, y ∈ l → G'.pred y = G.pred y) →
          G'.succ (lastOf a l) = some h' → G'.pred h' = some (lastOf a l) → Seg G' a l h' := by
        intro G G' a l
        induction l generalizing a with
        | nil => intro _ _ _ _ _ e1 e2; exact ⟨by simpa [lastOf] using e1, by simpa [lastOf] using e2⟩
        | cons y ys ih =>
          intro hs hn hh hsucc hpred e1 e2
          rw [lastOf_cons] at e1 e2 hsucc
          have hay : a ≠ lastOf y ys := by
            intro e; exact (List.nodup_cons.1 hn).1 (e ▸ lastOf_mem y ys)
          refine ⟨?_, ?_, ih y hs.2.2 (List.nodup_cons.1 hn).2 (fun hm => hh (List.mem_cons_of_mem _ hm)) ?_ ?_ e1 e2⟩
          · rw [hsucc a (by simp) hay]; exact hs.1
          · rw [hpred y (by simp)]; exact hs.2.1
          · intro z hz hzl; exact hsucc z (List.mem_cons_of_mem _ hz) hzl
          · intro z hz; exact hpred z (List.mem_cons_of_mem _ hz)
      refine key H _ x xs hseg (List.nodup_cons.1 hn).2 (List.nodup_cons.1 hn).1 ?_ ?_ ?_ ?_
      · intro y hy hyl
        have hyh : y ≠ h := by rintro rfl; exact (List.nodup_cons.1 hn).1 hy
        have hyh' : y ≠ h' := by rintro rfl; exact hne (List.mem_cons_of_mem _ hy)
        rw [lastOf_cons]
        simp [Heap.setPred, Heap.setSucc, hyh, hyh', hyl]
      · intro y hy
        have hyx : y ≠ x := by
          rintro rfl; exact (List.nodup_cons.1 (List.nodup_cons.1 hn).2).1 hy
        have hyh : y ≠ h := by rintro rfl; exact (List.nodup_cons.1 hn).1 (List.mem_cons_of_mem _ hy)
        have hyh' : y ≠ h' := by rintro rfl; exact hne (by simp [hy])
        simp [Heap.setPred, Heap.setSucc, hyh, hyh', hx, hyx]
      · rw [lastOf_cons]; simp [Heap.setPred, Heap.setSucc]
      · have : h' ≠ x := by rintro rfl; exact hne (by simp)
        rw [lastOf_cons]; simp [Heap.setPred, Heap.setSucc, hx, this]
  · have hfm : firstOf l h ∈ l := by
      cases l with
      | nil => exact absurd rfl hl
      | cons x xs => simp [firstOf]
    have hlm : lastOf h l ∈ l := by
      cases l with
      | nil => exact absurd rfl hl
      | cons x xs => rw [lastOf_cons]; exact lastOf_mem x xs
    have a1 : h ≠ h' := by rintro rfl; exact hne (by simp)
    have a2 : h ≠ firstOf l h := by intro e; exact (List.nodup_cons.1 hr.2).1 (e ▸ hfm)
    have a3 : h ≠ lastOf h l := by intro e; exact (List.nodup_cons.1 hr.2).1 (e ▸ hlm)
    refine ⟨⟨?_, ?_⟩, by simp⟩
    · simp [Heap.setPred, Heap.setSucc, a1, a3]
    · simp [Heap.setPred, Heap.setSucc, a1, a2]

/-- The hypotheses of `C28_move_partial` are met by a one-element list. -/
example : ∃ H, Represents H 100 [1] ∧ (7 : Nat) ∉ [100, 1] := by
  refine ⟨link (ctor ⟨fun _ => none, fun _ => none⟩ 100) 100 1 100, ⟨⟨rfl, rfl, rfl, rfl⟩, by simp⟩, by simp⟩

/-- C28 is false for moving an empty list: neither list is empty afterwards.
The new list has the *old list's head* as its first element and vice versa. -/
theorem C28_move_empty_corrupts (H : Heap) (h h' : Nat) (hr : Represents H h []) (hne : h' ≠ h) :
    ∃ H', moveCtor H h' h = some H' ∧ empty H' h' = false ∧ empty H' h = false ∧
      Represents H' h' [h] ∧ Represents H' h [h'] := by
  obtain ⟨⟨h1, h2⟩, _⟩ := hr
  refine ⟨_, by simp only [moveCtor, h1, h2]; rfl, ?_, ?_, ⟨⟨?_, ?_, ?_, ?_⟩, by simpa using hne⟩,
    ⟨⟨?_, ?_, ?_, ?_⟩, by simpa using Ne.symm hne⟩⟩ <;>
  simp [empty, Heap.setPred, Heap.setSucc, hne, Ne.symm hne]

/-- Such a list exists. -/
example : Represents (ctor ⟨fun _ => none, fun _ => none⟩ 100) 100 [] ∧ (200 : Nat) ≠ 100 :=
  ⟨⟨⟨rfl, rfl⟩, by simp⟩, by simp⟩

end Hoard.DL
