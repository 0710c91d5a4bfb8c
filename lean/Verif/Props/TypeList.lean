import Verif.MetaLemmas
/-!
# C46: the type-list operations do what they say
-/
namespace Hoard.Props
open Hoard.Meta
variable {τ : Type} [DecidableEq τ]

/-- C46: `remove_t` removes the first occurrence and nothing else. -/
theorem C46_remove (r : τ) (l : List τ) :
    (∀ a b, r ∉ a → l = a ++ r :: b → remove l r = a ++ b) ∧ (r ∉ l → remove l r = l) := by
  rw [remove_eq]
  refine ⟨?_, ?_⟩
  · rintro a b h rfl
    rw [List.erase_append_right _ h]; simp
  · intro h; exact List.erase_of_not_mem h

/-- C46: `remove_all_t` removes all occurrences and keeps the rest in order. -/
theorem C46_remove_all (r : τ) (l : List τ) :
    r ∉ removeAll l r ∧ (removeAll l r).Sublist l ∧ ∀ x, x ≠ r → (removeAll l r).count x = l.count x := by
  rw [removeAll_eq]
  refine ⟨by simp, List.filter_sublist, ?_⟩
  intro x hx
  rw [List.count_filter (by simpa using hx)]

theorem distinctAux_append (done a b : List τ) : distinctAux done (a ++ b) = distinctAux (distinctAux done a) b := by
  induction a generalizing done with
  | nil => rfl
  | cons t ts ih =>
    rw [List.cons_append, distinctAux, distinctAux]
    split <;> exact ih _

/-- C46: `distinct_t` contains every type of the list exactly once, and an element is
appended when it is seen for the first time. -/
theorem C46_distinct (l : List τ) :
    (distinct l).Nodup ∧ (∀ x, x ∈ distinct l ↔ x ∈ l) ∧
    ∀ (a : List τ) (x : τ), (x ∈ a → distinct (a ++ [x]) = distinct a) ∧ (x ∉ a → distinct (a ++ [x]) = distinct a ++ [x]) := by
  refine ⟨distinct_nodup l, distinct_mem l, ?_⟩
  intro a x
  refine ⟨?_, ?_⟩
  · intro h
    rw [distinct, distinctAux_append, distinctAux, if_pos, distinctAux]; rfl
    have := (distinct_mem a x).2 h
    rw [distinct] at this; simpa using this
  · intro h
    rw [distinct, distinctAux_append, distinctAux, if_neg, distinctAux]; rfl
    have := mt (distinct_mem a x).1 h
    rw [distinct] at this; simpa using this

omit [DecidableEq τ] in
/-- C46: `reverse_t` turns the list around. -/
theorem C46_reverse (l : List τ) : reverse l = l.reverse := reverse_eq l

omit [DecidableEq τ] in
/-- C46: `filter_t` keeps exactly the types the filter accepts, in order and as often as they were there. -/
theorem C46_filter (f : τ → Bool) (l : List τ) : filter l f = l.filter f := filter_eq l f

omit [DecidableEq τ] in
/-- C46: `extend_t` appends the lists in order. -/
theorem C46_extend (l : List τ) (u : List (List τ)) : extend l u = l ++ u.flatten := extend_eq l u

/-- C46: `exclude_t` keeps exactly the types that are in none of the given lists. -/
theorem C46_exclude (l : List τ) (u : List (List τ)) : exclude l u = l.filter (fun x => ∀ a ∈ u, x ∉ a) := by
  induction u generalizing l with
  | nil => rw [exclude]; exact (List.filter_eq_self.2 (by simp)).symm
  | cons a u ih =>
    rw [exclude, ih, excludeOne_eq, List.filter_filter]
    congr 1; funext x
    simp [Bool.and_comm]

/-- All of them on one list. -/
example : remove [1, 2, 3, 2] 2 = [1, 3, 2] ∧ removeAll [1, 2, 3, 2] 2 = [1, 3] ∧ distinct [1, 2, 1, 3, 2] = [1, 2, 3] ∧
    exclude [1, 2, 3, 4, 1] [[1], [], [4, 5]] = [2, 3] := by decide

end Hoard.Props
