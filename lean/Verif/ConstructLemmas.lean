import Verif.Construct
/-! # Lemmas about the constructors of a cache -/
namespace Hoard.Construct
variable {τ α : Type} [DecidableEq τ] {W : Types τ α} {p : τ} {ps : List τ} {args : List (Arg τ α)}

/-- How many arguments are of a type. -/
theorem filter_len_cons (p : τ) (a : Arg τ α) (as : List (Arg τ α)) :
    ((a :: as).filter (fun a => p = a.ty)).length = (if p = a.ty then 1 else 0) + (as.filter (fun a => p = a.ty)).length := by
  rw [List.filter_cons]
  by_cases h : p = a.ty <;> simp [h, Nat.add_comm]

theorem filter_zero (h : (args.filter (fun a => p = a.ty)).length = 0) (a : Arg τ α) (ha : a ∈ args) : a.ty ≠ p := by
  intro e
  have : a ∈ args.filter (fun a => p = a.ty) := by simp [ha, e]
  rw [List.length_eq_zero_iff.1 h] at this
  cases this

theorem select_none_matching : ∀ (args : List (Arg τ α)) (_ : ∀ a ∈ args, a.ty ≠ p), select W p args = W.dflt p
  | [], _ => rfl
  | a :: as, h => by
    have h1 : ¬ p = a.ty := fun e => h a (List.mem_cons_self ..) e.symm
    have h2 : ((a :: as).filter (fun a => p = a.ty)).length = 0 := by
      rw [List.length_eq_zero_iff, List.filter_eq_nil_iff]
      intro b hb; simpa using fun e : p = b.ty => h b hb e.symm
    rw [select, if_neg (by omega), if_neg h1]
    exact select_none_matching as (fun b hb => h b (List.mem_cons_of_mem _ hb))

theorem select_one : ∀ (args : List (Arg τ α)) (_ : (args.filter (fun a => p = a.ty)).length ≤ 1) (a : Arg τ α) (_ : a ∈ args) (_ : a.ty = p),
    select W p args = some a.val
  | [], _, _, h, _ => by cases h
  | b :: as, h, a, ha, hp => by
    rw [select, if_neg (by omega)]
    rw [filter_len_cons] at h
    by_cases hb : p = b.ty
    · rw [if_pos hb]
      rcases List.mem_cons.1 ha with rfl | ha
      · rfl
      · rw [if_pos hb] at h
        exact absurd hp (filter_zero (by omega) a ha)
    · rw [if_neg hb]
      rcases List.mem_cons.1 ha with rfl | ha
      · exact absurd hp.symm hb
      · rw [if_neg hb] at h
        exact select_one as (by omega) a ha hp

theorem select_two (h : 1 < (args.filter (fun a => p = a.ty)).length) : select W p args = none := by
  cases args with
  | nil => simp at h
  | cons a as => rw [select, if_pos h]

/-- What a policy selects. -/
theorem select_cases : (1 < (args.filter (fun a => p = a.ty)).length ∧ select W p args = none) ∨
    (∃ a ∈ args, a.ty = p ∧ (args.filter (fun a => p = a.ty)).length = 1 ∧ select W p args = some a.val) ∨
    ((∀ a ∈ args, a.ty ≠ p) ∧ select W p args = W.dflt p) := by
  by_cases h : 1 < (args.filter (fun a => p = a.ty)).length
  · exact Or.inl ⟨h, select_two h⟩
  · right
    by_cases h0 : (args.filter (fun a => p = a.ty)).length = 0
    · exact Or.inr ⟨filter_zero h0, select_none_matching _ (filter_zero h0)⟩
    · left
      cases hf : args.filter (fun a => p = a.ty) with
      | nil => rw [hf] at h0; exact absurd rfl h0
      | cons a as =>
        have ha : a ∈ args.filter (fun a => p = a.ty) := by rw [hf]; exact List.mem_cons_self ..
        simp only [List.mem_filter, decide_eq_true_eq] at ha
        exact ⟨a, ha.1, ha.2.symm, by rw [← hf]; omega, select_one _ (by omega) a ha.1 ha.2.symm⟩

theorem select_perm {args' : List (Arg τ α)} (h : args.Perm args') : select W p args = select W p args' := by
  have hl : (args.filter (fun a => p = a.ty)).length = (args'.filter (fun a => p = a.ty)).length := (h.filter _).length_eq
  rcases select_cases (W := W) (p := p) (args := args) with ⟨h1, h2⟩ | ⟨a, ha, hp, h1, h2⟩ | ⟨h1, h2⟩
  · rw [h2, select_two (by omega)]
  · rw [h2, select_one args' (by omega) a (h.mem_iff.1 ha) hp]
  · rw [h2, select_none_matching args' (fun a ha => h1 a (h.mem_iff.2 ha))]

theorem select_ignores {a : Arg τ α} (ha : a.ty ≠ p) (l r : List (Arg τ α)) : select W p (l ++ a :: r) = select W p (l ++ r) := by
  have hl : ((l ++ a :: r).filter (fun a => p = a.ty)).length = ((l ++ r).filter (fun a => p = a.ty)).length := by
    have : ¬ p = a.ty := fun e => ha e.symm
    simp [List.filter_append, this]
  rcases select_cases (W := W) (p := p) (args := l ++ r) with ⟨h1, h2⟩ | ⟨b, hb, hp, h1, h2⟩ | ⟨h1, h2⟩
  · rw [h2, select_two (by omega)]
  · rw [h2, select_one _ (by omega) b (by simp only [List.mem_append, List.mem_cons] at hb ⊢; exact hb.imp_right Or.inr) hp]
  · rw [h2, select_none_matching]
    intro b hb
    simp only [List.mem_append, List.mem_cons] at hb
    rcases hb with hb | rfl | hb
    · exact h1 b (List.mem_append_left _ hb)
    · exact ha
    · exact h1 b (List.mem_append_right _ hb)

theorem container_congr {args' : List (Arg τ α)} : ∀ (ps : List τ) (_ : ∀ p ∈ ps, select W p args = select W p args'), container W ps args = container W ps args'
  | [], _ => rfl
  | p :: ps, h => by
    rw [container, container, h p (List.mem_cons_self ..), container_congr ps (fun q hq => h q (List.mem_cons_of_mem _ hq))]

theorem container_some : ∀ (ps : List τ), (container W ps args).isSome ↔ ∀ p ∈ ps, (select W p args).isSome
  | [] => by simp [container]
  | p :: ps => by
    have ih := container_some ps
    rw [container]
    cases h1 : select W p args with
    | none => simp [h1]
    | some v =>
      cases h2 : container W ps args with
      | none => rw [h2] at ih; simpa [h1] using ih
      | some r => rw [h2] at ih; simpa [h1] using ih

theorem container_mem : ∀ (ps : List τ) (r : List (τ × α)) (_ : container W ps args = some r) (p : τ) (v : α) (_ : (p, v) ∈ r), p ∈ ps ∧ select W p args = some v
  | [], r, h, p, v, hv => by cases h; cases hv
  | q :: ps, r, h, p, v, hv => by
    rw [container] at h
    cases h1 : select W q args with
    | none => simp [h1] at h
    | some u =>
      cases h2 : container W ps args with
      | none => simp [h1, h2] at h
      | some r' =>
        simp only [h1, h2, Option.some.injEq] at h
        subst h
        rcases List.mem_cons.1 hv with h | h
        · cases h; exact ⟨List.mem_cons_self .., h1⟩
        · have := container_mem ps r' h2 p v h
          exact ⟨List.mem_cons_of_mem _ this.1, this.2⟩

theorem container_names : ∀ (ps : List τ) (r : List (τ × α)) (_ : container W ps args = some r), r.map (·.1) = ps
  | [], r, h => by cases h; rfl
  | q :: ps, r, h => by
    rw [container] at h
    cases h1 : select W q args with
    | none => simp [h1] at h
    | some u =>
      cases h2 : container W ps args with
      | none => simp [h1, h2] at h
      | some r' =>
        simp only [h1, h2, Option.some.injEq] at h
        subst h
        rw [List.map_cons, container_names ps r' h2]

end Hoard.Construct
