import Verif.ConstructLemmas
/-!
# C70: what the arguments of a constructor do
-/
namespace Hoard.Props
open Hoard Hoard.Construct
variable {τ α : Type} [DecidableEq τ] {W : Types τ α} {ps : List τ} {args : List (Arg τ α)}

/-- Arguments that are neither a load factor nor come with an allocator. -/
def OnlyPolicies (W : Types τ α) (args : List (Arg τ α)) : Prop := ∀ a ∈ args, a.ty ≠ W.float ∧ a.ty ≠ W.allocArg

theorem table_plain (h : OnlyPolicies W args) : table W ps args = (container W ps args).map (⟨none, none, ·⟩) := by
  match args, h with
  | [], _ => rfl
  | [a], h => simp only [table, withAlloc]; rw [if_neg (h a (by simp)).1]
  | a :: b :: r, h =>
    have ha := h a (by simp)
    simp only [table, withAlloc]
    rw [if_neg (fun e => ha.2 e.1), if_neg ha.1]

/-! ## C70 -/

/-- C70: the policies of the cache, in their order, are each configured by the one
argument of its type, wherever it stands, and made without argument if there is
none.  All lists of policies, all arguments. -/
theorem C70_argument_reaches_its_policy_partial (h : OnlyPolicies W args) (t : Table τ α) (ht : table W ps args = some t) :
    t.policies.map (·.1) = ps ∧
    ∀ p v, (p, v) ∈ t.policies → (⟨p, v⟩ ∈ args ∧ ∀ a ∈ args, a.ty = p → a = ⟨p, v⟩) ∨ ((∀ a ∈ args, a.ty ≠ p) ∧ W.dflt p = some v) := by
  rw [table_plain h] at ht
  cases hc : container W ps args with
  | none => simp [hc] at ht
  | some r =>
    simp only [hc, Option.map_some, Option.some.injEq] at ht
    subst ht
    refine ⟨container_names ps r hc, fun p v hv => ?_⟩
    have hs := (container_mem ps r hc p v hv).2
    rcases select_cases (W := W) (p := p) (args := args) with ⟨_, h2⟩ | ⟨a, ha, hp, h1, h2⟩ | ⟨h1, h2⟩
    · rw [h2] at hs; cases hs
    · left
      rw [h2] at hs
      obtain ⟨ty, val⟩ := a
      simp only at hp; subst hp
      cases hs
      refine ⟨ha, fun b hb e => ?_⟩
      have hb' : b ∈ args.filter (fun a => ty = a.ty) := by simp [hb, e]
      have ha' : (⟨ty, val⟩ : Arg τ α) ∈ args.filter (fun a => ty = a.ty) := by simp [ha]
      obtain ⟨c, hc'⟩ := List.length_eq_one_iff.1 h1
      rw [hc', List.mem_singleton] at hb' ha'
      rw [hb', ha']
    · exact Or.inr ⟨h1, h2 ▸ hs⟩

/-- C70: the order of the arguments does not matter. -/
theorem C70_order_is_irrelevant {args' : List (Arg τ α)} (h : OnlyPolicies W args) (hp : args.Perm args') : table W ps args = table W ps args' := by
  have h' : OnlyPolicies W args' := fun a ha => h a (hp.mem_iff.2 ha)
  rw [table_plain h, table_plain h', container_congr ps (fun p _ => select_perm hp)]

/-- C70: it compiles exactly if no policy is given two arguments, and every policy
that cannot be made without an argument is given one. -/
theorem C70_compiles_iff (h : OnlyPolicies W args) :
    (table W ps args).isSome ↔ ∀ p ∈ ps, (args.map (·.ty)).count p ≤ 1 ∧ (p ∈ args.map (·.ty) ∨ (W.dflt p).isSome) := by
  have hcount : ∀ p, (args.map (·.ty)).count p = (args.filter (fun a => p = a.ty)).length := by
    intro p
    rw [List.count, List.countP_map, List.countP_eq_length_filter]
    congr 1
    apply List.filter_congr
    intro a _
    by_cases e : a.ty = p
    · simp [e]
    · have e' : ¬ p = a.ty := fun h => e h.symm
      rw [decide_eq_false e']
      exact beq_eq_false_iff_ne.2 e
  rw [table_plain h, Option.isSome_map, container_some]
  refine forall_congr' fun p => forall_congr' fun hp => ?_
  rw [hcount]
  rcases select_cases (W := W) (p := p) (args := args) with ⟨h1, h2⟩ | ⟨a, ha, hp, h1, h2⟩ | ⟨h1, h2⟩
  · rw [h2]; simp; omega
  · rw [h2, h1]
    simp only [Option.isSome_some, Nat.le_refl, true_and, true_iff]
    exact Or.inl (List.mem_map.2 ⟨a, ha, hp⟩)
  · rw [h2]
    have h0 : args.filter (fun a => p = a.ty) = [] := by
      rw [List.filter_eq_nil_iff]; intro b hb; simpa using fun e : p = b.ty => h1 b hb e.symm
    rw [h0]
    have : p ∉ args.map (·.ty) := by
      intro hm; obtain ⟨a, ha, e⟩ := List.mem_map.1 hm; exact h1 a ha e
    simp [this]

/-- C70 is false for arguments that belong to no policy of the cache: they are not
rejected but ignored.  For instance a size limit given to a cache without
`max_size_policy`. -/
theorem C70_unknown_argument_is_ignored (l r : List (Arg τ α)) (a : Arg τ α) (h : OnlyPolicies W (l ++ a :: r)) (ha : a.ty ∉ ps) :
    table W ps (l ++ a :: r) = table W ps (l ++ r) := by
  have h' : OnlyPolicies W (l ++ r) := fun b hb => h b (by
    simp only [List.mem_append, List.mem_cons] at hb ⊢; exact hb.imp_right Or.inr)
  rw [table_plain h, table_plain h', container_congr ps (fun p hp => select_ignores (fun e => ha (e ▸ hp)) l r)]

/-- C70: a load factor is heeded if it is a `float` and the first argument.  The
other arguments do what they do without it. -/
theorem C70_load_factor (hne : W.float ≠ W.allocArg) (h : OnlyPolicies W args) (x : α) :
    table W ps (⟨W.float, x⟩ :: args) = (table W ps args).map (fun t => { t with load := some x }) := by
  rw [table_plain h]
  have : table W ps (⟨W.float, x⟩ :: args) = (container W ps args).map (⟨none, some x, ·⟩) := by
    cases args with
    | nil => simp [table, withAlloc]
    | cons b r => simp [table, withAlloc, hne]
  rw [this]
  cases container W ps args <;> rfl

/-- C70 is false for a load factor of another type (say `double`), or one that comes
after a policy: it is ignored. -/
theorem C70_load_factor_ignored (l r : List (Arg τ α)) (a : Arg τ α) (hl : OnlyPolicies W l) (hr : OnlyPolicies W r)
    (ha : a.ty ∉ ps) (hd : (a.ty ≠ W.float ∧ a.ty ≠ W.allocArg) ∨ (a.ty = W.float ∧ l ≠ [])) :
    table W ps (l ++ a :: r) = table W ps (l ++ r) := by
  rcases hd with hd | ⟨_, hd⟩
  · apply C70_unknown_argument_is_ignored _ _ _ _ ha
    intro b hb
    simp only [List.mem_append, List.mem_cons] at hb
    rcases hb with hb | rfl | hb
    · exact hl b hb
    · exact hd
    · exact hr b hb
  · cases l with
    | nil => exact absurd rfl hd
    | cons c l =>
      have hc := hl c (List.mem_cons_self ..)
      have hlr : OnlyPolicies W (c :: l ++ r) := fun b hb => (List.mem_append.1 hb).elim (hl b) (hr b)
      rw [table_plain hlr]
      have : table W ps (c :: l ++ a :: r) = (container W ps (c :: l ++ a :: r)).map (⟨none, none, ·⟩) := by
        have h2 : ∀ b (s : List (Arg τ α)), table W ps (c :: b :: s) = (container W ps (c :: b :: s)).map (⟨none, none, ·⟩) := by
          intro b s
          simp only [table, withAlloc]
          rw [if_neg (fun e => hc.2 e.1), if_neg hc.1]
        cases l with
        | nil => exact h2 a r
        | cons b l => exact h2 b (l ++ a :: r)
      rw [this, container_congr ps (fun p hp => select_ignores (fun e => ha (e ▸ hp)) (c :: l) r)]

/-- C70: an allocator after `std::allocator_arg` is used if it has the type the
cache uses for its entries. -/
theorem C70_allocator (h : OnlyPolicies W args) (x y : α) :
    table W ps (⟨W.allocArg, x⟩ :: ⟨W.alloc, y⟩ :: args) = (table W ps args).map (fun t => { t with alloc := some y }) := by
  rw [table_plain h]
  have : table W ps (⟨W.allocArg, x⟩ :: ⟨W.alloc, y⟩ :: args) = (container W ps args).map (⟨some y, none, ·⟩) := by
    simp only [table, and_self, if_true]
    cases args with
    | nil => rfl
    | cons b r => simp only [withAlloc]; rw [if_neg (h b (List.mem_cons_self ..)).1]
  rw [this]
  cases container W ps args <;> rfl

/-- C70: an allocator and a load factor, in this order, are both heeded. -/
theorem C70_allocator_and_load_factor (h : OnlyPolicies W args) (x y z : α) :
    table W ps (⟨W.allocArg, x⟩ :: ⟨W.alloc, y⟩ :: ⟨W.float, z⟩ :: args) =
      (table W ps args).map (fun t => { t with alloc := some y, load := some z }) := by
  rw [table_plain h]
  simp only [table, and_self, if_true, withAlloc]
  cases container W ps args <;> rfl

/-- C70 is false for an allocator of any other type, for instance one for keys or
for values: it is ignored, and the entries come from a default allocator. -/
theorem C70_allocator_ignored (h : OnlyPolicies W args) (hf : W.allocArg ≠ W.float) (x : α) (a : Arg τ α) (ha : a.ty ≠ W.alloc)
    (h1 : W.allocArg ∉ ps) (h2 : a.ty ∉ ps) :
    table W ps (⟨W.allocArg, x⟩ :: a :: args) = table W ps args := by
  rw [table_plain h]
  have : table W ps (⟨W.allocArg, x⟩ :: a :: args) = (container W ps (⟨W.allocArg, x⟩ :: a :: args)).map (⟨none, none, ·⟩) := by
    simp only [table, withAlloc]
    rw [if_neg (fun e => ha e.2), if_neg hf]
  have hs : ∀ p ∈ ps, select W p (⟨W.allocArg, x⟩ :: a :: args) = select W p args := by
    intro p hp
    have e1 : W.allocArg ≠ p := fun e => h1 (e ▸ hp)
    exact (select_ignores (a := ⟨W.allocArg, x⟩) e1 [] (a :: args)).trans (select_ignores (fun e => h2 (e ▸ hp)) [] args)
  rw [this, container_congr ps hs]

/-- The types of the examples. -/
inductive Ty where
  | allocArg | entryAlloc | intAlloc | float | double | cache | equal | maxSize | maxAge
deriving DecidableEq

/-- `equal` can be made without an argument, the limits cannot. -/
def types : Types Ty Nat where
  allocArg := .allocArg
  alloc := .entryAlloc
  float := .float
  cache := .cache
  dflt := fun t => if t = .equal then some 0 else none

/-- Two limits given in the wrong order, and a load factor of type `double`. -/
example : OnlyPolicies types [⟨.double, 3⟩, ⟨.maxAge, 60⟩, ⟨.maxSize, 5⟩] ∧
    table types [.equal, .maxSize, .maxAge] [⟨.double, 3⟩, ⟨.maxAge, 60⟩, ⟨.maxSize, 5⟩] = some ⟨none, none, [(.equal, 0), (.maxSize, 5), (.maxAge, 60)]⟩ :=
  ⟨by simp [OnlyPolicies, types], by decide⟩

end Hoard.Props
