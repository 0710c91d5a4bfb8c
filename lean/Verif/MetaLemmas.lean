import Verif.Spec.Policies
/-! Lemmas: the type-list operations are the usual list operations. -/
namespace Hoard.Meta
variable {τ : Type} [DecidableEq τ]

theorem removeAllAux_eq (r : τ) (done l : List τ) : removeAllAux r done l = done ++ l.filter (fun x => x ≠ r) := by
  induction l generalizing done with
  | nil => simp [removeAllAux]
  | cons t ts ih =>
    rw [removeAllAux, ih]
    by_cases h : r = t
    · subst h; simp
    · have : ¬ t = r := fun e => h e.symm
      simp [h, this]

theorem removeAll_eq (l : List τ) (r : τ) : removeAll l r = l.filter (fun x => x ≠ r) := by simp [removeAll, removeAllAux_eq]

theorem removeAux_eq (r : τ) (done l : List τ) : removeAux r done l = done ++ l.erase r := by
  induction l generalizing done with
  | nil => simp [removeAux]
  | cons t ts ih =>
    rw [removeAux]
    by_cases h : r = t
    · subst h; simp
    · have : ¬ t = r := fun e => h e.symm
      rw [if_neg h, ih, List.erase_cons_tail (by simpa using this)]; simp

theorem remove_eq (l : List τ) (r : τ) : remove l r = l.erase r := by simp [remove, removeAux_eq]

omit [DecidableEq τ] in
theorem extend_eq (l : List τ) (u : List (List τ)) : extend l u = l ++ u.flatten := by
  induction u generalizing l with
  | nil => simp [extend]
  | cons a u ih => rw [extend, ih]; simp

omit [DecidableEq τ] in
theorem reverseAux_eq (done l : List τ) : reverseAux done l = l.reverse ++ done := by
  induction l generalizing done with
  | nil => simp [reverseAux]
  | cons t ts ih => rw [reverseAux, ih]; simp

omit [DecidableEq τ] in
theorem reverse_eq (l : List τ) : reverse l = l.reverse := by simp [reverse, reverseAux_eq]

omit [DecidableEq τ] in
theorem filterAux_eq (f : τ → Bool) (done l : List τ) : filterAux f done l = done ++ l.filter f := by
  induction l generalizing done with
  | nil => simp [filterAux]
  | cons t ts ih =>
    rw [filterAux]
    cases h : f t <;> simp [ih, h]

omit [DecidableEq τ] in
theorem filter_eq (l : List τ) (f : τ → Bool) : filter l f = l.filter f := by simp [filter, filterAux_eq]

theorem excludeOne_eq (l u : List τ) : excludeOne l u = l.filter (fun x => x ∉ u) := by
  induction u generalizing l with
  | nil => simp only [excludeOne, List.not_mem_nil, not_false_eq_true, decide_true]; exact (List.filter_eq_self.2 (by simp)).symm
  | cons t ts ih =>
    rw [excludeOne, ih, removeAll_eq, List.filter_filter]
    congr 1; funext x
    simp only [List.mem_cons, not_or, Bool.decide_and, Bool.and_comm, decide_not]

theorem hasType_iff (l : List τ) (t : τ) : hasType l t = true ↔ t ∈ l := by simp [hasType]

theorem distinctAux_mem (done l : List τ) (x : τ) : x ∈ distinctAux done l ↔ x ∈ done ∨ x ∈ l := by
  induction l generalizing done with
  | nil => simp [distinctAux]
  | cons t ts ih =>
    rw [distinctAux]
    split
    · rename_i h
      have h : t ∈ done := by simpa using h
      rw [ih]; simp only [List.mem_cons]
      constructor
      · rintro (h' | h') <;> simp [h']
      · rintro (h' | rfl | h')
        · exact Or.inl h'
        · exact Or.inl h
        · exact Or.inr h'
    · rw [ih]; simp [or_assoc]

theorem distinct_mem (l : List τ) (x : τ) : x ∈ distinct l ↔ x ∈ l := by simp [distinct, distinctAux_mem]

theorem distinctAux_nodup (done l : List τ) (h : done.Nodup) : (distinctAux done l).Nodup := by
  induction l generalizing done with
  | nil => simpa [distinctAux]
  | cons t ts ih =>
    rw [distinctAux]
    split
    · exact ih _ h
    · rename_i h'
      have h' : t ∉ done := by simpa using h'
      refine ih _ ?_
      rw [List.nodup_append]
      refine ⟨h, by simp, ?_⟩
      intro a ha b hb e
      simp at hb; subst hb; subst e; exact h' ha

theorem distinct_nodup (l : List τ) : (distinct l).Nodup := distinctAux_nodup _ _ List.nodup_nil

/-- Every element comes after what `f` lists for it, as far as `keep` holds. -/
def Ordered (f : τ → List τ) (keep : τ → Prop) (l : List τ) : Prop :=
  ∀ l1 x l2, l = l1 ++ x :: l2 → ∀ d ∈ f x, keep d → d ∈ l1

omit [DecidableEq τ] in
theorem Ordered.nil {f : τ → List τ} {keep : τ → Prop} : Ordered f keep [] := by
  intro l1 x l2 h; simp at h

omit [DecidableEq τ] in
theorem Ordered.append {f : τ → List τ} {keep : τ → Prop} {a b : List τ} (ha : Ordered f keep a)
    (hb : ∀ l1 x l2, b = l1 ++ x :: l2 → ∀ d ∈ f x, keep d → d ∈ a ++ l1) : Ordered f keep (a ++ b) := by
  intro l1 x l2 h d hd hk
  rcases List.append_eq_append_iff.1 h with ⟨c, h1, h2⟩ | ⟨c, h1, h2⟩
  · subst h1
    have := hb c x l2 h2 d hd hk
    simpa using this
  · cases c with
    | nil =>
      simp at h1 h2; subst h1
      have := hb [] x l2 h2.symm d hd hk
      simpa using this
    | cons y c =>
      simp at h2
      obtain ⟨rfl, _⟩ := h2
      exact ha l1 x c h1 d hd hk

omit [DecidableEq τ] in
theorem Ordered.append' {f : τ → List τ} {keep : τ → Prop} {a b : List τ} (ha : Ordered f keep a)
    (hb : Ordered f keep b) : Ordered f keep (a ++ b) :=
  ha.append fun l1 x l2 h d hd hk => List.mem_append_right _ (hb l1 x l2 h d hd hk)

omit [DecidableEq τ] in
theorem Ordered.flatten {f : τ → List τ} {keep : τ → Prop} {ls : List (List τ)} (h : ∀ l ∈ ls, Ordered f keep l) :
    Ordered f keep ls.flatten := by
  induction ls with
  | nil => exact Ordered.nil
  | cons l ls ih =>
    rw [List.flatten_cons]
    exact (h l (by simp)).append' (ih fun l hl => h l (by simp [hl]))

omit [DecidableEq τ] in
theorem Ordered.filter {f : τ → List τ} {keep : τ → Prop} {l : List τ} (g : τ → Bool) (h : Ordered f keep l) :
    Ordered f (fun d => keep d ∧ g d = true) (l.filter g) := by
  intro l1 x l2 e d hd hk
  rw [List.filter_eq_append_iff] at e
  obtain ⟨a, b, rfl, rfl, e⟩ := e
  rw [List.filter_eq_cons_iff] at e
  obtain ⟨c, b', rfl, hc, _, _⟩ := e
  have := h (a ++ c) x b' (by simp) d hd hk.1
  rw [List.mem_append] at this
  rcases this with h' | h'
  · exact List.mem_filter.2 ⟨h', hk.2⟩
  · exact absurd hk.2 (hc d h')

theorem Ordered.distinctAux {f : τ → List τ} {keep : τ → Prop} (done pre l : List τ)
    (hm : ∀ x, x ∈ done ↔ x ∈ pre) (h : Ordered f keep (pre ++ l)) (hd : Ordered f keep done) :
    Ordered f keep (distinctAux done l) := by
  induction l generalizing done pre with
  | nil => simpa [Meta.distinctAux]
  | cons t ts ih =>
    rw [Meta.distinctAux]
    split
    · rename_i h'
      have h' : t ∈ done := by simpa using h'
      refine ih done (pre ++ [t]) ?_ (by simpa using h) hd
      intro x; rw [hm]; simp
      rintro rfl; exact (hm _).1 h'
    · refine ih (done ++ [t]) (pre ++ [t]) ?_ (by simpa using h) ?_
      · intro x; simp [hm]
      · refine hd.append ?_
        intro l1 x l2 e d hd' hk
        cases l1 with
        | nil =>
          simp at e; obtain ⟨rfl, rfl⟩ := e
          have := h pre t ts rfl d hd' hk
          simpa using (hm d).2 this
        | cons y l1 => simp at e

theorem Ordered.distinct {f : τ → List τ} {keep : τ → Prop} {l : List τ} (h : Ordered f keep l) : Ordered f keep (distinct l) :=
  Ordered.distinctAux [] [] l (by simp) h Ordered.nil

variable {W : World τ}

omit [DecidableEq τ] in
theorem dependent_eq (p : τ) : dependent W p = ((W.deps p).map (dependent W)).flatten ++ W.deps p := by
  rw [dependent, extend_eq, extend_eq]
  simp

omit [DecidableEq τ] in
theorem mem_dependent (p d : τ) : d ∈ dependent W p ↔ Needs W p d := by
  constructor
  · intro h
    induction hn : W.rank p using Nat.strongRecOn generalizing p with
    | _ n ih =>
      rw [dependent_eq, List.mem_append] at h
      rcases h with h | h
      · rw [List.mem_flatten] at h
        obtain ⟨l, hl, hd⟩ := h
        rw [List.mem_map] at hl
        obtain ⟨q, hq, rfl⟩ := hl
        exact .through hq (ih (W.rank q) (hn ▸ W.acyclic p q hq) q hd rfl)
      · exact .lists h
  · intro h
    induction h with
    | lists h => rw [dependent_eq]; exact List.mem_append_right _ h
    | through h _ ih =>
      rw [dependent_eq]
      refine List.mem_append_left _ (List.mem_flatten.2 ⟨_, List.mem_map.2 ⟨_, h, rfl⟩, ih⟩)

omit [DecidableEq τ] in
theorem dependent_ordered (p : τ) : Ordered W.deps (fun _ => True) (dependent W p) := by
  induction hn : W.rank p using Nat.strongRecOn generalizing p with
  | _ n ih =>
    rw [dependent_eq]
    refine Ordered.append (Ordered.flatten ?_) ?_
    · intro l hl
      rw [List.mem_map] at hl
      obtain ⟨q, hq, rfl⟩ := hl
      exact ih (W.rank q) (hn ▸ W.acyclic p q hq) q rfl
    · intro l1 x l2 e d hd _
      refine List.mem_append_left _ (List.mem_flatten.2 ⟨_, List.mem_map.2 ⟨x, by rw [e]; simp, rfl⟩, ?_⟩)
      exact (mem_dependent x d).2 (.lists hd)

theorem policyDependencies_eq (user : List τ) :
    policyDependencies W user = distinct ((user.map (dependent W)).flatten.filter (fun x => x ∉ user)) := by
  simp [policyDependencies, exclude, excludeOne_eq, extend_eq]

theorem mem_policyDependencies (user : List τ) (d : τ) :
    d ∈ policyDependencies W user ↔ d ∉ user ∧ ∃ p ∈ user, Needs W p d := by
  rw [policyDependencies_eq, distinct_mem]
  simp only [List.mem_filter, List.mem_flatten, List.mem_map, decide_eq_true_eq]
  constructor
  · rintro ⟨⟨_, ⟨p, hp, rfl⟩, hd⟩, h⟩
    exact ⟨h, p, hp, (mem_dependent p d).1 hd⟩
  · rintro ⟨h, p, hp, hd⟩
    exact ⟨⟨_, ⟨p, hp, rfl⟩, (mem_dependent p d).2 hd⟩, h⟩

theorem policyDependencies_nodup (user : List τ) : (policyDependencies W user).Nodup := by
  rw [policyDependencies_eq]; exact distinct_nodup _

theorem policyDependencies_ordered (user : List τ) : Ordered W.deps (fun d => d ∉ user) (policyDependencies W user) := by
  rw [policyDependencies_eq]
  refine Ordered.distinct ?_
  have : Ordered W.deps (fun _ => True) (user.map (dependent W)).flatten := by
    refine Ordered.flatten ?_
    intro l hl
    rw [List.mem_map] at hl
    obtain ⟨q, _, rfl⟩ := hl
    exact dependent_ordered q
  have := this.filter (fun x => decide (x ∉ user))
  intro l1 x l2 e d hd hk
  exact this l1 x l2 e d hd ⟨trivial, by simpa using hk⟩

/-- The added defaults, in front. -/
def extras (W : World τ) (user : List τ) : List τ :=
  extraMutex W user ++ extraAlloc W user ++ extraEqual W user ++ extraHash W user ++ extraError W user

theorem allPolicies_eq (user : List τ) : allPolicies W user = extras W user ++ policyDependencies W user ++ user := by
  simp [allPolicies, extend_eq, extras]

theorem mem_or_required (user : List τ) (x : τ) : x ∈ policyDependencies W user ∨ x ∈ user ↔ Required W user x := by
  rw [mem_policyDependencies, Required]
  by_cases h : x ∈ user <;> simp [h]

theorem hasLock_iff (user : List τ) : hasLock W user = true ↔ Required W user W.ts ∨ Required W user W.tu := by
  rw [← mem_or_required, ← mem_or_required]
  simp only [hasLock, Bool.or_eq_true, hasType_iff]
  constructor
  · rintro (((h | h) | h) | h) <;> simp [h]
  · rintro ((h | h) | (h | h)) <;> simp [h]

theorem extras_default (user : List τ) (x : τ) (h : x ∈ extras W user) : Default W x := by
  simp only [extras, List.mem_append, extraMutex, extraAlloc, extraEqual, extraHash, extraError] at h
  rcases h with (((h | h) | h) | h) | h <;> split at h <;> simp at h <;> subst h <;> simp [Default]

end Hoard.Meta
