import Verif.MetaLemmas
import Verif.Props.Resolver
/-!
# C19, C39, C40, C45: which policies a cache gets, and what becomes of cached errors
-/
namespace Hoard.Props
open Hoard Hoard.Meta Hoard.Spec
variable {τ : Type} [DecidableEq τ] {W : World τ}

theorem count_one {l : List τ} {a : τ} (h : l.Nodup) (ha : a ∈ l) : l.count a = 1 := by
  induction l with
  | nil => simp at ha
  | cons b l ih =>
    rw [List.nodup_cons] at h
    rw [List.count_cons]
    by_cases e : b = a
    · subst e; rw [List.count_eq_zero.2 h.1]; simp
    · rw [ih h.2 ((List.mem_cons.1 ha).resolve_left (fun h => e h.symm))]; simp [e]

/-! ## C39 -/

/-- C39: the policies the user names are all there, in the order they were named, at the end
of the effective list. -/
theorem C39_named_policies_kept (user : List τ) : ∃ added, allPolicies W user = added ++ user :=
  ⟨_, allPolicies_eq user⟩

/-- C39: whatever a named policy needs, directly or through others, is there. -/
theorem C39_needed_policies_present (user : List τ) (p d : τ) (hp : p ∈ user) (h : Needs W p d) : d ∈ allPolicies W user := by
  rw [allPolicies_eq, List.append_assoc]
  refine List.mem_append_right _ (List.mem_append.2 ?_)
  exact (mem_or_required user d).2 (Or.inr ⟨p, hp, h⟩)

/-- C39: nothing else is added, apart from the lock policy and the default equality, hash,
allocator and error policies. -/
theorem C39_nothing_else (user : List τ) (x : τ) (h : x ∈ allPolicies W user) : Required W user x ∨ Default W x := by
  rw [allPolicies_eq, List.append_assoc, List.mem_append, List.mem_append, mem_or_required] at h
  exact h.symm.imp_right (extras_default user x)

theorem extras_count (hW : W.Ok) (user : List τ) (d : τ) (hd : Required W user d)
    (h1 : d ≠ W.dflEqual) (h2 : d ≠ W.dflHash) (h3 : d ≠ W.dflAlloc) : (extras W user).count d = 0 := by
  rw [List.count_eq_zero]
  intro h
  simp only [extras, List.mem_append, extraMutex, extraAlloc, extraEqual, extraHash, extraError] at h
  rcases h with (((h | h) | h) | h) | h <;> split at h <;> simp at h
  · subst h
    rename_i hl
    exact hl ((hasLock_iff user).2 (Or.inl hd))
  · exact h3 h
  · exact h1 h
  · exact h2 h
  · subst h
    rename_i hl
    refine hl ?_
    rw [List.any_eq_true]
    refine ⟨true, ?_, rfl⟩
    rw [transform, List.mem_map]
    refine ⟨_, ?_, hW.error⟩
    rw [extend_eq]
    simp only [List.flatten_cons, List.flatten_nil, List.append_nil, List.mem_append]
    exact ((mem_or_required user _).2 hd).symm

/-- C39: something a named policy needs is there exactly once, or exactly as often as the user
named it.  For policies of the user's own: provided that it is not the default equality, hash or
allocator policy. -/
theorem C39_needed_policies_not_twice (hW : W.Ok) (user : List τ) (p d : τ) (hp : p ∈ user) (h : Needs W p d)
    (h1 : d ≠ W.dflEqual) (h2 : d ≠ W.dflHash) (h3 : d ≠ W.dflAlloc) :
    (allPolicies W user).count d = max 1 (user.count d) := by
  rw [allPolicies_eq, List.count_append, List.count_append, extras_count hW user d (Or.inr ⟨p, hp, h⟩) h1 h2 h3]
  by_cases hu : d ∈ user
  · have : (policyDependencies W user).count d = 0 := by
      rw [List.count_eq_zero, mem_policyDependencies]; simp [hu]
    have := List.count_pos_iff.2 hu
    omega
  · have hc : (policyDependencies W user).count d = 1 :=
      count_one (policyDependencies_nodup user) ((mem_policyDependencies user d).2 ⟨hu, p, hp, h⟩)
    rw [List.count_eq_zero.2 hu, hc]; rfl

theorem lib_ok : lib.Ok := by
  refine ⟨by decide, rfl, rfl, rfl, rfl, ⟨rfl, rfl, rfl, rfl⟩, ⟨rfl, rfl, rfl, rfl⟩, ?_⟩
  intro p hp
  simp [lib] at hp
  rcases hp with rfl | rfl | rfl | rfl | rfl <;> rfl

/-- What the policies of the library need. -/
theorem lib_needs {p d : Pol} (h : Needs lib p d) : d ∈ libDeps p := by
  have h0 : ∀ p d x : Pol, d ∈ libDeps p → x ∉ libDeps d := by
    intro p d x h hx
    have h1 := lib_acyclic _ _ h
    have h2 := lib_acyclic _ _ hx
    have : libRank p ≤ 1 := by cases p <;> simp [libRank]
    omega
  cases h with
  | lists h => exact h
  | through h r =>
    exfalso
    cases r with
    | lists h' => exact h0 _ _ _ h h'
    | through h' _ => exact h0 _ _ _ h h'

theorem lib_needs_plain {p d : Pol} (h : Needs lib p d) :
    (∀ n, d ≠ .equal n) ∧ (∀ n, d ≠ .hash n) ∧ (∀ n, d ≠ .allocator n) ∧ (∀ n, d ≠ .error n) ∧ d ≠ .threadUnsafe ∧
      (d = .threadSafe → ∃ c, p = .refresh c) := by
  have h := lib_needs h
  cases p <;> simp only [libDeps, extend, clockDeps, List.append_nil, List.not_mem_nil] at h <;> (try split at h) <;> simp at h <;>
    grind

/-- C39 for the policies of the library: each policy needed is there exactly once, or exactly
as often as the user named it. -/
theorem C39_library_not_twice (user : List Pol) (p d : Pol) (hp : p ∈ user) (h : Needs lib p d) :
    (allPolicies lib user).count d = max 1 (user.count d) :=
  have g := lib_needs_plain h
  C39_needed_policies_not_twice lib_ok user p d hp h (g.1 0) (g.2.1 0) (g.2.2.1 0)

/-- C39, age limits: a policy that limits ages by a clock gives each entry a deadline on that clock, and a
deadline on a clock that is never set back. -/
theorem C39_age_limits_have_a_steady_deadline (user : List Pol) (c : Clock) (h : Pol.maxAge c ∈ user ∨ Pol.errMaxAge c ∈ user) :
    Pol.expireAt c ∈ allPolicies lib user ∧ ∃ c' : Clock, c'.isSteady = true ∧ Pol.expireAt c' ∈ allPolicies lib user := by
  have key : ∀ p ∈ user, (∀ d ∈ clockDeps c, d ∈ libDeps p) → ∀ d ∈ clockDeps c, d ∈ allPolicies lib user := fun p hp hd d hdc =>
    C39_needed_policies_present user p d hp (.lists (hd d hdc))
  have all : ∀ d ∈ clockDeps c, d ∈ allPolicies lib user := by
    rcases h with h | h
    · exact key _ h (fun d hd => by simp only [libDeps, extend, List.append_nil]; simpa using hd)
    · exact key _ h (fun d hd => by simp only [libDeps, extend]; simp [hd])
  cases hs : c.isSteady
  · exact ⟨all _ (by simp [clockDeps, hs]), .steady, rfl, all _ (by simp [clockDeps, hs])⟩
  · exact ⟨all _ (by simp [clockDeps, hs]), c, hs, all _ (by simp [clockDeps, hs])⟩

example : Pol.maxAge .system ∈ [Pol.maxSize, Pol.maxAge .system] ∧ Clock.system.isSteady = false := by decide

theorem count_le_one {W : World τ} (hW : W.Ok) (hdis : W.isEqual W.dflHash = false ∧ W.isEqual W.dflAlloc = false ∧ W.isEqual W.dflError = false ∧
      W.isHash W.dflAlloc = false ∧ W.isHash W.dflError = false ∧ W.isAlloc W.dflError = false ∧
      W.isError W.dflEqual = false ∧ W.isError W.dflHash = false ∧ W.isError W.dflAlloc = false)
    (user : List τ) : (extras W user).Nodup := by
  obtain ⟨a1, a2, a3, a4, a5, a6, a7, a8, a9⟩ := hdis
  have e1 := hW.equal; have e2 := hW.hash; have e3 := hW.alloc; have e4 := hW.error
  obtain ⟨t1, t2, t3, t4⟩ := hW.ts_plain
  have hne : ∀ (f : τ → Bool) (a b : τ), f a = true → f b = false → a ≠ b := by
    intro f a b ha hb e; subst e; rw [ha] at hb; cases hb
  have n1 : W.dflEqual ≠ W.dflHash := hne W.isEqual _ _ e1 a1
  have n2 : W.dflEqual ≠ W.dflAlloc := hne W.isEqual _ _ e1 a2
  have n3 : W.dflEqual ≠ W.dflError := hne W.isEqual _ _ e1 a3
  have n4 : W.dflHash ≠ W.dflAlloc := hne W.isHash _ _ e2 a4
  have n5 : W.dflHash ≠ W.dflError := hne W.isHash _ _ e2 a5
  have n6 : W.dflAlloc ≠ W.dflError := hne W.isAlloc _ _ e3 a6
  have n7 : W.dflEqual ≠ W.ts := hne W.isEqual _ _ e1 t1
  have n8 : W.dflHash ≠ W.ts := hne W.isHash _ _ e2 t2
  have n9 : W.dflAlloc ≠ W.ts := hne W.isAlloc _ _ e3 t3
  have n10 : W.dflError ≠ W.ts := hne W.isError _ _ e4 t4
  simp only [extras, extraMutex, extraAlloc, extraEqual, extraHash, extraError]
  split <;> split <;> split <;> split <;> split <;>
    simp [n1, n2, n3, n4, n5, n6, n1.symm, n2.symm, n3.symm, n4.symm, n5.symm, n6.symm, n7.symm, n8.symm, n9.symm, n10.symm]

/-- C39 for the policies of the library: if the user names no policy twice, the effective list
contains no policy twice, so that no implementation is inherited twice. -/
theorem C39_library_no_policy_twice (user : List Pol) (h : user.Nodup) : (allPolicies lib user).Nodup := by
  rw [allPolicies_eq, List.append_assoc, List.nodup_append]
  refine ⟨count_le_one lib_ok ⟨rfl, rfl, rfl, rfl, rfl, rfl, rfl, rfl, rfl⟩ user, ?_, ?_⟩
  · rw [List.nodup_append]
    refine ⟨policyDependencies_nodup user, h, ?_⟩
    intro a ha b hb e; subst e
    exact ((mem_policyDependencies user _).1 ha).1 hb
  · intro a ha b hb e; subst e
    rw [List.mem_append, mem_or_required] at hb
    have hu : ∀ q : Pol → Bool, (∀ p d, Needs lib p d → q d = false) → q a = true → user.any q = true := by
      intro q hq ht
      rcases hb with hb | ⟨p, _, hn⟩
      · exact List.any_eq_true.2 ⟨a, hb, ht⟩
      · rw [hq p a hn] at ht; cases ht
    simp only [extras, List.mem_append, extraMutex, extraAlloc, extraEqual, extraHash, extraError] at ha
    rcases ha with (((ha | ha) | ha) | ha) | ha <;> split at ha <;> simp at ha
    · subst ha; rename_i hl; exact hl ((hasLock_iff user).2 (Or.inl hb))
    · subst ha; rename_i hl
      refine hl (hu lib.isAlloc ?_ rfl)
      intro p d hn
      cases d <;> try rfl
      exact absurd rfl ((lib_needs_plain hn).2.2.1 _)
    · subst ha; rename_i hl
      refine hl (hu lib.isEqual ?_ rfl)
      intro p d hn
      cases d <;> try rfl
      exact absurd rfl ((lib_needs_plain hn).1 _)
    · subst ha; rename_i hl
      refine hl (hu lib.isHash ?_ rfl)
      intro p d hn
      cases d <;> try rfl
      exact absurd rfl ((lib_needs_plain hn).2.1 _)
    · subst ha; rename_i hl
      refine hl ?_
      rw [List.any_eq_true]
      refine ⟨true, ?_, rfl⟩
      rw [transform, List.mem_map]
      refine ⟨_, ?_, lib_ok.error⟩
      rw [extend_eq]
      simp only [List.flatten_cons, List.flatten_nil, List.append_nil, List.mem_append]
      exact ((mem_or_required user _).2 hb).symm

/-- The exception in `C39_needed_policies_not_twice` is real: with a policy of the user's own
which needs the equality policy, that one is there twice. -/
theorem C39_needed_equality_is_there_twice :
    ∃ (W : World Pol) (user : List Pol) (p : Pol), W.Ok ∧ user.Nodup ∧ p ∈ user ∧ Needs W p W.dflEqual ∧
      (allPolicies W user).count W.dflEqual = 2 := by
  let W : World Pol := { lib with
    deps := fun p => if p = .user 0 then [.equal 0] else []
    rank := fun p => if p = .user 0 then 1 else 0
    acyclic := by intro p d h; split at h <;> simp at h; subst h; simp [*] }
  refine ⟨W, [.user 0], .user 0, ?_, by simp, by simp, .lists (by simp [W, lib]), ?_⟩
  · refine ⟨by decide, rfl, rfl, rfl, rfl, ⟨rfl, rfl, rfl, rfl⟩, ⟨rfl, rfl, rfl, rfl⟩, ?_⟩
    intro p hp
    simp [W, lib] at hp
    rcases hp with rfl | rfl | rfl | rfl | rfl <;> rfl
  · have hd : ∀ q, dependent W q = if q = .user 0 then [.equal 0] else [] := by
      intro q
      by_cases hq : q = .user 0
      · subst hq
        rw [dependent_eq]
        have : dependent W (.equal 0) = [] := by rw [dependent_eq]; rfl
        simp [W, this]
      · rw [dependent_eq]; simp [W, hq]
    simp only [allPolicies, extraMutex, extraAlloc, extraEqual, extraHash, extraError, hasLock, policyDependencies, List.map_cons, List.map_nil, hd]
    decide

/-! ## C45 -/

/-- C45: wherever a policy stands in the effective list, everything it lists as a dependency and
which the user did not name stands before it. -/
theorem C45_dependencies_first (hW : W.Ok) (user l1 l2 : List τ) (x d : τ) (h : allPolicies W user = l1 ++ x :: l2)
    (hd : d ∈ W.deps x) (hu : d ∉ user) : d ∈ l1 := by
  have hx : Ordered W.deps (fun d => d ∉ user) (allPolicies W user) := by
    rw [allPolicies_eq, List.append_assoc]
    have h1 : Ordered W.deps (fun d => d ∉ user) (extras W user) := by
      intro l1 x l2 e d hd _
      have := extras_default user x (by rw [e]; simp)
      rw [hW.bare x (by simpa [Default] using this)] at hd
      simp at hd
    refine h1.append' ((policyDependencies_ordered user).append ?_)
    intro l1 x l2 e d hd hu
    refine List.mem_append_left _ ((mem_policyDependencies user d).2 ⟨hu, x, by rw [e]; simp, .lists hd⟩)
  exact hx l1 x l2 h d hd hu

/-! ## C40 -/

/-- C40: the thread-safe lock policy is there exactly once if it is wanted, or if the
thread-unsafe policy is not wanted (and the user did not name it twice). -/
theorem C40_lock_exactly_once (hW : W.Ok) (user : List τ) (h1 : user.count W.ts ≤ 1)
    (h : Required W user W.ts ∨ ¬ Required W user W.tu) : (allPolicies W user).count W.ts = 1 := by
  obtain ⟨t1, t2, t3, t4⟩ := hW.ts_plain
  have hne : ∀ (f : τ → Bool) (a : τ), f a = true → f W.ts = false → a ≠ W.ts := by
    intro f a ha hb e; subst e; rw [ha] at hb; cases hb
  have n1 := hne _ _ hW.equal t1
  have n2 := hne _ _ hW.hash t2
  have n3 := hne _ _ hW.alloc t3
  have n4 := hne _ _ hW.error t4
  rw [allPolicies_eq, List.count_append, List.count_append]
  by_cases hw : Required W user W.ts
  · rw [extras_count hW user _ hw n1.symm n2.symm n3.symm]
    by_cases hu : W.ts ∈ user
    · have : (policyDependencies W user).count W.ts = 0 := by
        rw [List.count_eq_zero, mem_policyDependencies]; simp [hu]
      have := List.count_pos_iff.2 hu
      omega
    · have hc : (policyDependencies W user).count W.ts = 1 :=
        count_one (policyDependencies_nodup user) (((mem_or_required user _).2 hw).resolve_right hu)
      rw [List.count_eq_zero.2 hu, hc]
  · have hl : hasLock W user = false := by
      rw [← Bool.not_eq_true, hasLock_iff]
      rintro (h' | h')
      · exact hw h'
      · exact (h.resolve_left hw) h'
    have hnot := mt (mem_or_required user W.ts).1 hw
    rw [List.count_eq_zero.2 (fun h => hnot (Or.inl h)), List.count_eq_zero.2 (fun h => hnot (Or.inr h))]
    simp only [extras, extraMutex, hl, Bool.false_eq_true, if_false, List.count_append]
    have c : ∀ (b : Bool) (a : τ), a ≠ W.ts → (if b = true then [] else [a]).count W.ts = 0 := by
      intro b a ha; split <;> simp [ha]
    rw [extraAlloc, extraEqual, extraHash, extraError, c _ _ n1, c _ _ n2, c _ _ n3, c _ _ n4]
    simp

/-- C40: and it is not there if only the thread-unsafe policy is wanted. -/
theorem C40_no_lock (hW : W.Ok) (user : List τ) (h1 : ¬ Required W user W.ts) (h2 : Required W user W.tu) :
    W.ts ∉ allPolicies W user := by
  have hl : hasLock W user = true := (hasLock_iff user).2 (Or.inr h2)
  obtain ⟨t1, t2, t3, t4⟩ := hW.ts_plain
  have hne : ∀ (f : τ → Bool) (a : τ), f a = true → f W.ts = false → W.ts ≠ a := by
    intro f a ha hb e; subst e; rw [ha] at hb; cases hb
  intro h
  rw [allPolicies_eq, List.append_assoc, List.mem_append, List.mem_append, mem_or_required] at h
  rcases h with h | h
  · simp only [extras, List.mem_append, extraMutex, hl, extraAlloc, extraEqual, extraHash, extraError] at h
    rcases h with (((h | h) | h) | h) | h
    · simp at h
    all_goals split at h <;> simp at h
    · exact hne _ _ hW.alloc t3 h
    · exact hne _ _ hW.equal t1 h
    · exact hne _ _ hW.hash t2 h
    · exact hne _ _ hW.error t4 h
  · exact h1 h

theorem lib_wants_safe (user : List Pol) : Required lib user .threadSafe ↔ .threadSafe ∈ user ∨ ∃ c, .refresh c ∈ user := by
  constructor
  · rintro (h | ⟨p, hp, hn⟩)
    · exact Or.inl h
    · obtain ⟨c, rfl⟩ := (lib_needs_plain hn).2.2.2.2.2 rfl
      exact Or.inr ⟨c, hp⟩
  · rintro (h | ⟨c, h⟩)
    · exact Or.inl h
    · exact Or.inr ⟨_, h, .lists (show Pol.threadSafe ∈ libDeps (.refresh c) by simp [libDeps])⟩

theorem lib_wants_unsafe (user : List Pol) : Required lib user .threadUnsafe ↔ .threadUnsafe ∈ user := by
  constructor
  · rintro (h | ⟨p, hp, hn⟩)
    · exact h
    · exact absurd rfl (lib_needs_plain hn).2.2.2.2.1
  · exact Or.inl

/-- C40 for the policies of the library: the lock policy is there exactly once, unless the user
names the thread-unsafe policy, and neither the thread-safe one nor a refresh policy. -/
theorem C40_library (user : List Pol) (h1 : user.count .threadSafe ≤ 1) :
    let unlocked := Pol.threadUnsafe ∈ user ∧ Pol.threadSafe ∉ user ∧ (∀ c, Pol.refresh c ∉ user)
    (unlocked → (allPolicies lib user).count .threadSafe = 0) ∧
    (¬ unlocked → (allPolicies lib user).count .threadSafe = 1) := by
  refine ⟨?_, ?_⟩
  · intro h
    refine List.count_eq_zero.2 (C40_no_lock lib_ok user ?_ ((lib_wants_unsafe user).2 h.1))
    show ¬ Required lib user .threadSafe
    rw [lib_wants_safe]
    rintro (h' | ⟨c, h'⟩)
    · exact h.2.1 h'
    · exact h.2.2 c h'
  · intro h
    refine C40_lock_exactly_once lib_ok user h1 ?_
    show Required lib user .threadSafe ∨ ¬ Required lib user .threadUnsafe
    rw [lib_wants_safe, lib_wants_unsafe]
    by_cases a : Pol.threadUnsafe ∈ user
    · by_cases b : Pol.threadSafe ∈ user
      · exact Or.inl (Or.inl b)
      · refine Or.inl (Or.inr ?_)
        apply Classical.byContradiction
        intro hc
        exact h ⟨a, b, fun c hc' => hc ⟨c, hc'⟩⟩
    · exact Or.inr a

/-- C40: a cache with a refresh policy always gets the lock. -/
theorem C40_refresh_is_locked (user : List Pol) (c : Clock) (h : .refresh c ∈ user) : .threadSafe ∈ allPolicies lib user :=
  C39_needed_policies_present user _ _ h (.lists (show Pol.threadSafe ∈ libDeps (.refresh c) by simp [libDeps]))

/-- Not so for the refresh policies on top of asio: named together with the thread-unsafe policy,
the cache is not locked, although the timers call into it. -/
theorem C40_asio_refresh_is_not_locked (c : Clock) (n : Nat) :
    .threadSafe ∉ allPolicies lib [.asioRefresh c n, .asioResolver 0, .threadUnsafe] := by
  refine C40_no_lock lib_ok _ ?_ ((lib_wants_unsafe _).2 (by simp))
  show ¬ Required lib _ .threadSafe
  rw [lib_wants_safe]; simp

/-- C40: a cache has exactly one lock (real or not), unless the user asks for both, in which case
it has two and does not compile. -/
theorem C40_one_lock (user : List Pol) (h1 : user.count .threadSafe ≤ 1) (h2 : user.count .threadUnsafe ≤ 1) :
    let both := Pol.threadUnsafe ∈ user ∧ (Pol.threadSafe ∈ user ∨ ∃ c, Pol.refresh c ∈ user)
    (both → (lockers user).length = 2) ∧ (¬ both → (lockers user).length = 1) := by
  intro both
  have hl : (lockers user).length = (allPolicies lib user).count .threadSafe + (allPolicies lib user).count .threadUnsafe := by
    rw [lockers, filter_eq]
    induction allPolicies lib user with
    | nil => rfl
    | cons a l ih => cases a <;> simp [ih] <;> omega
  have hu : (allPolicies lib user).count .threadUnsafe = user.count .threadUnsafe := by
    rw [allPolicies_eq, List.count_append, List.count_append]
    have : (policyDependencies lib user).count .threadUnsafe = 0 := by
      rw [List.count_eq_zero, mem_policyDependencies]
      rintro ⟨_, p, _, hn⟩
      exact (lib_needs_plain hn).2.2.2.2.1 rfl
    have : (extras lib user).count .threadUnsafe = 0 := by
      rw [List.count_eq_zero]
      intro h
      have := extras_default user _ h
      simp [Default, lib] at this
    omega
  have hlib := C40_library user h1
  rw [hl, hu]
  refine ⟨?_, ?_⟩
  · intro h
    have h3 := List.count_pos_iff.2 h.1
    rw [hlib.2 (fun g => h.2.elim g.2.1 fun ⟨c, hc⟩ => g.2.2 c hc)]
    omega
  · intro h
    by_cases a : Pol.threadUnsafe ∈ user
    · have h3 := List.count_pos_iff.2 a
      rw [hlib.1 ⟨a, fun g => h ⟨a, Or.inl g⟩, fun c g => h ⟨a, Or.inr ⟨c, g⟩⟩⟩]
      omega
    · rw [hlib.2 (fun g => a g.1), List.count_eq_zero.2 a]

/-! ## C19 -/

/-- C19 is not so: for no selection of policies does an entry keep an error.  (The policy for it
offers a template where the cache looks for a class, so nothing is inherited from it; and the test
made is for the policy itself, not for what could be inherited.) -/
theorem C19_errors_are_never_kept (user : List Pol) : keepsErrors user = false := by
  rw [keepsErrors, ← Bool.not_eq_true, hasType_iff]
  intro h
  rw [entryBases, List.mem_flatMap, extend_eq] at h
  obtain ⟨c, hc, h⟩ := h
  have hb : ∀ c, Cls.negativePolicy ∈ withBases c → c = .negativePolicy := by
    intro c; cases c <;> simp [withBases]
  have := hb c h; subst this
  simp only [List.flatten_cons, List.flatten_nil, List.append_nil, List.mem_append, valueBases, removeAll_eq, List.mem_filterMap, List.mem_filter, transform, List.mem_map] at hc
  rcases hc with hc | ⟨o, ⟨⟨p, _, rfl⟩, _⟩, ho⟩
  · simp at hc
  · cases p <;> simp [valueBase, member] at ho

/-- C19 is not so: whatever lifetime is configured for errors, when the resolver failed, the very next
`get` of the key asks the resolver again, even at the same moment. -/
theorem C19_error_is_asked_for_again {K V E : Type} {cfg : Cfg K} (hc : cfg.Ok) (hr : cfg.resolver = .sync) (h : Hist K V E) (e1 : Env V) (k : K)
    (x : E) (r' : Res V E) (hok : HistOk cfg St.init (h ++ [(e1, .get k (.err x))])) (env : Env V)
    (hcall : (outAt cfg h e1 (.get k (.err x))).calls ≠ [])
    (ho : (stateAfter cfg (h ++ [(e1, .get k (.err x))])).destroyed = false) :
    ∃ tok, (outAt cfg (h ++ [(e1, .get k (.err x))]) env (.get k r')).calls = [(k, tok)] := by
  refine C18_next_get_asks_again hc hr h [] e1 k k (hc.refl k) x r' hok env hcall ?_ ho
  intro h1 env o h2 h; simp at h

/-! ## C95 -/

theorem mem_valueBases (user : List Pol) (c : Cls) : c ∈ valueBases user ↔ ∃ p ∈ allPolicies lib user, valueBase p = some c := by
  simp only [valueBases, removeAll_eq, transform, List.mem_filterMap, List.mem_filter, List.mem_map]
  constructor
  · rintro ⟨o, ⟨⟨p, hp, rfl⟩, _⟩, ho⟩; exact ⟨p, hp, ho⟩
  · rintro ⟨p, hp, h⟩; exact ⟨_, ⟨⟨p, hp, rfl⟩, by simp [h]⟩, h⟩

theorem lib_wants_queue (user : List Pol) : Required lib user .queue ↔ .queue ∈ user ∨ .maxSize ∈ user := by
  constructor
  · rintro (h | ⟨p, hp, hn⟩)
    · exact .inl h
    · have := lib_needs hn
      cases p <;> simp [libDeps, extend, clockDeps] at this <;> first | exact .inr hp | (split at this <;> simp at this)
  · rintro (h | h)
    · exact .inl h
    · exact .inr ⟨_, h, .lists (show Pol.queue ∈ libDeps .maxSize by simp [libDeps])⟩

theorem lib_wants_refresh (user : List Pol) (c : Clock) : Required lib user (.refresh c) ↔ .refresh c ∈ user := by
  constructor
  · rintro (h | ⟨p, hp, hn⟩)
    · exact h
    · have := lib_needs hn
      cases p <;> simp [libDeps, extend, clockDeps] at this <;> (split at this <;> simp at this)
  · exact .inl

/-- C95: whatever policies are named, an entry is an element of the table and has a counter of references. -/
theorem C95_counted_element (user : List Pol) : Cls.element ∈ entryBases user ∧ Cls.refcount ∈ entryBases user := by
  simp [entryBases, extend_eq, withBases]

/-- C95: an entry has the links for the list of uses exactly if the size limit (or the list itself) was named, and the
links for the list of refreshes by a clock exactly if the refresh policy for that clock was named. -/
theorem C95_links (user : List Pol) :
    (Cls.queueLink ∈ entryBases user ↔ .queue ∈ user ∨ .maxSize ∈ user) ∧
    ∀ c, Cls.refreshLink c ∈ entryBases user ↔ .refresh c ∈ user := by
  have hq : ∀ c, Cls.queueLink ∈ withBases c ↔ c = .queueBase ∨ c = .queueLink := by intro c; cases c <;> simp [withBases]
  have hr : ∀ a c, Cls.refreshLink a ∈ withBases c ↔ c = .refreshBase a ∨ c = .refreshLink a := by
    intro a c; cases c <;> simp [withBases, eq_comm]
  have hb : ∀ p, valueBase p = some .queueBase ↔ p = .queue := by intro p; cases p <;> simp [valueBase, member]
  have hc : ∀ a p, valueBase p = some (.refreshBase a) ↔ p = .refresh a := by intro a p; cases p <;> simp [valueBase, member]
  have hm : ∀ x, (x = Pol.queue ∨ ∃ c, x = Pol.refresh c) → (x ∈ allPolicies lib user ↔ Required lib user x) := by
    intro x hx
    constructor
    · intro h
      rcases C39_nothing_else user x h with h | h
      · exact h
      · exfalso
        rcases hx with rfl | ⟨c, rfl⟩ <;> simp [Default, lib] at h
    · intro h
      rw [allPolicies_eq, List.append_assoc]
      exact List.mem_append_right _ (List.mem_append.2 ((mem_or_required user x).2 h))
  simp only [entryBases, extend_eq, List.mem_flatMap, List.mem_append, List.flatten_cons, List.flatten_nil, List.append_nil, hq, hr]
  have hl : ∀ p, valueBase p ≠ some .queueLink ∧ ∀ c, valueBase p ≠ some (.refreshLink c) := by intro p; cases p <;> simp [valueBase, member]
  refine ⟨?_, fun c => ?_⟩
  · rw [← lib_wants_queue, ← hm _ (.inl rfl)]
    constructor
    · rintro ⟨a, h, rfl | rfl⟩ <;> simp [mem_valueBases, hb, (hl _).1] at h
      exact h
    · intro h; exact ⟨_, .inr ((mem_valueBases _ _).2 ⟨_, h, (hb _).2 rfl⟩), .inl rfl⟩
  · rw [← lib_wants_refresh, ← hm _ (.inr ⟨c, rfl⟩)]
    constructor
    · rintro ⟨a, h, rfl | rfl⟩ <;> simp [mem_valueBases, hc, (hl _).2] at h
      exact h
    · intro h; exact ⟨_, .inr ((mem_valueBases _ _).2 ⟨_, h, (hc c _).2 rfl⟩), .inl rfl⟩

/-- C95: if no policy is named twice, an entry has no class as a base twice: whatever is reached through a base
is reached in one way only, and the links of one list are not the links of another. -/
theorem C95_no_base_twice (user : List Pol) (h : user.Nodup) : (entryBases user).Nodup := by
  have hn := C39_library_no_policy_twice user h
  have inj : ∀ p q c, valueBase p = some c → valueBase q = some c → p = q := by
    intro p q c hp hq
    cases p <;> simp [valueBase, member] at hp <;> subst hp <;> cases q <;> simp_all [valueBase, member]
  have hv : (valueBases user).Nodup := by
    simp only [valueBases, removeAll_eq, transform]
    generalize allPolicies lib user = l at hn
    induction l with
    | nil => simp
    | cons p l ih =>
      rw [List.nodup_cons] at hn
      rw [List.map_cons, List.filter_cons]
      split
      · cases hp : valueBase p with
        | none => simpa [List.filterMap_cons] using ih hn.2
        | some c =>
          rw [List.filterMap_cons]
          simp only
          rw [List.nodup_cons]
          refine ⟨?_, ih hn.2⟩
          simp only [List.mem_filterMap, List.mem_filter, List.mem_map]
          rintro ⟨o, ⟨⟨q, hq, rfl⟩, _⟩, ho⟩
          exact hn.1 (inj p q c hp ho ▸ hq)
      · exact ih hn.2
  have hne : ∀ c ∈ valueBases user, c ≠ .element ∧ c ≠ .refcount ∧ c ≠ .queueLink ∧ ∀ k, c ≠ .refreshLink k := by
    intro c hc
    obtain ⟨p, _, hp⟩ := (mem_valueBases user c).1 hc
    cases p <;> simp [valueBase, member] at hp <;> subst hp <;> simp
  have hw : ∀ c d x, x ∈ withBases c → x ∈ withBases d → c ≠ d → x = c ∨ x = d := by
    intro c d x; cases c <;> cases d <;> simp [withBases] <;> grind
  have key : ∀ l : List Cls, l.Nodup → (∀ c ∈ l, c ≠ .queueLink ∧ ∀ k, c ≠ .refreshLink k) → (l.flatMap withBases).Nodup := by
    intro l hl hx
    induction l with
    | nil => simp
    | cons c l ih =>
      rw [List.nodup_cons] at hl
      rw [List.flatMap_cons, List.nodup_append]
      refine ⟨by cases c <;> simp [withBases], ih hl.2 fun d hd => hx d (by simp [hd]), ?_⟩
      rintro x hxc y hy rfl
      obtain ⟨d, hd, hyd⟩ := List.mem_flatMap.1 hy
      have hcd : c ≠ d := fun e => hl.1 (e ▸ hd)
      have h1 := hx c (by simp)
      have h2 := hx d (by simp [hd])
      cases c <;> cases d <;> simp [withBases] at hxc hyd hcd h1 h2 <;> grind
  rw [entryBases, extend_eq]
  refine key _ ?_ ?_
  · simp only [List.flatten_cons, List.flatten_nil, List.append_nil, List.cons_append, List.nil_append, List.nodup_cons, List.mem_cons]
    exact ⟨by simpa using fun hc => (hne _ hc).1 rfl, fun hc => (hne _ hc).2.1 rfl, hv⟩
  · intro c hc
    simp only [List.flatten_cons, List.flatten_nil, List.append_nil, List.cons_append, List.nil_append, List.mem_cons] at hc
    rcases hc with rfl | rfl | hc
    · simp
    · simp
    · exact (hne c hc).2.2

/-! ## Examples -/

theorem lib_dependent : dependent lib = libDeps := by
  have h0 : ∀ p, libRank p = 0 → dependent lib p = [] := by
    intro p hp
    have : lib.deps p = [] := by
      show libDeps p = []
      cases p <;> simp [libRank] at hp <;> rfl
    rw [dependent_eq, this]; rfl
  funext p
  rw [dependent_eq]
  have : ((lib.deps p).map (dependent lib)).flatten = [] := by
    rw [List.flatten_eq_nil_iff]
    intro l hl
    rw [List.mem_map] at hl
    obtain ⟨d, hd, rfl⟩ := hl
    refine h0 d ?_
    have := lib_acyclic p d hd
    have : libRank p ≤ 1 := by cases p <;> simp [libRank]
    omega
  rw [this]; rfl

/-- The policies of a refreshing, bounded cache whose errors should be kept for a while. -/
example : allPolicies lib [.maxSize, .errMaxAge .system, .refresh .steady, .resolver 0] =
    [.allocator 0, .equal 0, .hash 0, .error 0, .queue, .expireAt .system, .expireAt .steady, .negative, .refreshImpl, .threadSafe,
      .maxSize, .errMaxAge .system, .refresh .steady, .resolver 0] := by
  simp only [allPolicies, extraMutex, extraError, hasLock, policyDependencies, lib_dependent]; decide

/-- The entry of such a cache derives from these classes; nothing of the negative-cache policy is among them. -/
example : valueBases [.maxSize, .errMaxAge .system, .refresh .steady, .resolver 0] =
    [.queueBase, .expireAtBase .system, .expireAtBase .steady, .refreshImplBase, .refreshBase .steady] := by
  simp only [valueBases, allPolicies, extraMutex, extraError, hasLock, policyDependencies, lib_dependent]; decide

/-- Together with the links of both lists. -/
example : entryBases [.maxSize, .errMaxAge .system, .refresh .steady, .resolver 0] =
    [.element, .refcount, .queueBase, .queueLink, .expireAtBase .system, .expireAtBase .steady, .refreshImplBase, .refreshBase .steady,
      .refreshLink .steady] := by
  simp only [entryBases, valueBases, allPolicies, extraMutex, extraError, hasLock, policyDependencies, lib_dependent]; decide

/-- A bounded cache that refreshes has the links of both lists, each once. -/
example : (entryBases [.maxSize, .refresh .steady]).Nodup ∧ Cls.refreshLink .steady ∈ entryBases [.maxSize, .refresh .steady] ∧
    Cls.queueLink ∈ entryBases [.maxSize, .refresh .steady] ∧ Cls.refreshLink .system ∉ entryBases [.maxSize, .refresh .steady] :=
  ⟨C95_no_base_twice _ (by decide), ((C95_links _).2 _).2 (by decide), (C95_links _).1.2 (by decide), fun h => absurd (((C95_links _).2 _).1 h) (by decide)⟩

/-- A policy named twice: its class is a base twice. -/
example : ¬ (entryBases [.queue, .queue]).Nodup ∧ Cls.refcount ∈ entryBases [.queue, .queue] := by
  refine ⟨?_, (C95_counted_element _).2⟩
  simp only [entryBases, valueBases, allPolicies, extraMutex, extraError, hasLock, policyDependencies, lib_dependent]; decide

/-- The hypotheses of `C19_error_is_asked_for_again` can be met: errors should live for 100. -/
example : HistOk { memo with errAge := some 100 } St.init ([] ++ [(Demo.at_ 0, .get 1 (.err 3))] : Hist Nat Nat Nat) ∧
    (outAt { memo with errAge := some 100 } ([] : Hist Nat Nat Nat) (Demo.at_ 0) (.get 1 (.err 3))).calls ≠ [] ∧
    (stateAfter { memo with errAge := some 100 } ([] ++ [(Demo.at_ 0, .get 1 (.err 3))] : Hist Nat Nat Nat)).destroyed = false := by decide

end Hoard.Props
