import Verif.Start
import Verif.DispatchTimes
/-! # Starting the threads of the policies: C106 -/
namespace Hoard.Props
open Hoard.Meta (Pol allPolicies lib Clock)
open Start

/-- The policy has a thread. -/
def hasThread : Pol → Bool
  | .refresh _ => true
  | _ => false

theorem filter_threads (user : List Pol) (hu : user.Nodup) : (allPolicies lib user).filter hasThread = user.filter hasThread := by
  have hn := C39_library_no_policy_twice user hu
  obtain ⟨added, h⟩ := C39_named_policies_kept (W := lib) user
  have hm : ∀ p, hasThread p = true → (p ∈ allPolicies lib user → p ∈ user) := by
    intro p hp
    cases p <;> simp [hasThread] at hp
    rename_i c
    exact (Dispatch.mem_refresh (c := c) rfl).1
  rw [h] at hn hm ⊢
  rw [List.filter_append]
  suffices added.filter hasThread = [] by rw [this, List.nil_append]
  rw [List.filter_eq_nil_iff]
  intro p hp hq
  exact (List.nodup_append.1 hn).2.2 p hp p (hm p hq (List.mem_append_left _ hp)) rfl

theorem each_init (f : Nat → Bool) (ps : List Pol) (w : W) :
    (∀ i < (ps.filter hasThread).length, f (w.tried + i) = false) →
      each (initOne f) w ps = .ok ⟨w.running ++ ps.filter hasThread, w.tried + (ps.filter hasThread).length⟩ := by
  induction ps generalizing w with
  | nil => simp [each]
  | cons p ps ih =>
    intro h
    cases hp : hasThread p with
    | false =>
      have : initOne f w p = .ok w := by cases p <;> simp_all [initOne, hasThread]
      simp only [List.filter_cons, hp, Bool.false_eq_true, if_false] at h ⊢
      simp only [each, this]
      exact ih w h
    | true =>
      obtain ⟨c, rfl⟩ : ∃ c, p = .refresh c := by cases p <;> simp_all [hasThread]
      simp only [List.filter_cons, hp, if_true, List.length_cons] at h ⊢
      have h0 := h 0 (by omega)
      rw [Nat.add_zero] at h0
      simp only [each, initOne, h0, Bool.false_eq_true, if_false]
      rw [ih _ (fun i hi => by have := h (i + 1) (by omega); rw [← this]; congr 1; simp; omega)]
      simp; omega

theorem each_init_fails (f : Nat → Bool) (ps : List Pol) (w : W) (h : ∃ i < (ps.filter hasThread).length, f (w.tried + i) = true) :
    ∃ w', each (initOne f) w ps = .threw w' ∧ ∀ p ∈ w'.running, p ∈ w.running ∨ p ∈ ps.filter hasThread := by
  induction ps generalizing w with
  | nil => simp at h
  | cons p ps ih =>
    obtain ⟨i, hi, hf⟩ := h
    cases hp : hasThread p with
    | false =>
      have : initOne f w p = .ok w := by cases p <;> simp_all [initOne, hasThread]
      simp only [List.filter_cons, hp, Bool.false_eq_true, if_false] at hi ⊢
      simp only [each, this]
      exact ih w ⟨i, hi, hf⟩
    | true =>
      obtain ⟨c, rfl⟩ : ∃ c, p = .refresh c := by cases p <;> simp_all [hasThread]
      simp only [List.filter_cons, hp, if_true, List.length_cons] at hi ⊢
      cases h0 : f w.tried with
      | true => exact ⟨⟨w.running, w.tried + 1⟩, by simp only [each, initOne, h0, if_true], fun p q => .inl q⟩
      | false =>
        obtain ⟨j, rfl⟩ : ∃ j, i = j + 1 := ⟨i - 1, by
          rcases i with _ | i
          · simp [h0] at hf
          · rfl⟩
        obtain ⟨w', h1, h2⟩ := ih ⟨w.running ++ [.refresh c], w.tried + 1⟩ ⟨j, by omega, by rw [← hf]; congr 1; simp; omega⟩
        refine ⟨w', by simp only [each, initOne, h0, Bool.false_eq_true, if_false]; exact h1, fun p q => ?_⟩
        rcases h2 p q with h | h
        · rcases List.mem_append.1 h with h | h
          · exact .inl h
          · exact .inr (by simp_all)
        · exact .inr (List.mem_cons_of_mem _ h)

theorem each_destroy (ps : List Pol) (w : W) : each destroyOne w ps = .ok { w with running := w.running.filter (fun p => !(hasThread p && decide (p ∈ ps))) } := by
  induction ps generalizing w with
  | nil => simp only [each, List.not_mem_nil, decide_false, Bool.and_false, Bool.not_false]; rw [List.filter_eq_self.2 (fun _ _ => rfl)]
  | cons p ps ih =>
    cases hp : hasThread p with
    | false =>
      have : destroyOne w p = .ok w := by cases p <;> simp_all [destroyOne, hasThread]
      simp only [each, this, ih]
      congr 2
      apply List.filter_congr
      intro q _
      by_cases hq : q = p
      · subst hq; simp [hp]
      · simp [hq]
    | true =>
      obtain ⟨c, rfl⟩ : ∃ c, p = .refresh c := by cases p <;> simp_all [hasThread]
      simp only [each, destroyOne, ih]
      congr 2
      rw [List.filter_filter]
      apply List.filter_congr
      intro q _
      by_cases hq : q = .refresh c
      · subst hq; simp [hasThread]
      · simp [hq]

theorem each_destroy_all (ps : List Pol) (w : W) (h : ∀ p ∈ w.running, p ∈ ps.filter hasThread) : each destroyOne w ps = .ok { w with running := [] } := by
  rw [each_destroy]
  congr 2
  rw [List.filter_eq_nil_iff]
  intro p hp
  have := List.mem_filter.1 (h p hp)
  simp [this.1, this.2]

/-- C106.  If all threads that are needed can be started, the constructor of a cache succeeds, and exactly the threads of the refresh policies named
by the user run, each once; the attempts to start one are no more than these. -/
theorem C106_constructed (user : List Pol) (hu : user.Nodup) (f : Nat → Bool) (hf : ∀ i < (user.filter hasThread).length, f i = false) :
    construct true f user = .ok ⟨user.filter hasThread, (user.filter hasThread).length⟩ := by
  have h := each_init f (allPolicies lib user) {} (by rw [filter_threads user hu]; simpa using hf)
  rw [filter_threads user hu] at h
  simp [construct, initAll, h, guarded]

/-- C106.  Otherwise the program ends. -/
theorem C106_failure_ends_the_program (user : List Pol) (hu : user.Nodup) (f : Nat → Bool) (hf : ∃ i < (user.filter hasThread).length, f i = true) :
    construct true f user = .terminated := by
  obtain ⟨w, h, _⟩ := each_init_fails f (allPolicies lib user) {} (by rw [filter_threads user hu]; simpa using hf)
  simp [construct, initAll, h, guarded]

/-- So a constructor never throws on behalf of a policy: the handler that is to undo what was initialised never runs. -/
theorem C106_never_throws (user : List Pol) (f : Nat → Bool) (w : W) : construct true f user ≠ .threw w := by
  unfold construct initAll
  cases h : each (initOne f) {} (allPolicies lib user) <;> simp [guarded]

/-- C106.  The destructor stops all threads that the constructor has started. -/
theorem C106_destructor_stops_all (user : List Pol) (hu : user.Nodup) (f : Nat → Bool) (w : W) (hw : construct true f user = .ok w) :
    ∃ w', destruct true w user = .ok w' ∧ w'.running = [] ∧ w'.tried = w.tried := by
  by_cases hf : ∀ i < (user.filter hasThread).length, f i = false
  · rw [C106_constructed user hu f hf] at hw
    cases hw
    refine ⟨⟨[], (user.filter hasThread).length⟩, ?_, rfl, rfl⟩
    rw [destruct, each_destroy_all _ _ (by rw [filter_threads user hu]; exact fun p hp => hp)]
    rfl
  · rw [C106_failure_ends_the_program user hu f (by simpa using hf)] at hw
    cases hw

/-- The claim that is not true of the code: if a thread cannot be started, the constructor throws, and no thread that it has started runs on.
It is true of the program without the `noexcept`.  (Partial: for that program only, see `C106_failure_ends_the_program`.) -/
theorem C106_failure_is_undone_partial (user : List Pol) (hu : user.Nodup) (f : Nat → Bool) (hf : ∃ i < (user.filter hasThread).length, f i = true) :
    ∃ w, construct false f user = .threw w ∧ w.running = [] := by
  obtain ⟨w, h, hr⟩ := each_init_fails f (allPolicies lib user) {} (by rw [filter_threads user hu]; simpa using hf)
  refine ⟨{ w with running := [] }, ?_, rfl⟩
  have hd := each_destroy_all (allPolicies lib user) w (fun p hp => by simpa using hr p hp)
  simp [construct, initAll, h, guarded, hd]

/-! ## Examples -/

/-- A size limit, an age limit and a refresh policy: one thread. -/
example :
    let user : List Pol := [.maxSize, .maxAge .steady, .refresh .steady]
    user.Nodup ∧ user.filter hasThread = [.refresh .steady] ∧
    construct true (fun _ => false) user = .ok ⟨[.refresh .steady], 1⟩ ∧
    destruct true ⟨[.refresh .steady], 1⟩ user = .ok ⟨[], 1⟩ ∧
    construct true (fun _ => true) user = .terminated ∧
    construct false (fun _ => true) user = .threw ⟨[], 1⟩ := by decide +kernel

/-- Without a refresh policy nothing can fail. -/
example : construct true (fun _ => true) [.maxSize, .asyncResolver 0] = .ok {} := by decide +kernel

/-- Two refresh policies (which do not compile together, for another reason): the second thread fails, the first is stopped, in the program without `noexcept`. -/
example : construct false (fun i => i == 1) [.refresh .steady, .refresh .system] = .threw ⟨[], 2⟩ := by decide +kernel

end Hoard.Props
