import Verif.DispatchLemmas
import Verif.Props.Policies
/-! # Lemmas for C96: the order of the policies -/
namespace Hoard.Props
open Hoard Hoard.Dispatch
open Hoard.Meta (Pol allPolicies lib valueBases World)
variable {V E : Type}

theorem policies_perm {τ : Type} [DecidableEq τ] (W : World τ) {user user' : List τ} (h : user.Perm user') :
    (allPolicies W user).Perm (allPolicies W user') := by
  have hm : ∀ x, x ∈ user ↔ x ∈ user' := fun x => h.mem_iff
  have hd : ∀ x, x ∈ Meta.policyDependencies W user ↔ x ∈ Meta.policyDependencies W user' := by
    intro x; simp only [Meta.mem_policyDependencies, hm]
  have hp : (Meta.policyDependencies W user).Perm (Meta.policyDependencies W user') := by
    rw [List.perm_iff_count]
    intro x
    by_cases hx : x ∈ Meta.policyDependencies W user
    · rw [count_one (Meta.policyDependencies_nodup user) hx, count_one (Meta.policyDependencies_nodup user') ((hd x).1 hx)]
    · rw [List.count_eq_zero.2 hx, List.count_eq_zero.2 (fun g => hx ((hd x).2 g))]
  have hany : ∀ f : τ → Bool, user.any f = user'.any f := by
    intro f
    rw [Bool.eq_iff_iff]; simp only [List.any_eq_true, hm]
  have hdany : ∀ f : τ → Bool, (Meta.policyDependencies W user).any f = (Meta.policyDependencies W user').any f := by
    intro f
    rw [Bool.eq_iff_iff]; simp only [List.any_eq_true, hd]
  have he : Meta.extras W user = Meta.extras W user' := by
    have h1 : Meta.hasLock W user = Meta.hasLock W user' := by
      simp only [Meta.hasLock, Meta.hasType, hany, hdany]
    have h2 : Meta.extraError W user = Meta.extraError W user' := by
      simp only [Meta.extraError, Meta.transform, Meta.extend_eq, List.flatten_cons, List.flatten_nil, List.append_nil, List.map_append, List.any_append, List.any_map,
        hany, hdany]
    simp only [Meta.extras, Meta.extraMutex, Meta.extraAlloc, Meta.extraEqual, Meta.extraHash, h1, h2, hany]
  rw [Meta.allPolicies_eq, Meta.allPolicies_eq, he]
  exact (hp.append_left _).append h

theorem bases_perm {user user' : List Pol} (h : user.Perm user') : (valueBases user).Perm (valueBases user') := by
  simp only [valueBases, Meta.removeAll_eq, Meta.transform]
  exact (((policies_perm lib h).map _).filter _).filterMap _

theorem event_perm {user user' : List Pol} (h : user.Perm user') (a : Args V) (pe : PEnv V) (d : Data V E) (e : Ev) :
    event user a pe d e = event user' a pe d e := by
  have hp := policies_perm lib h
  have hany : ∀ f : Pol → Bool, (allPolicies lib user).any f = (allPolicies lib user').any f := by
    intro f; rw [Bool.eq_iff_iff]; simp only [List.any_eq_true, hp.mem_iff]
  cases e with
  | create i => exact hp.foldl_eq' (fun _ _ _ _ d => onCreate_comm pe i d _ _) d
  | assign i v => exact hp.foldl_eq' (fun _ _ _ _ d => onAssign_comm a pe i v d _ _) d
  | hit i => exact hp.foldl_eq' (fun _ _ _ _ d => onHit_comm a pe i d _ _) d
  | unlink i => exact hp.foldl_eq' (fun _ _ _ _ d => onUnlink_comm i d _ _) d
  | refreshed new old => exact (bases_perm h).foldl_eq' (fun _ _ _ _ d => onRefresh_comm new old d _ _) d
  | maintain n =>
    have hr : removal a n (allPolicies lib user) = removal a n (allPolicies lib user') := by
      refine hp.foldl_eq' (fun p _ q _ m => ?_) 0
      cases removalCheck a n p <;> cases removalCheck a n q <;> simp only
      (repeat' split) <;> omega
    simp only [event, maintain, hany, hr]

end Hoard.Props
