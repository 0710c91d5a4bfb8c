import Verif.ProjectLemmas
import Verif.Props.Reference
/-! # Calls for other keys can be left out, asynchronous lookups included -/
namespace Hoard.Props
open Hoard Spec Demo
variable {K V E : Type}

/-! ## C89 -/

/-- What `Op.ok` asks of the configuration. -/
def fits (cfg : Cfg K) : Op K V E → Prop
  | .get _ _ => cfg.resolver ≠ .async
  | .asyncGet _ _ _ => cfg.resolver = .async
  | .tick _ _ => cfg.resolver ≠ .none ∧ cfg.refresh.isSome
  | _ => True

theorem histOk_fits {cfg : Cfg K} : ∀ (h : Hist K V E) (s : St K V E), s.destroyed = false → (∀ p ∈ h, p.2 ≠ .destroy) → (HistOk cfg s h ↔ ∀ p ∈ h, fits cfg p.2)
  | [], _, _, _ => ⟨(fun _ p hp => by cases hp), fun _ => trivial⟩
  | (e, o) :: h, s, hs, hd => by
    have h1 : (step cfg e s o).1.destroyed = false := by
      rw [step_destroyed cfg e s o (hd _ (List.mem_cons_self ..))]; exact hs
    have h2 : o.ok cfg s ↔ fits cfg o := by
      cases o <;> simp [Op.ok, fits, hs]
    simp only [HistOk, h2, histOk_fits h _ h1 (fun q hq => hd q (List.mem_cons_of_mem _ hq)), List.forall_mem_cons]

/-- What is left of an operation is the same kind of operation. -/
theorem onlyAbout_kind {cfg : Cfg K} {eqv : K → K → Bool} {a : K} {ρ : List (Nat × Nat)} {o o' : Op K V E} (h : onlyAbout eqv a ρ o = some o') :
    (fits cfg o → fits cfg o') ∧ growFails o' = growFails o ∧ o' ≠ .destroy := by
  cases o <;> simp only [onlyAbout, Option.ite_none_right_eq_some, Option.some.injEq, Option.map_eq_some_iff, reduceCtorEq] at h <;>
    first
    | (obtain ⟨-, rfl⟩ := h; exact ⟨id, rfl, (fun h => by cases h)⟩)
    | (obtain ⟨t, -, rfl⟩ := h; exact ⟨id, rfl, (fun h => by cases h)⟩)
    | (cases h; exact ⟨id, rfl, (fun h => by cases h)⟩)

theorem project_mem {cfg : Cfg K} {eqv : K → K → Bool} {a : K} : ∀ (h : Hist K V E) (outs : List (Out K V E)) (n m : Nat) (ρ : List (Nat × Nat)),
    ((project eqv a n m ρ h outs).1.map (·.1)).Sublist (h.map (·.1)) ∧
    ((∀ p ∈ h, fits cfg p.2 ∧ growFails p.2 = false) → ∀ q ∈ (project eqv a n m ρ h outs).1, fits cfg q.2 ∧ growFails q.2 = false ∧ q.2 ≠ .destroy)
  | [], _, _, _, _ => ⟨by simp [project], fun _ q hq => by simp [project] at hq⟩
  | (e, o) :: h, [], _, _, _ => ⟨by simp [project], fun _ q hq => by simp [project] at hq⟩
  | (e, o) :: h, out :: outs, n, m, ρ => by
    simp only [project]
    cases ho : onlyAbout eqv a ρ o with
    | none =>
      have ih := project_mem (cfg := cfg) (eqv := eqv) (a := a) h outs (if numbered out then n + 1 else n) m ρ
      exact ⟨ih.1.trans (List.sublist_cons_self _ _), fun hh => ih.2 (fun p hp => hh p (List.mem_cons_of_mem _ hp))⟩
    | some o' =>
      have ih := project_mem (cfg := cfg) (eqv := eqv) (a := a) h outs (if numbered out then n + 1 else n) (if numbered out then m + 1 else m)
        (if numbered out then (n, m) :: ρ else ρ)
      refine ⟨ih.1.cons_cons e, fun hh q hq => ?_⟩
      rcases List.mem_cons.1 hq with rfl | hq
      · have k := onlyAbout_kind (cfg := cfg) ho
        have := hh _ (List.mem_cons_self ..)
        exact ⟨k.1 this.1, k.2.1.trans this.2, k.2.2⟩
      · exact ih.2 (fun p hp => hh p (List.mem_cons_of_mem _ hp)) q hq

/-- C89: on a cache without size limit and refresh, with any resolver, any age limits: leaving out of a history all calls that are not about `a`
(those naming other keys, and the completions of their lookups) changes nothing of what the remaining calls show: their results, the calls of the
resolver, and who is told which result when.  Only the numbers that lookups carry are smaller. -/
theorem C89_other_keys_can_be_left_out (cfg : Cfg K) (hc : cfg.Ok) (hs : cfg.maxSize = none) (hr : cfg.refresh = none) (h : Hist K V E)
    (hok : HistOk cfg St.init h) (hm : Mono (h.map (·.1))) (hg : ∀ p ∈ h, growFails p.2 = false) (hd : ∀ p ∈ h, p.2 ≠ .destroy) (a : K) :
    outsOf cfg (project cfg.eqv a 0 0 [] h (outsOf cfg h)).1 = (project cfg.eqv a 0 0 [] h (outsOf cfg h)).2 := by
  have hf := (histOk_fits h St.init rfl hd).1 hok
  have q := project_mem (cfg := cfg) (eqv := cfg.eqv) (a := a) h (outsOf cfg h) 0 0 []
  have q2 := q.2 (fun p hp => ⟨hf p hp, hg p hp⟩)
  have hd' : ∀ p ∈ (project cfg.eqv a 0 0 [] h (outsOf cfg h)).1, p.2 ≠ .destroy := fun p hp => (q2 p hp).2.2
  have e1 := C87_without_size_limit cfg hc hs hr h hok hm hg hd
  have e2 := C87_without_size_limit cfg hc hs hr _ ((histOk_fits _ St.init rfl hd').2 (fun p hp => (q2 p hp).1)) (hm.sublist q.1)
    (fun p hp => (q2 p hp).2.1) hd'
  rw [e2, e1]
  have p0 : ProjTo cfg a [] ({} : Ref K V) {} :=
    ⟨(fun _ _ h => by cases h), (fun _ _ _ h => by cases h), .nil, .nil, fun _ _ => trivial, (fun _ _ _ h => by cases h), (fun _ _ h => by cases h),
      (fun _ _ h => by cases h), (fun _ h => by cases h), (fun _ h => by cases h), rfl, rfl⟩
  exact proj_run hc h p0 hd

/-- Lookups for keys 1 and 2 overlap; the value of 2 grows too old in between. -/
def twoLookups : Hist Nat Nat Nat :=
  [(at_ 0, .asyncGet 1 70 .later), (at_ 0, .emplace 2 20 .none), (at_ 6, .asyncGet 2 80 .later), (at_ 6, .asyncGet 1 71 .later), (at_ 7, .asyncGet 2 81 .later),
   (at_ 7, .complete 0 (.ok 10)), (at_ 8, .complete 2 (.ok 21)), (at_ 8, .asyncGet 2 82 .later), (at_ 9, .count), (at_ 9, .clear), (at_ 9, .getIfExists 2)]

/-- The conditions are met.  Of the eleven calls seven are about key 2; lookup 2 becomes lookup 1; both listeners are told 21. -/
example : agedAsync.Ok ∧ agedAsync.maxSize = none ∧ agedAsync.refresh = none ∧ HistOk agedAsync St.init twoLookups ∧ Mono (twoLookups.map (·.1)) ∧
    (∀ p ∈ twoLookups, growFails p.2 = false ∧ p.2 ≠ .destroy) ∧
    (project agedAsync.eqv 2 0 0 [] twoLookups (outsOf agedAsync twoLookups)).1 =
      [(at_ 0, .emplace 2 20 .none), (at_ 6, .asyncGet 2 80 .later), (at_ 7, .asyncGet 2 81 .later), (at_ 8, .complete 1 (.ok 21)), (at_ 8, .asyncGet 2 82 .later),
       (at_ 9, .clear), (at_ 9, .getIfExists 2)] ∧
    (project agedAsync.eqv 2 0 0 [] twoLookups (outsOf agedAsync twoLookups)).2.map (fun o => (o.ret, o.fired, o.calls)) =
      [(.unit, [], []), (.unit, [], [(2, 1)]), (.unit, [], []), (.bool true, [(80, .ok 21), (81, .ok 21)], []), (.unit, [(82, .ok 21)], []), (.unit, [], []), (.miss, [], [])] :=
  ⟨nat_ok rfl (by intro d i h; cases h), rfl, rfl, by decide, mono_at [0, 0, 6, 6, 7, 7, 8, 8, 9, 9, 9] (by decide), by simp [twoLookups, growFails], by rfl, by decide⟩

/-- With a size limit it is not so: another key takes the only place. -/
example : (outsOf { agedAsync with maxSize := some 1 } ([(at_ 0, .emplace 1 10 .none), (at_ 1, .emplace 2 20 .none), (at_ 2, .getIfExists 2)] : Hist Nat Nat Nat)).map (·.ret) =
      [.unit, .unit, .miss] ∧
    (outsOf { agedAsync with maxSize := some 1 } ([(at_ 1, .emplace 2 20 .none), (at_ 2, .getIfExists 2)] : Hist Nat Nat Nat)).map (·.ret) = [.unit, .val 20] := by
  decide

end Hoard.Props
