import Verif.Futures
import Verif.Spec.Futures
import Verif.Props.Symmetry
/-! # Values and errors as waiters get them: C107 -/
namespace Hoard.Props
open Spec Demo Futures
variable {K V E : Type} {cfg : Cfg K}

/-- C107.  A future shows the result with which its waiter is answered exactly if: it is a value, and an error made by default counts
as no error; or it is an error that counts as one. -/
theorem C107_right_iff (t : ErrT V E) (r : Res V E) :
    future t (args t r) = r ↔ match r with
      | .ok _ => t.isSet t.noError = false
      | .err e => t.isSet e = true := by
  cases r with
  | ok v => by_cases h : t.isSet t.noError = true <;> simp [args, future, h]
  | err e => by_cases h : t.isSet e = true <;> simp [args, future, h]

/-- C107 is false in general, for every type of errors: there is a result that futures do not show. -/
theorem C107_some_result_is_lost (t : ErrT V E) : ∃ r, future t (args t r) ≠ r := by
  cases h : t.isSet t.noError with
  | true => exact ⟨.ok t.noValue, fun q => by rw [C107_right_iff] at q; simp [h] at q⟩
  | false => exact ⟨.err t.noError, fun q => by rw [C107_right_iff] at q; simp [h] at q⟩

/-- Nor can a handler that gets both tell: it gets the same for two different results. -/
theorem C107_handlers_cannot_tell (t : ErrT V E) : ∃ r r' : Res V E, r ≠ r' ∧ args t r = args t r' :=
  ⟨.ok t.noValue, .err t.noError, by simp, rfl⟩

/-- C107.  If a lookup fails with an error that does not count as one, each of its waiters gets a value that nobody has provided. -/
theorem C107_null_error_is_a_value (t : ErrT V E) (h : Hist K V E) (env : Env V) (tok : Nat) (e : E) (he : t.isSet e = false) (w : Nat) (r : Res V E)
    (hw : (w, r) ∈ futures t [outAt cfg h env (.complete tok (.err e))]) : r = .ok t.noValue := by
  simp only [futures, List.flatMap_cons, List.flatMap_nil, List.append_nil, List.mem_map] at hw
  obtain ⟨⟨u, x⟩, hx, hq⟩ := hw
  cases hq
  have : x = .err e := by
    simp only [outAt, step, complete] at hx
    split at hx
    · split at hx
      · simp at hx
      · simp only [List.mem_map] at hx
        obtain ⟨_, _, q⟩ := hx
        cases q; rfl
    · simp at hx
  subst this
  simp [args, future, he]

theorem lift_hist {P : E → Prop} : ∀ (h : Hist K V E), (∀ e ∈ errorsIn h, P e) →
    ∃ h0 : Hist K V { e // P e }, Renaming.HistOf { key := id, val := id, err := Subtype.val } h0 h
  | [], _ => ⟨[], .nil⟩
  | (env, o) :: h, he => by
    obtain ⟨h0, hh⟩ := lift_hist h (fun e q => he e (by simp only [errorsIn, List.flatMap_cons, List.mem_append]; exact .inr q))
    have hr : ∀ r : Res V E, (∀ e ∈ resErrs r, P e) → ∃ r0 : Res V { e // P e }, Renaming.res { key := (id : K → K), val := id, err := Subtype.val } r0 = r := by
      intro r hr
      cases r with
      | ok v => exact ⟨.ok v, rfl⟩
      | err e => exact ⟨.err ⟨e, hr e (by simp [resErrs])⟩, rfl⟩
    have hb : ∀ b : Beh V E, (∀ e ∈ behErrs b, P e) → ∃ b0 : Beh V { e // P e }, Renaming.beh { key := (id : K → K), val := id, err := Subtype.val } b0 = b := by
      intro b hb
      cases b with
      | later => exact ⟨.later, rfl⟩
      | drop => exact ⟨.drop, rfl⟩
      | now r => obtain ⟨r0, q⟩ := hr r hb; exact ⟨.now r0, congrArg Beh.now q⟩
    have ho : ∃ o0 : Op K V { e // P e }, Renaming.op { key := (id : K → K), val := id, err := Subtype.val } o0 = o := by
      have ho : ∀ e ∈ opErrs o, P e := fun e q => he e (by simp only [errorsIn, List.flatMap_cons, List.mem_append]; exact .inl q)
      cases o with
      | getIfExists k => exact ⟨.getIfExists k, rfl⟩
      | get k r => obtain ⟨r0, q⟩ := hr r ho; exact ⟨.get k r0, congrArg (Op.get k) q⟩
      | asyncGet k w b => obtain ⟨b0, q⟩ := hb b ho; exact ⟨.asyncGet k w b0, congrArg (Op.asyncGet k w) q⟩
      | emplace k v f => exact ⟨.emplace k v f, rfl⟩
      | getOrEmplace k v f => exact ⟨.getOrEmplace k v f, rfl⟩
      | erase k => exact ⟨.erase k, rfl⟩
      | clear => exact ⟨.clear, rfl⟩
      | count => exact ⟨.count, rfl⟩
      | complete x r => obtain ⟨r0, q⟩ := hr r ho; exact ⟨.complete x r0, congrArg (Op.complete x) q⟩
      | drop x => exact ⟨.drop x, rfl⟩
      | tick r b =>
        obtain ⟨r0, q⟩ := hr r (fun e q => ho e (List.mem_append_left _ q))
        obtain ⟨b0, q'⟩ := hb b (fun e q => ho e (List.mem_append_right _ q))
        exact ⟨.tick r0 b0, by simp only [Renaming.op, q, q']⟩
      | destroy => exact ⟨.destroy, rfl⟩
    obtain ⟨o0, ho⟩ := ho
    refine ⟨(env, o0) :: h0, ?_⟩
    rw [← ho]
    exact .cons ⟨by simp [Renaming.time], fun _ => rfl⟩ hh

/-- C107.  If an error made by default counts as none, and all errors with which resolvers answer count as errors, then all futures show what
their waiters are answered with: the results of the lookups (C21), in every history.  (Partial: without the
conditions it is false, see `C107_some_result_is_lost`.) -/
theorem C107_futures_right_partial (t : ErrT V E) (ht : t.isSet t.noError = false) (h : Hist K V E) (he : ∀ e ∈ errorsIn h, t.isSet e = true) :
    futures t (outsOf cfg h) = (outsOf cfg h).flatMap (·.fired) := by
  obtain ⟨h0, hh⟩ := lift_hist (P := fun e => t.isSet e = true) h he
  have h1 := (C81_values_are_opaque cfg id Subtype.val h0 h hh).2
  have h2 : ∀ p ∈ (outsOf cfg h).flatMap (·.fired), (fun p : Nat × Res V E => (p.1, future t (args t p.2))) p = id p := by
    intro p hp
    rw [h1] at hp
    simp only [List.mem_flatMap, List.mem_map] at hp
    obtain ⟨_, ⟨o, _, rfl⟩, hq⟩ := hp
    simp only [Renaming.out, List.mem_map] at hq
    obtain ⟨⟨w, r⟩, _, rfl⟩ := hq
    have : future t (args t (Renaming.res { key := (id : K → K), val := id, err := Subtype.val } r)) = Renaming.res { key := (id : K → K), val := id, err := Subtype.val } r := by
      rw [C107_right_iff]
      cases r with
      | ok v => exact ht
      | err e => exact e.2
    simp [this]
  unfold futures
  rw [List.map_congr_left h2, List.map_id]

/-! ## Examples -/

/-- Errors are numbers, as with `error_policy<int>`; 0 is no error. -/
def intErr : ErrT Nat Nat := ⟨0, 0, fun e => e != 0⟩

/-- Two waiters; the lookup fails with 5.  Both are told; so is one whose lookup fails at once. -/
example :
    let c : Cfg Nat := { plain with resolver := .async }
    let h : Hist Nat Nat Nat := [(at_ 0, .asyncGet 1 70 .later), (at_ 0, .asyncGet 1 71 .later), (at_ 1, .complete 0 (.err 5)), (at_ 2, .asyncGet 1 72 (.now (.err 3)))]
    HistOk c St.init h ∧ (∀ e ∈ errorsIn h, intErr.isSet e = true) ∧ intErr.isSet intErr.noError = false ∧
    futures intErr (outsOf c h) = [(70, .err 5), (71, .err 5), (72, .err 3)] := by decide +kernel

/-- It fails with 0: the waiters get the value 0, which nobody provided, and which `get_if_exists` does not find. -/
example :
    let c : Cfg Nat := { plain with resolver := .async }
    let h : Hist Nat Nat Nat := [(at_ 0, .asyncGet 1 70 .later), (at_ 0, .asyncGet 1 71 .later), (at_ 1, .complete 0 (.err 0)), (at_ 2, .asyncGet 1 72 (.now (.err 0)))]
    HistOk c St.init h ∧ futures intErr (outsOf c h) = [(70, .ok 0), (71, .ok 0), (72, .ok 0)] ∧
    (outAt c h (at_ 2) (.getIfExists 1)).ret = .miss := by decide +kernel

/-- Errors for which a default-made one counts as an error, such as pointers wrapped in a class without a test: every success is reported as a failure. -/
example : future (⟨0, 0, fun _ => true⟩ : ErrT Nat Nat) (args ⟨0, 0, fun _ => true⟩ (.ok 3)) = .err 0 := rfl

end Hoard.Props
