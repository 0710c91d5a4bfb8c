import Verif.ClockLemmas
import Verif.Props.Time
/-! # Setting the clock an age limit is measured on -/
namespace Hoard.Props
open Hoard Spec Demo
variable {K V E : Type}

/-! ## C69 -/

/-- The clock was never set forward during a history: measured against the steady
clock it only loses time.  It may be set back any number of times, and the two
clocks may show anything to begin with. -/
def NeverSetForward (h : Hist K V E) : Prop :=
  (h.map (fun p => p.1.now.wall - p.1.now.steady)).Pairwise (fun earlier later => later ≤ earlier)

/-- C69, first part.  Age limits measured on a clock that can be set, in the code a
limit on that clock and one of the same length on the steady clock.  As long as
the clock is never set forward, every operation of every history has the same
outcome as with limits on the steady clock alone: setting the clock back neither
prolongs the life of anything nor has any other effect.  All policies, all
histories; the steady clock itself is not assumed to be steady. -/
theorem C69_setting_back_has_no_effect (cfg : Cfg K) (h : Hist K V E) (hf : NeverSetForward h) :
    outsOf { cfg with wall := true } h = outsOf { cfg with wall := false } h := by
  obtain ⟨c0, hc0⟩ : ∃ c0, (c0 :: h.map (fun p => p.1.now.wall - p.1.now.steady)).Pairwise (fun a b => b ≤ a) := by
    cases h with
    | nil => exact ⟨0, by simp⟩
    | cons p h =>
      refine ⟨p.1.now.wall - p.1.now.steady, ?_⟩
      have hf' := hf
      simp only [NeverSetForward, List.map_cons, List.pairwise_cons] at hf'
      simp only [List.map_cons, List.pairwise_cons, List.mem_cons, forall_eq_or_imp]
      exact ⟨⟨Int.le_refl _, hf'.1⟩, hf'⟩
  exact Clock.ties_run (cfg := cfg) h c0 hc0 St.init rfl

/-- A limit of 5 on a clock that can be set, and a resolver. -/
def agedWall : Cfg Nat := { aged with wall := true, resolver := .sync }

/-- What the two clocks show. -/
def clocks (steady wall : Int) : Env V := ⟨⟨steady, wall⟩, fun _ => true⟩

/-- A value written at 1, when the clock showed 1001.  The clock is set back to 0:
the value is there at 5 on the steady clock and gone at 6. -/
example : NeverSetForward ([(clocks 1 1001, .emplace 0 9 .none), (clocks 5 0, .getIfExists 0), (clocks 6 1, .getIfExists 0)] : Hist Nat Nat Nat) ∧
    (outsOf agedWall ([(clocks 1 1001, .emplace 0 9 .none), (clocks 5 0, .getIfExists 0), (clocks 6 1, .getIfExists 0)] : Hist Nat Nat Nat)).map (·.ret)
      = [.unit, .val 9, .miss] := by
  constructor
  · simp [NeverSetForward, clocks]
  · decide

/-- C69, second part: where the clock is set forward it does make a difference.
The value is gone at once, though on the steady clock it is only 1 old.  And it is
not gone for good: when the clock is set right again the value is back, so what
C15 says needs a clock that is not set back. -/
theorem C69_setting_forward_hides_values :
    ∃ (h1 : Hist Nat Nat Nat) (e1 e2 : Env Nat), agedWall.Ok ∧ HistOk agedWall St.init (h1 ++ [(e1, .getIfExists 0)]) ∧
      (outAt { agedWall with wall := false } h1 e1 (.getIfExists 0)).ret = .val 9 ∧
      (outAt agedWall h1 e1 (.getIfExists 0)).ret = .miss ∧ e1.now.steady ≤ e2.now.steady ∧
      (outAt agedWall (h1 ++ [(e1, .getIfExists 0)]) e2 (.getIfExists 0)).ret = .val 9 :=
  ⟨[(clocks 1 1001, .emplace 0 9 .none)], clocks 2 5000, clocks 3 1003, nat_ok rfl (by intro d i h; cases h), by decide, by decide, by decide,
    by decide, by decide⟩

/-- C69, third part: unless the key is asked for with `get` or erased meanwhile
(here the resolver has the value 7): that removes the old value, and setting the
clock right does not bring it back. -/
theorem C69_unless_replaced :
    ∃ (h1 : Hist Nat Nat Nat) (e1 e2 : Env Nat), agedWall.Ok ∧ HistOk agedWall St.init (h1 ++ [(e1, .get 0 (.ok 7))]) ∧
      (outAt agedWall h1 e1 (.get 0 (.ok 7))).ret = .val 7 ∧ e1.now.steady ≤ e2.now.steady ∧
      (outAt agedWall (h1 ++ [(e1, .get 0 (.ok 7))]) e2 (.getIfExists 0)).ret = .val 7 :=
  ⟨[(clocks 1 1001, .emplace 0 9 .none)], clocks 2 5000, clocks 3 1003, nat_ok rfl (by intro d i h; cases h), by decide, by decide, by decide,
    by decide⟩

/-- C69, second part, in general: a value is gone as soon as the clock shows the time
at which it was written plus the limit, however it came to show that and however
little time has passed on the steady clock. -/
theorem C69_forward_hides {cfg : Cfg K} (hc : cfg.Ok) (A : Int) (hA : cfg.maxAge = some A) (hwall : cfg.wall = true) (h1 h2 : Hist K V E) (e1 : Env V) (o1 : Op K V E)
    (hok : HistOk cfg St.init (h1 ++ (e1, o1) :: h2)) (k : K) (v : V) (hw : WritesAt cfg k v h1 e1 o1) (hk : Kept cfg k (h1 ++ [(e1, o1)]) h2)
    (env : Env V) (hlate : e1.now.wall + A ≤ env.now.wall) : (outAt cfg (h1 ++ (e1, o1) :: h2) env (.getIfExists k)).ret = .miss := by
  have g := good_any hc _ hok env
  have hkf := kept_facts hk
  rw [ledgerAfter_snoc, (after_writes hw).2.1, (after_writes hw).1, show h1 ++ [(e1, o1)] ++ h2 = h1 ++ (e1, o1) :: h2 by simp] at hkf
  rcases (getIfExists_ok hc g k).2 with ⟨u, hu, hv, hl, _⟩ | ⟨hmiss, _⟩
  · have := (not_or.1 hl).1
    simp only [Ledger.ageLimit, hA, Option.map_some, hkf.2.1] at this
    have := ((not_past _ _ _ _).1 this).2 hwall
    omega
  · exact hmiss

/-- The clock is set forward while a value is 1 old. -/
example : (outAt agedWall ([(clocks 1 1001, .emplace 0 9 .none), (clocks 1 1001, .emplace 4 8 .none)] : Hist Nat Nat Nat) (clocks 2 5000) (.getIfExists 0)).ret = .miss :=
  C69_forward_hides (cfg := agedWall) (nat_ok rfl (by intro d i h; cases h)) 5 rfl rfl [] [(clocks 1 1001, .emplace 4 8 .none)] (clocks 1 1001) (.emplace 0 9 .none)
    (by decide) 0 9 (by decide) (by decide) (clocks 2 5000) (by decide)

/-- C69, third part, in general: looking with `get_if_exists` while the clock is wrong,
any number of times, for any keys and whatever the clocks show, changes nothing.  When
the clock is right again every operation has the outcome it has without them; in
particular values are back. -/
theorem C69_set_right_as_before (cfg : Cfg K) (h q : Hist K V E) (hq : ∀ p ∈ q, ∃ k, p.2 = .getIfExists k) (env : Env V) (o : Op K V E) :
    outAt cfg (h ++ q) env o = outAt cfg h env o := by
  have : stateAfter cfg (h ++ q) = stateAfter cfg h := by
    revert hq
    refine snoc_ind (P := fun q => (∀ p ∈ q, ∃ k, p.2 = .getIfExists k) → stateAfter cfg (h ++ q) = stateAfter cfg h) (by simp) ?_ q
    intro q p ih hq
    obtain ⟨k, hk⟩ := hq p (by simp)
    obtain ⟨e, o⟩ := p
    simp only at hk
    subst hk
    rw [← List.append_assoc, stateAfter_snoc]
    exact ih (fun p hp => hq p (by simp [hp]))
  unfold outAt
  rw [this]

/-- So with the conditions of C14, a value comes back exactly if its time is not over by the clocks as they are now. -/
theorem C69_shown_again {cfg : Cfg K} (hc : cfg.Ok) (A : Int) (hA : cfg.maxAge = some A) (hidle : ∀ d i, cfg.refresh = some (d, i) → i = 0)
    (hweak : cfg.maxSize = none ∨ cfg.weaken = false ∨ cfg.ptr = false)
    (h1 h2 q : Hist K V E) (e1 : Env V) (o1 : Op K V E) (hok : HistOk cfg St.init (h1 ++ (e1, o1) :: h2))
    (hx : NoEvictH cfg St.init (h1 ++ (e1, o1) :: h2)) (k : K) (v : V)
    (hw : WritesAt cfg k v h1 e1 o1) (hk : Kept cfg k (h1 ++ [(e1, o1)]) h2) (hq : ∀ p ∈ q, ∃ k, p.2 = .getIfExists k) (env : Env V)
    (hm : Mono ((h1 ++ (e1, o1) :: h2).map (·.1) ++ [env])) :
    (outAt cfg (h1 ++ (e1, o1) :: h2 ++ q) env (.getIfExists k)).ret =
      if env.now.steady < e1.now.steady + A ∧ (cfg.wall = true → env.now.wall < e1.now.wall + A) then .val v else .miss := by
  rw [C69_set_right_as_before cfg _ q hq]
  exact C14_exact_window hc A hA hidle hweak h1 h2 e1 o1 hok hx k v hw hk env hm

/-- Gone while the clock is wrong, back when it is right. -/
example : (outAt agedWall ([(clocks 1 1001, .emplace 0 9 .none)] ++ [(clocks 2 5000, .getIfExists 0)] : Hist Nat Nat Nat) (clocks 3 1003) (.getIfExists 0)).ret = .val 9 :=
  C69_shown_again (cfg := agedWall) (nat_ok rfl (by intro d i h; cases h)) 5 rfl (by intro d i h; cases h) (.inl rfl) [] [] [(clocks 2 5000, .getIfExists 0)]
    (clocks 1 1001) (.emplace 0 9 .none) (by decide) (by decide) 0 9 (by decide) (by decide) (by intro p hp; simp at hp; exact ⟨0, by rw [hp]⟩) (clocks 3 1003)
    (by simp only [Mono, List.map_cons, List.map_nil, List.nil_append, List.cons_append, List.pairwise_pair]; exact ⟨by decide, by decide, fun _ h => h⟩)

end Hoard.Props
