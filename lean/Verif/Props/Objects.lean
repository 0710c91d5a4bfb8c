import Verif.ObjectsLemmas
import Verif.Props.Construct
import Verif.Demo
/-!
# C71, C72: copies of a cache, and how long its contents live
-/
namespace Hoard.Props
open Hoard Spec Hoard.Objects Hoard.Construct Demo
variable {K V E τ α : Type} [DecidableEq τ] {lib : Lib K τ α}

/-! ## C71 -/

/-- C71.  However a program copies, moves, assigns and destroys cache objects: what
happened on a table, through whichever of them, is a possible history of a single
cache, and everything turned out exactly as it does there.  In particular no cache
is affected by what is done to others, nothing is called on a table after its
destruction, and all that is proved of single caches holds for caches with copies. -/
theorem C71_copies_are_one_cache (prog : List (Env V × Cmd K V E τ α)) (w : World K V E) (hp : execs lib {} prog = some w)
    (t : Nat) (cfg : Cfg K) (s : St K V E) (ht : w.tabs[t]? = some (cfg, s)) :
    HistOk cfg St.init (historyOf w t) ∧ outcomesOf w t = outsOf cfg (historyOf w t) :=
  have T := (Inv.execs prog _ w Inv.init hp).tab t cfg s ht
  ⟨T.ok, T.outs⟩

theorem var_untouched {env : Env V} {w w' : World K V E} {c : Cmd K V E τ α} {x : Nat} (hx : ¬ Touches x c) (h : exec lib env w c = some w') :
    w'.var x = w.var x := by
  cases c with
  | build y args =>
    simp only [exec] at h
    split at h
    · cases h; exact var_build_ne _ (fun e => hx e.symm)
    · cases h
  | make how y z =>
    have hy : x ≠ y := fun e => hx (Or.inl e.symm)
    simp only [exec] at h
    split at h
    · cases h; exact var_set_ne _ hy
    · rename_i hm
      cases h
      have hmv : how = .move := by
        cases how with
        | move => rfl
        | copyInit => simp [make] at hm
        | directConst => simp [make] at hm
        | direct => simp only [make, Option.map_eq_some_iff] at hm; obtain ⟨_, _, h⟩ := hm; cases h
      rw [var_set_ne _ hy, var_set_ne _ (fun e => hx (Or.inr ⟨hmv, e.symm⟩))]
    · cases h; exact var_build_ne _ hy
    · cases h
  | assign y z =>
    simp only [exec] at h
    split at h
    · cases h; rw [var_release, var_set_ne _ (fun e => hx e.symm)]
    · cases h
  | moveAssign y z =>
    simp only [exec] at h
    split at h
    · cases h
      split
      · rfl
      · rw [var_release, var_set_ne _ (fun e => hx (Or.inl e.symm)), var_set_ne _ (fun e => hx (Or.inr e.symm))]
    · cases h
  | destroy y =>
    simp only [exec] at h
    split at h
    · cases h; rw [var_release, var_unset_ne (fun e => hx e.symm)]
    · cases h
  | call y o =>
    simp only [exec] at h
    repeat' split at h
    all_goals first | (cases h; done) | (cases h; exact var_act _ _)
  | other t o =>
    simp only [exec] at h
    repeat' split at h
    all_goals first | (cases h; done) | (cases h; exact var_act _ _)

theorem vars_untouched {x : Nat} : ∀ (cs : List (Env V × Cmd K V E τ α)) (w w' : World K V E) (_ : ∀ p ∈ cs, ¬ Touches x p.2)
    (_ : execs lib w cs = some w'), w'.var x = w.var x
  | [], w, w', _, h => by cases h; rfl
  | (env, c) :: cs, w, w', hx, h => by
    simp only [execs] at h
    split at h
    · rename_i w1 h1
      rw [vars_untouched cs w1 w' (fun p hp => hx p (List.mem_cons_of_mem _ hp)) h, var_untouched (hx _ (List.mem_cons_self ..)) h1]
    · cases h

/-- C71: a copy made with `cache x = y`, or from a `const` cache, is as good as the
original.  As long as neither variable is given another meaning, whatever else the
program does, calling a member function of one is the same as calling it on the
other. -/
theorem C71_copies_act_alike_partial (env : Env V) (w0 w1 w : World K V E) (how : From) (hhow : how = .copyInit ∨ how = .directConst) (x y : Nat)
    (h1 : exec lib env w0 (.make how x y) = some w1) (prog : List (Env V × Cmd K V E τ α))
    (hx : ∀ p ∈ prog, ¬ Touches x p.2) (hy : ∀ p ∈ prog, ¬ Touches y p.2) (h2 : execs lib w1 prog = some w) (env' : Env V) (o : Op K V E) :
    exec lib env' w (.call x o) = exec lib env' w (.call y o) := by
  have hv : w1.var x = w1.var y := by
    simp only [exec] at h1
    have hm : make lib.types lib.policies lib.asArg how = some .shares := by rcases hhow with rfl | rfl <;> rfl
    rw [hm] at h1
    split at h1
    · rename_i v hx hy _
      cases h1
      have hne : y ≠ x := by rintro rfl; rw [hx] at hy; cases hy
      rw [var_set_self, var_set_ne _ hne, hy]
    · simp_all
    · simp_all
    · cases h1
  simp only [exec]
  rw [vars_untouched prog w1 w hx h2, vars_untouched prog w1 w hy h2, hv]

/-- C71: a cache built from arguments is a new one.  It is configured as the
arguments say (C70), it is empty, and no other cache shares its contents. -/
theorem C71_built_cache_is_new (prog : List (Env V × Cmd K V E τ α)) (w w' : World K V E) (hp : execs lib {} prog = some w)
    (env : Env V) (x : Nat) (args : List (Arg τ α)) (h : exec lib env w (.build x args) = some w') :
    ∃ t T, table lib.types lib.policies args = some T ∧ w'.var x = some (some t) ∧ w'.tabs[t]? = some (lib.conf T, St.init) ∧
      historyOf w' t = [] ∧ ∀ z, z ≠ x → w'.var z ≠ some (some t) := by
  have p := Inv.execs prog _ w Inv.init hp
  simp only [exec] at h
  split at h
  · rename_i T hx hm
    cases h
    have ht : (w.build x (lib.conf T)).tabs[w.tabs.length]? = some (lib.conf T, St.init) := by simp [World.build, World.set]
    refine ⟨w.tabs.length, T, hm, var_build_self .., ht, ?_, fun z hz hv => ?_⟩
    · have : ∀ e ∈ w.log, e.table ≠ w.tabs.length := fun e he hh => Nat.lt_irrefl _ (hh ▸ p.fresh e he)
      simp only [historyOf, World.build, World.set, List.map_eq_nil_iff, List.filter_eq_nil_iff, decide_eq_true_eq]
      exact this
    · rw [var_build_ne _ hz] at hv
      exact Nat.lt_irrefl _ (p.refs z _ (mem_of_var hv))
  · cases h

/-- C71 is false for `cache x(y)` where `y` is not `const`: `x` is another cache, without
contents and with policies made without arguments.  (If one of the policies needs an
argument it does not compile, see C70.) -/
theorem C71_direct_copy_is_another_cache (prog : List (Env V × Cmd K V E τ α)) (w w' : World K V E) (hp : execs lib {} prog = some w)
    (env : Env V) (x y : Nat) (h : exec lib env w (.make .direct x y) = some w') :
    ∃ t T, table lib.types lib.policies [lib.asArg] = some T ∧ w'.var x = some (some t) ∧ w'.tabs[t]? = some (lib.conf T, St.init) ∧
      ∀ z, z ≠ x → w'.var z ≠ some (some t) := by
  have p := Inv.execs prog _ w Inv.init hp
  simp only [exec] at h
  split at h
  · rename_i hm; simp only [make, Option.map_eq_some_iff] at hm; obtain ⟨_, _, h⟩ := hm; cases h
  · rename_i hm; simp only [make, Option.map_eq_some_iff] at hm; obtain ⟨_, _, h⟩ := hm; cases h
  · rename_i v T hx hy hm
    simp only [make, Option.map_eq_some_iff, Made.anew.injEq, exists_eq_right] at hm
    cases h
    refine ⟨w.tabs.length, T, hm, var_build_self .., by simp [World.build, World.set], fun z hz hv => ?_⟩
    rw [var_build_ne _ hz] at hv
    exact Nat.lt_irrefl _ (p.refs z _ (mem_of_var hv))
  · cases h

/-! ## C72 -/

def isDestroy : Op K V E → Bool
  | .destroy => true
  | _ => false

theorem destroy_count {cfg : Cfg K} (h : Hist K V E) (hok : HistOk cfg St.init h) :
    h.countP (fun p => isDestroy p.2) = if (stateAfter cfg h).destroyed then 1 else 0 := by
  induction h using snoc_ind with
  | h0 => rfl
  | h1 h p ih =>
    obtain ⟨env, o⟩ := p
    rw [HistOk_append] at hok
    have hok2 : o.ok cfg (stateAfter cfg h) := hok.2.1
    rw [List.countP_append, ih hok.1, stateAfter_snoc]
    by_cases hd : o = .destroy
    · subst hd
      have : (stateAfter cfg h).destroyed = false := hok2
      simp [this, isDestroy, step, destroy]
    · rw [step_destroyed cfg env _ o hd]
      have : isDestroy o = false := by cases o <;> simp_all [isDestroy]
      simp [this]

/-- C72.  In every program the contents of a cache are destroyed exactly once,
when the last of the objects that share them has let go (by destruction, by being
assigned to, or by passing them on), and not before. -/
theorem C72_contents_live_as_long_as_a_copy (prog : List (Env V × Cmd K V E τ α)) (w : World K V E) (hp : execs lib {} prog = some w)
    (t : Nat) (cfg : Cfg K) (s : St K V E) (ht : w.tabs[t]? = some (cfg, s)) :
    (∀ x, w.var x = some (some t) → (historyOf w t).countP (fun p => isDestroy p.2) = 0) ∧
    ((∀ x, w.var x ≠ some (some t)) → (historyOf w t).countP (fun p => isDestroy p.2) = 1) := by
  have p := Inv.execs prog _ w Inv.init hp
  have T := p.tab t cfg s ht
  rw [destroy_count _ T.ok, T.st]
  have hl := p.live t cfg s ht
  constructor
  · intro x hx
    rw [used_of_var hx] at hl
    rw [if_neg (by simpa using hl)]
  · intro hu
    rw [if_pos]
    rw [hl]
    rw [← Bool.not_eq_true, used_iff]
    rintro ⟨x, hx⟩
    refine hu x ?_
    cases hv : w.var x with
    | none =>
      unfold World.var at hv
      rw [List.lookup_eq_none_iff] at hv
      have := hv (x, some t) hx
      simp at this
    | some v => rw [val_unique p.keys (mem_of_var hv) hx]

/-- C72: a cache that has been moved from may be assigned to or destroyed.  Calling a
member function of it is undefined. -/
theorem C72_moved_from_is_unusable (env env' : Env V) (w0 w1 w : World K V E) (x y : Nat)
    (h1 : exec lib env w0 (.make .move x y) = some w1 ∨ (x ≠ y ∧ exec lib env w0 (.moveAssign x y) = some w1))
    (prog : List (Env V × Cmd K V E τ α)) (hy : ∀ p ∈ prog, ¬ Touches y p.2) (h2 : execs lib w1 prog = some w) (o : Op K V E) :
    exec lib env' w (.call y o) = none ∧ (exec lib env' w (.destroy y)).isSome := by
  have hv : w1.var y = some none := by
    rcases h1 with h1 | ⟨hne, h1⟩
    · simp only [exec] at h1
      split at h1
      · rename_i hm; simp [make] at hm
      · rename_i v hx hy _
        cases h1
        have hne : y ≠ x := by rintro rfl; rw [hx] at hy; cases hy
        rw [var_set_ne _ hne, var_set_self]
      · rename_i hm; simp [make] at hm
      · cases h1
    · simp only [exec] at h1
      split at h1
      · cases h1
        rw [if_neg hne, var_release, var_set_ne _ (fun e => hne e.symm), var_set_self]
      · cases h1
  have := vars_untouched prog w1 w hy h2
  rw [hv] at this
  simp [exec, this]

/-- A cache with the policies of the examples of C70, whose limits are given. -/
def someLib : Lib Nat Ty Nat where
  types := types
  policies := [.equal]
  conf := fun _ => plain
  asArg := ⟨.cache, 0⟩

/-- A program: `x = 0` is built, a value stored, `1` copied from it and `2` moved from that, another
value stored through `2`, and `0` destroyed; then `3` is made from `2` by `cache x(y)`. -/
def program : List (Env Nat × Cmd Nat Nat Nat Ty Nat) :=
  [(at_ 0, .build 0 []), (at_ 1, .call 0 (.emplace 5 50 .none)), (at_ 2, .make .copyInit 1 0), (at_ 3, .make .move 2 1),
   (at_ 4, .call 2 (.emplace 6 60 .none)), (at_ 5, .call 0 (.getIfExists 6)), (at_ 6, .destroy 0), (at_ 7, .call 2 (.getIfExists 5)),
   (at_ 8, .make .direct 3 2), (at_ 9, .call 3 (.getIfExists 5)), (at_ 9, .destroy 1), (at_ 10, .destroy 2)]

/-- Through `0` the value is seen that was stored through `2`; through `2` what was stored through `0`, which is gone; the
copy `3` has nothing.  Destroying `2`, the last one, destroys the first table, and not the one of `3`. -/
example : (execs someLib {} program).map (fun w => w.log.map (fun e => (e.table, e.out.ret))) =
    some [(0, .unit), (0, .unit), (0, .val 60), (0, .val 50), (1, .miss), (0, .unit)] := by decide

example : (execs someLib {} program).map (fun w => w.tabs.map (fun p => p.2.destroyed)) = some [true, false] := by decide

end Hoard.Props
