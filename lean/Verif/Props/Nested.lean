import Verif.NestedOnce
import Verif.Props.Memory
/-!
# Properties: resolvers that use the cache (C57, C58, C59)

The model is `Verif.Nested`, the specification `Verif.Spec.Nested`.
-/
namespace Hoard.Nested
open Spec Demo
variable {K V E : Type} {cfg : Cfg K}

/-! ## Concrete histories -/

deriving instance DecidableEq for Ans

/-- Whether a step is possible, computed. -/
def okb (cfg : Cfg Nat) (n : NSt Nat Nat Nat) : Ev Nat Nat Nat → Bool
  | .get _ => decide (cfg.resolver = .sync) && !n.s.destroyed
  | .ret _ => !n.stack.isEmpty
  | .op (.get _ _) => false
  | .op (.tick r b) => decide ((Op.tick r b : Op Nat Nat Nat).ok cfg n.s) && n.stack.isEmpty
  | .op .destroy => decide ((Op.destroy : Op Nat Nat Nat).ok cfg n.s) && n.stack.isEmpty
  | .op o => decide (o.ok cfg n.s)

/-- Whether all steps of a history are possible, computed. -/
def nokb (cfg : Cfg Nat) : NSt Nat Nat Nat → NHist Nat Nat Nat → Bool
  | _, [] => true
  | n, (env, e) :: h => okb cfg n e && nokb cfg (next cfg env n e).1 h

theorem ok_of_okb {cfg : Cfg Nat} {n : NSt Nat Nat Nat} {e : Ev Nat Nat Nat} (h : okb cfg n e = true) : e.ok cfg n := by
  cases e with
  | get k => simpa [okb, Ev.ok] using h
  | ret r => simpa [okb, Ev.ok] using h
  | op o => cases o <;> simp_all [okb, Ev.ok]

theorem nok_of_nokb {cfg : Cfg Nat} : ∀ {h : NHist Nat Nat Nat} {n : NSt Nat Nat Nat}, nokb cfg n h = true → NOk cfg n h
  | [], _, _ => trivial
  | (_, _) :: _, _, hh => by
    simp only [nokb, Bool.and_eq_true] at hh
    exact ⟨ok_of_okb hh.1, nok_of_nokb hh.2⟩

/-- A cache without limits and with a resolver called inside `get`. -/
def memoN : Cfg Nat := { plain with resolver := .sync }

theorem memoN_ok : memoN.Ok := nat_ok rfl (by intro d i h; cases h)

theorem memoN_untimed : memoN.Untimed := ⟨rfl, rfl, .inl rfl⟩

/-- `get(3)`, with a resolver that computes Fibonacci numbers from the cache: it asks for 2 and for 1, and to
find 2 it asks for 1 and for 0. -/
def fib : NHist Nat Nat Nat :=
  [(at_ 0, .get 3), (at_ 0, .get 2), (at_ 0, .get 1), (at_ 0, .ret (.ok 1)), (at_ 0, .get 0), (at_ 0, .ret (.ok 0)), (at_ 0, .ret (.ok 1)),
   (at_ 0, .get 1), (at_ 0, .ret (.ok 2))]

/-- A resolver for 1 that asks the cache for 1 itself.  The inner call returns 10, the outer one 20. -/
def own : NHist Nat Nat Nat := [(at_ 0, .get 1), (at_ 0, .get 1), (at_ 0, .ret (.ok 10)), (at_ 0, .ret (.ok 20))]

example : (runN memoN {} fib).2 =
    [.called 3, .called 2, .called 1, .out { ret := .val 1 }, .called 0, .out { ret := .val 0 }, .out { ret := .val 1 },
     .out { ret := .val 1 }, .out { ret := .val 2 }] := by decide

/-! ## C57 -/

/-- C57.  Resolvers may call the cache.  As long as nothing is stored under a key while its resolver runs (by anything but that
resolver's own return), `get` at any depth of nesting either calls the resolver, or returns the current value of the key, not older
than the limits allow.  It is partial because without that condition it is false: `C57_own_key_result_is_ignored`. -/
theorem C57_nested_get_is_current_partial (hc : cfg.Ok) (hr : cfg.resolver = .sync) (h : NHist K V E) (hok : NOk cfg {} h) (hap : AllApart cfg {} h)
    (env : Env V) (k : K) (ho : (Ev.get k : Ev K V E).ok cfg (runN cfg {} h).1) (hk : Apart cfg.eqv (runN cfg {} h).1.stack (.get k : Ev K V E)) :
    (∃ v, ansAt cfg h env (.get k) = .out { ret := .val v } ∧ (ledgerAfterN cfg h).cur k = some v ∧
      env.now.past ((ledgerAfterN cfg h).ageLimit cfg.maxAge cfg.wall k) = false ∧ reached env.now ((ledgerAfterN cfg h).idleLimit cfg.refresh k) = false) ∨
    ansAt cfg h env (.get k) = .called k := by
  have g := (reachN_good (mo := False) (ex := False) hc hr (fun h => h.elim) h env hok hap (fun h => h.elim) (fun h => h.elim)).1
  rcases (nget_ok (M := ⟨False, False, env, True⟩) hc hr g k ho.2 hk).2 with ⟨v, h1, ⟨h2, h3, _⟩, _⟩ | ⟨h1, _⟩
  · refine .inl ⟨v, h1, h2, ?_, ?_⟩
    · cases hh : env.now.past ((ledgerAfterN cfg h).ageLimit cfg.maxAge cfg.wall k)
      · rfl
      · exact absurd (.inl hh) h3
    · cases hh : reached env.now ((ledgerAfterN cfg h).idleLimit cfg.refresh k)
      · rfl
      · exact absurd (.inr hh) h3
  · exact .inr h1

/-- C57, when the resolver is called: only if the key has no current value, or that is too old or its object is gone.  (For clocks that do not go back, and as long as nothing is
evicted.) -/
theorem C57_nested_get_asks_only_on_miss_partial (hc : cfg.Ok) (hr : cfg.resolver = .sync) (h : NHist K V E) (hok : NOk cfg {} h) (hap : AllApart cfg {} h)
    (env : Env V) (hm : Mono (h.map (·.1) ++ [env])) (hx : NoEvictN cfg {} h)
    (k : K) (ho : (Ev.get k : Ev K V E).ok cfg (runN cfg {} h).1) (hk : Apart cfg.eqv (runN cfg {} h).1.stack (.get k : Ev K V E))
    (hcall : ansAt cfg h env (.get k) = .called k) (v : V) (hv : (ledgerAfterN cfg h).cur k = some v) : DeadL cfg env (ledgerAfterN cfg h) k v := by
  have g := (reachN_good (mo := True) (ex := True) hc hr (fun _ => .inl trivial) h env hok hap (fun _ => hm) (fun _ => hx)).1
  rcases (nget_ok (M := ⟨True, True, env, True⟩) hc hr g k ho.2 hk).2 with ⟨v, h1, _⟩ | ⟨_, _, h3⟩
  · have h1 : ansAt cfg h env (.get k) = .out { ret := .val v } := h1
    rw [h1] at hcall; cases hcall
  · exact h3 trivial v hv

/-- C57 fails for resolvers that ask for their own key: after the outer resolver returned 20 the
current value is 20, but the cache holds two entries and `get` returns the 10 stored before. -/
theorem C57_own_key_result_is_ignored :
    memoN.Ok ∧ memoN.resolver = .sync ∧ NOk memoN {} own ∧
    (ansAt memoN (own.take 3) (at_ 0) (.ret (.ok 20)) = .out { ret := .val 20 }) ∧ (ledgerAfterN memoN own).cur 1 = some 20 ∧
    ansAt memoN own (at_ 0) (.get 1) = .out { ret := .val 10 } ∧ ansAt memoN own (at_ 0) (.op .count) = .out { ret := .num 2 } :=
  ⟨memoN_ok, rfl, nok_of_nokb (by decide), by decide, by decide, by decide, by decide⟩

/-- C57, without any condition on what resolvers do, in a cache without refreshing: a value that `get`, `get_if_exists` or `get_or_emplace` shows was stored under
an equal key: inserted, or returned by its resolver. -/
theorem C57_any_nesting_shows_stored_values (hc : cfg.Ok) (hr : cfg.resolver = .sync) (hf : cfg.refresh = none) (h : NHist K V E) (hok : NOk cfg {} h)
    (env : Env V) (e : Ev K V E) (k : K) (v : V) (hs : Shows k v e (ansAt cfg h env e)) : StoredBy cfg (h ++ [(env, e)]) k v :=
  shown_stored hc hr hf h hok env e k v hs

/-- C57, what that gives for recursive functions.  Let `P k v` say that `v` is a right value for `k`.  If everything stored is right provided that
everything the cache has shown before was right, then everything the cache shows is right, whatever the nesting. -/
theorem C57_memoised_function_is_right (hc : cfg.Ok) (hr : cfg.resolver = .sync) (hf : cfg.refresh = none) (P : K → V → Prop) (h : NHist K V E) (hok : NOk cfg {} h)
    (hres : ∀ h1 env e h2, h = h1 ++ (env, e) :: h2 →
      (∀ g1 env' e' g2, h1 = g1 ++ (env', e') :: g2 → ∀ k v, Shows k v e' (ansAt cfg g1 env' e') → P k v) →
      ∀ k v, Stores cfg.eqv (runN cfg {} h1).1.stack k v e (ansAt cfg h1 env e) → P k v) :
    ∀ h1 env e h2, h = h1 ++ (env, e) :: h2 → ∀ k v, Shows k v e (ansAt cfg h1 env e) → P k v := by
  have key : ∀ N, ∀ h1 env e h2, h1.length ≤ N → h = h1 ++ (env, e) :: h2 → ∀ k v, Shows k v e (ansAt cfg h1 env e) → P k v := by
    intro N
    induction N with
    | zero =>
      intro h1 env e h2 hl heq k v hs
      have hok1 : NOk cfg {} h1 := by obtain rfl : h1 = [] := by simpa using hl
                                      trivial
      obtain ⟨g1, env', e', g2, hg, hst⟩ := shown_stored hc hr hf h1 hok1 env e k v hs
      obtain rfl : h1 = [] := by simpa using hl
      cases g1 with
      | cons a g1 => simp at hg
      | nil =>
        simp only [List.nil_append, List.cons.injEq, Prod.mk.injEq] at hg
        obtain ⟨⟨rfl, rfl⟩, rfl⟩ := hg
        exact hres [] _ _ h2 heq (by intro g1 _ _ g2 hh; simp at hh) k v hst
    | succ N ih =>
      intro h1 env e h2 hl heq k v hs
      have hok1 : NOk cfg {} h1 := by
        rw [heq] at hok
        clear hs hres ih hl heq
        generalize ({} : NSt K V E) = n at hok ⊢
        induction h1 generalizing n with
        | nil => trivial
        | cons a h1 ih => obtain ⟨x, y⟩ := a; exact ⟨hok.1, ih _ hok.2⟩
      obtain ⟨g1, env', e', g2, hg, hst⟩ := shown_stored hc hr hf h1 hok1 env e k v hs
      have hlen := congrArg List.length hg
      simp only [List.length_append, List.length_cons, List.length_nil] at hlen
      refine hres g1 env' e' (g2 ++ h2) ?_ ?_ k v hst
      · rw [heq]
        have : h1 ++ (env, e) :: h2 = (h1 ++ [(env, e)]) ++ h2 := by simp
        rw [this, hg]; simp
      · intro f1 env2 e2 f2 hf1 k2 v2 hs2
        have hl2 := congrArg List.length hf1
        simp only [List.length_append, List.length_cons] at hl2
        refine ih f1 env2 e2 (f2 ++ (env', e') :: (g2 ++ h2)) (by omega) ?_ k2 v2 hs2
        rw [heq]
        have : h1 ++ (env, e) :: h2 = (h1 ++ [(env, e)]) ++ h2 := by simp
        rw [this, hg, hf1]; simp
  intro h1 env e h2 heq k v hs
  exact key h1.length h1 env e h2 (Nat.le_refl _) heq k v hs

/-- C57, agreement with the model without nesting: a `get` whose resolver does not touch the cache does, in its two steps, what the single step of `Verif.Cache` does. -/
theorem C57_flat_call_is_one_step (hr : cfg.resolver = .sync) (n : NSt K V E) (env : Env V) (k : K) (r : Res V E) :
    (∀ o, (next cfg env n (.get k)).2 = .out o → (next cfg env n (.get k)).1 = { n with s := (step cfg env n.s (.get k r)).1 } ∧ o = (step cfg env n.s (.get k r)).2) ∧
    ((next cfg env n (.get k)).2 = .called k →
      (next cfg env (next cfg env n (.get k)).1 (.ret r)).1 = { n with s := (step cfg env n.s (.get k r)).1 } ∧
      (next cfg env (next cfg env n (.get k)).1 (.ret r)).2 = .out { ret := (step cfg env n.s (.get k r)).2.ret }) := by
  generalize hgg : get_ cfg env n.s k false = g
  obtain ⟨s1, l⟩ := g
  by_cases hl : l = .none
  · subst hl
    rw [next_none hgg]
    refine ⟨fun o ho => (by cases ho), fun _ => ?_⟩
    simp only [next, step, get, hgg, hr]
    simp
  · rw [next_some hgg hl]
    refine ⟨fun o ho => ?_, fun ho => (by cases ho)⟩
    cases ho
    cases l with
    | none => exact absurd rfl hl
    | _ => simp [step, get, hgg, hr]

/-- The hypotheses of the theorems of C57 are met by `fib`, and by `get(2)` performed after it or in the middle of it. -/
example : NOk memoN {} fib ∧ Mono (fib.map (·.1) ++ [at_ 0]) ∧ NoEvictN memoN {} fib ∧
    (Ev.get 2 : Ev Nat Nat Nat).ok memoN (runN memoN {} fib).1 ∧ ansAt memoN fib (at_ 0) (.get 2) = .out { ret := .val 1 } ∧
    (ledgerAfterN memoN fib).cur 2 = some 1 ∧ (ledgerAfterN memoN (fib.take 4)).cur 2 = none ∧
    Shows 1 1 (.get 1 : Ev Nat Nat Nat) (ansAt memoN (fib.take 7) (at_ 0) (.get 1)) :=
  ⟨nok_of_nokb (by decide), mono_at (List.replicate 10 0) (by decide), noEvictN_unlimited rfl _ _, ok_of_okb (by decide), by decide, by decide, by decide, rfl, by decide⟩

/-! ## C58 -/

/-- C58.  In a cache without limits, where nothing is removed and no resolver fails, the resolver is called at most once for each key, whatever the nesting, as long as nothing is stored
under a key while its resolver runs.  It is partial because without that condition it is false: `C58_own_key_resolved_twice`. -/
theorem C58_each_key_resolved_once_partial (hc : cfg.Ok) (hr : cfg.resolver = .sync) (hs : cfg.maxSize = none) (hu : cfg.Untimed) (h : NHist K V E) (hok : NOk cfg {} h)
    (hap : AllApart cfg {} h) (hk : ∀ p ∈ h, p.2.retains) (k : K) : (runN cfg {} h).2.countP (Ans.callsFor cfg.eqv k) ≤ 1 :=
  (once_run hc hr hs hu h hok hap hk k).1

/-- C58, a condition that is easy to check: a resolver that inserts nothing, and asks only for keys below the one it resolves, stores nothing under a key that is being resolved. -/
theorem C58_descending_resolvers_are_apart (lt : K → K → Prop) (htr : ∀ a b c, lt a b → lt b c → lt a c)
    (hirr : ∀ a b, lt a b → cfg.eqv a b = false) (h : NHist K V E) (hd : Descends cfg lt {} h) : AllApart cfg {} h :=
  (apart_of_descends lt htr hirr h hd).1

/-- C58 fails for resolvers that ask for their own key. -/
theorem C58_own_key_resolved_twice :
    memoN.Ok ∧ memoN.resolver = .sync ∧ memoN.maxSize = none ∧ memoN.Untimed ∧ NOk memoN {} own ∧ (∀ p ∈ own, p.2.retains) ∧
    (runN memoN {} own).2.countP (Ans.callsFor memoN.eqv 1) = 2 :=
  ⟨memoN_ok, rfl, rfl, memoN_untimed, nok_of_nokb (by decide), by simp [own, Ev.retains], by decide⟩

/-- The hypotheses of C58 are met by `fib`, in which the resolver is called for four keys. -/
example : AllApart memoN {} fib ∧ (∀ p ∈ fib, p.2.retains) ∧ (runN memoN {} fib).2.countP (Ans.callsFor memoN.eqv 1) = 1 ∧
    (runN memoN {} fib).2.countP (fun a => (List.range 4).any (fun k => a.callsFor memoN.eqv k)) = 4 := by
  refine ⟨?_, by simp [fib, Ev.retains], by decide, by decide⟩
  refine C58_descending_resolvers_are_apart (· < ·) (fun _ _ _ => Nat.lt_trans) ?_ _ ?_
  · intro a b hab; simp [memoN, plain]; omega
  · simp only [Descends, fib, Lower]
    decide

/-! ## C59 -/

/-- C59.  Whatever resolvers do with the cache, at any depth of nesting, the pointer-level cache of `Verif.Machine` never reads freed memory or follows a null pointer: the history
runs to its end, with the answers of the abstract cache. -/
theorem C59_nested_calls_memory_safe (hr : cfg.resolver = .sync) (obj : Nat → Entry K V E) (h : NHist K V E) (hok : NOk cfg {} h) :
    ∃ p, prunN cfg (PSt.init obj) [] h = some (p, (runN cfg {} h).1.stack, (runN cfg {} h).2) := by
  obtain ⟨p, bs, e, _⟩ := prunN_sim (n := {}) hr h (psim_init cfg obj) rfl hok
  exact ⟨p, e⟩

/-- The hypotheses of C59 are met by a resolver that does what it likes: it asks for its own key, inserts it, removes it, and clears the cache. -/
example : NOk memoN {} ([(at_ 0, .get 1), (at_ 0, .get 1), (at_ 0, .op (.emplace 1 5 .none)), (at_ 0, .op (.erase 1)), (at_ 0, .ret (.ok 10)),
    (at_ 0, .op .clear), (at_ 0, .ret (.err 20)), (at_ 0, .get 1)] : NHist Nat Nat Nat) := nok_of_nokb (by decide)

end Hoard.Nested
