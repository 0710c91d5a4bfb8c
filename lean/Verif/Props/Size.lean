import Verif.WithinLemmas
import Verif.Demo
/-! C04, C09, C10, C11, C31, C32, C51: size limit, eviction and weakening. -/
namespace Hoard.Props
open Spec Demo
variable {K V E : Type} {cfg : Cfg K}

/-! ### C04 -/

/-- C04, as far as it is true.  After `emplace(k, v)` any way of asking for `k` at
the same instant returns `v` from the cache, provided that the table then holds less
than twice as many entries as the size limit allows (without size limit: always).
What is missing to the full statement: entries that are dead but still in the table
count, and beyond that number the value emplaced last is itself evicted, see
`C04_emplaced_value_evicted_at_once`. -/
theorem C04_emplaced_value_is_retrievable_partial (hc : cfg.Ok) (hage : ∀ A, cfg.maxAge = some A → 0 < A) (h : Hist K V E)
    (hok : HistOk cfg St.init h) (env : Env V) (k : K) (v : V) (ho : (Op.emplace k v .none : Op K V E).ok cfg (stateAfter cfg h))
    (hsz : ∀ N, cfg.maxSize = some N → (stateAfter cfg (h ++ [(env, .emplace k v .none)])).size < 2 * N)
    (o : Op K V E) (ho2 : o.ok cfg (stateAfter cfg (h ++ [(env, .emplace k v .none)]))) (ha : Asks k o) :
    StoredAnswer cfg k v (h ++ [(env, .emplace k v .none)]) env o := by
  have g := good_any hc h hok env
  have g2 := good_any hc (h ++ [(env, .emplace k v .none)]) (by rw [HistOk_append]; exact ⟨hok, ho, trivial⟩) env
  have hp := emplace_peek hc g ho k v hage
  rw [stateAfter_snoc] at hsz
  rw [if_pos (.inl hsz)] at hp
  unfold StoredAnswer outAt
  rw [stateAfter_snoc] at ho2 g2 ⊢
  exact stored_of_peek hc g2.wf1 g2.wf2 hp ho2 ha

/-- A size limit of 2 is exceeded by the insertion, and the new value is found all the same. -/
example := C04_emplaced_value_is_retrievable_partial (cfg := { plain with maxSize := some 2, maxAge := some 5 }) (nat_ok rfl (by intro d i h; cases h)) (by intro A h; cases h; decide)
  ([(at_ 0, .emplace 0 10 .none), (at_ 0, .emplace 1 11 .none)] : Hist Nat Nat Nat) (by decide) (at_ 0) 2 12 (by decide)
  (by intro N h; cases h; decide) (.get 2 (.ok 0)) (by decide) rfl

/-- C04, the exact condition on a cache with a size limit `N`. -/
theorem C04_exact_condition (hc : cfg.Ok) (hage : ∀ A, cfg.maxAge = some A → 0 < A) (N : Nat) (hN : cfg.maxSize = some N) (h : Hist K V E)
    (hok : HistOk cfg St.init h) (env : Env V) (k : K) (v : V) (ho : (Op.emplace k v .none : Op K V E).ok cfg (stateAfter cfg h)) :
    (outAt cfg (h ++ [(env, .emplace k v .none)]) env (.getIfExists k)).ret =
      if (stateAfter cfg (h ++ [(env, .emplace k v .none)])).size < 2 * N ∨ (cfg.weaken = true ∧ cfg.ptr = true ∧ env.alive v = true)
      then .val v else .miss := by
  have g := good_any hc h hok env
  have hp := emplace_peek hc g ho k v hage
  unfold outAt
  rw [stateAfter_snoc]
  refine hp.trans ?_
  simp only [hN, Option.some.injEq, forall_eq']
  rfl

/-- A size limit of 1, where the new value is lost. -/
example := C04_exact_condition (cfg := { plain with maxSize := some 1 }) (nat_ok rfl (by intro d i h; cases h)) (by intro A h; cases h) 1 rfl
  ([(at_ 0, .emplace 0 10 .none)] : Hist Nat Nat Nat) (by decide) (at_ 0) 1 20 (by decide)

set_option maxRecDepth 4000 in
/-- C04 is false: with a size limit of one, the second value is lost at once; with a
limit of four, the eighth. -/
theorem C04_emplaced_value_evicted_at_once :
    (∃ h : Hist Nat Nat Nat, HistOk { plain with maxSize := some 1 } St.init h ∧
      (outAt { plain with maxSize := some 1 } (h ++ [(at_ 0, .emplace 1 20 .none)]) (at_ 0) (.getIfExists 1)).ret = .miss) ∧
    ∃ h : Hist Nat Nat Nat, HistOk { plain with maxSize := some 4, hash := fun k => k } St.init h ∧
      (outAt { plain with maxSize := some 4, hash := fun k => k } (h ++ [(at_ 0, .emplace 7 20 .none)]) (at_ 0) (.getIfExists 7)).ret = .miss :=
  ⟨⟨[(at_ 0, .emplace 0 10 .none)], by decide, by decide⟩,
   ⟨(List.range 7).map (fun i => (at_ 0, .emplace i i .none)), by decide, by decide⟩⟩

/-- The hypotheses of the positive statement are met beyond the limit. -/
example : (stateAfter { plain with maxSize := some 2, hash := fun k => k }
      (([(at_ 0, .emplace 0 10 .none), (at_ 0, .emplace 1 11 .none)] : Hist Nat Nat Nat) ++ [(at_ 0, .emplace 2 12 .none)])).size < 2 * 2 ∧
    2 < (stateAfter { plain with maxSize := some 2, hash := fun k => k }
      (([(at_ 0, .emplace 0 10 .none), (at_ 0, .emplace 1 11 .none)] : Hist Nat Nat Nat) ++ [(at_ 0, .emplace 2 12 .none)])).size := by decide

/-! ### C09 -/

/-- C09.  On a cache with size limit `N`, without weakening and without resolver,
after any history: `count()` is at most `N` (at any time), and no more than `N`
different keys are retrievable. -/
theorem C09_size_limit_bounds_live_entries (hc : cfg.Ok) (hw : cfg.weaken = false) (hr : cfg.resolver = .none) (N : Nat) (hN : cfg.maxSize = some N)
    (h : Hist K V E) (hok : HistOk cfg St.init h) (env : Env V) :
    (∃ n, (outAt cfg h env .count).ret = .num n ∧ n ≤ N) ∧
    ∀ ks : List K, ks.Pairwise (fun a b => cfg.eqv a b = false) → (∀ k ∈ ks, ∃ v, (outAt cfg h env (.getIfExists k)).ret = .val v) → ks.length ≤ N := by
  have hb := act_bounded hc hw hr hN h hok
  refine ⟨⟨_, rfl, Nat.le_trans (count_le_act env _ ((good_any hc h hok env).dq.noVoid trivial)) hb⟩, ?_⟩
  intro ks hd hf
  exact Nat.le_trans (keys_le hc (good_any hc h hok env) env ks hd hf) hb

/-- The bound is reached, by a history of twice as many insertions. -/
example : (outAt { plain with maxSize := some 3 }
    ([(at_ 0, .emplace 0 10 .none), (at_ 0, .emplace 1 11 .none), (at_ 1, .getOrEmplace 2 12 .none), (at_ 1, .get 1 (.ok 0)),
      (at_ 1, .emplace 4 14 .none), (at_ 2, .erase 0), (at_ 2, .emplace 5 15 .none), (at_ 3, .emplace 6 16 .none)] : Hist Nat Nat Nat) (at_ 4) .count).ret = .num 3 ∧
  HistOk { plain with maxSize := some 3 } St.init
    ([(at_ 0, .emplace 0 10 .none), (at_ 0, .emplace 1 11 .none), (at_ 1, .getOrEmplace 2 12 .none), (at_ 1, .get 1 (.ok 0)),
      (at_ 1, .emplace 4 14 .none), (at_ 2, .erase 0), (at_ 2, .emplace 5 15 .none), (at_ 3, .emplace 6 16 .none)] : Hist Nat Nat Nat) := by decide

/-! ### C10 -/

/-- A cache with size limit `N` and a synchronous resolver. -/
def resolving (N : Nat) : Cfg Nat := { plain with maxSize := some N, resolver := .sync }

theorem resolving_fills (N m : Nat) (env : Env Nat) :
    let h : Hist Nat Nat Nat := (List.range m).map (fun i => (env, .get i (.ok i)))
    HistOk (resolving N) St.init h ∧ WF1 (resolving N) (stateAfter (resolving N) h) ∧ Lasting (stateAfter (resolving N) h) ∧
    (stateAfter (resolving N) h).size = m ∧ (∀ e ∈ (stateAfter (resolving N) h).ents, e.key < m) ∧ (stateAfter (resolving N) h).destroyed = false := by
  induction m with
  | zero => exact ⟨trivial, wf1_init _, by simp [Lasting, St.init, St.ents], rfl, by simp [St.init, St.ents], rfl⟩
  | succ m ih =>
    obtain ⟨h1, h2, h3, h4, h5, h6⟩ := ih
    simp only [List.range_succ, List.map_append, List.map_cons, List.map_nil]
    have hc : (resolving N).Ok := nat_ok rfl (by intro d i h; cases h)
    have hnew : ∀ e : Entry Nat Nat Nat, e ∈ (stateAfter (resolving N) ((List.range m).map (fun i => (env, Op.get i (.ok i))))).ents → (resolving N).eqv e.key m = false := by
      intro e he
      have := h5 e he
      have : e.key ≠ m := by omega
      simpa [resolving, plain] using this
    obtain ⟨a1, a2, a3, a4, a5⟩ := get_adds (env := env) hc rfl rfl rfl h2 h3 m m hnew
    rw [stateAfter_snoc]
    refine ⟨by rw [HistOk_append]; exact ⟨h1, ⟨by simp [resolving], h6⟩, trivial⟩, a1, a2, by simp only [step]; omega, ?_, a5.trans h6⟩
    intro e he
    rcases a4 e he with h | ⟨e0, he0, h⟩
    · omega
    · have := h5 e0 he0; omega

/-- C10 is false: whatever the size limit `N`, a cache filled by its resolver grows
without bound. -/
theorem C10_resolver_ignores_the_limit (N m : Nat) (env : Env Nat) :
    ∃ h : Hist Nat Nat Nat, (∀ p ∈ h, ∃ k r, p.2 = .get k r) ∧ (resolving N).Ok ∧ HistOk (resolving N) St.init h ∧
      (outAt (resolving N) h env .count).ret = .num m := by
  obtain ⟨h1, _, h3, h4, _⟩ := resolving_fills N m env
  refine ⟨_, ?_, nat_ok rfl (by intro d i h; cases h), h1, ?_⟩
  · intro p hp
    obtain ⟨i, _, rfl⟩ := List.mem_map.1 hp
    exact ⟨_, _, rfl⟩
  · simp only [outAt, step]
    rw [h3.count, h4]

/-- C10, what remains: a `get` adds at most as many live entries as it makes calls of
the resolver (none if it is answered from the cache).  The bound `N` is missing. -/
theorem C10_get_adds_at_most_its_calls_partial (hc : cfg.Ok) (h : Hist K V E) (hok : HistOk cfg St.init h) (env : Env V) (o : Op K V E)
    (ho : o.ok cfg (stateAfter cfg h)) (hget : (∃ k r, o = .get k r) ∨ ∃ k w b, o = .asyncGet k w b) :
    ∃ n n', (outAt cfg h env .count).ret = .num n ∧ (outAt cfg (h ++ [(env, o)]) env .count).ret = .num n' ∧
      n' ≤ n + (outAt cfg h env o).calls.length ∧ (outAt cfg h env o).calls.length ≤ 1 := by
  refine ⟨_, _, rfl, rfl, ?_, ?_⟩
  · rw [stateAfter_snoc]
    exact lookup_count hc (good_any hc h hok env) o ho hget
  · unfold outAt
    rcases hget with ⟨k, r, rfl⟩ | ⟨k, w, b, rfl⟩
    · rcases (get_ok hc (good_any hc h hok env) ho.2 ho.1 k r).2 with ⟨u, _, _, h1⟩ | ⟨⟨_, h1, _⟩ | ⟨_, h1, _⟩, _⟩ <;> simp only [step] <;> rw [show (get cfg env _ k r).2.calls = _ from h1] <;> simp
    · rcases (asyncGet_ok hc (good_any hc h hok env) ho.2 ho.1 k w b).2.2.2 with ⟨u, _, h1, _⟩ | ⟨⟨_, h1, _⟩, _⟩ | ⟨h1, _⟩ <;> simp only [step] <;> rw [show (asyncGet cfg env _ k w b).2.calls = _ from h1] <;> simp

/-- A get that has to ask the resolver although the limit is reached. -/
example := C10_get_adds_at_most_its_calls_partial (cfg := resolving 1) (nat_ok rfl (by intro d i h; cases h)) ([(at_ 0, .get 1 (.ok 2))] : Hist Nat Nat Nat) (by decide) (at_ 1) (.get 2 (.ok 3))
  (by decide) (.inl ⟨2, .ok 3, rfl⟩)

/-! ### C11 -/

/-- C11.  As long as the table never held more than `N` entries, a value written and
neither overwritten nor removed since is returned unless it got too old (or was unused
for too long): it was not evicted. -/
theorem C11_no_eviction_within_limit (hc : cfg.Ok) (N : Nat) (hN : cfg.maxSize = some N) (h1 h2 : Hist K V E) (e1 : Env V) (o1 : Op K V E)
    (hok : HistOk cfg St.init (h1 ++ (e1, o1) :: h2)) (hin : WithinH cfg N (h1 ++ (e1, o1) :: h2)) (k : K) (v : V)
    (hw : WritesAt cfg k v h1 e1 o1) (hk : Kept cfg k (h1 ++ [(e1, o1)]) h2) (env : Env V)
    (hm : Mono ((h1 ++ (e1, o1) :: h2).map (·.1) ++ [env]))
    (hage : ∀ A, cfg.maxAge = some A → Younger cfg.wall A e1.now env.now)
    (hidle : reached env.now ((ledgerAfter cfg (h1 ++ (e1, o1) :: h2)).idleLimit cfg.refresh k) = false)
    (o : Op K V E) (ho : o.ok cfg (stateAfter cfg (h1 ++ (e1, o1) :: h2))) (ha : Asks k o) :
    StoredAnswer cfg k v (h1 ++ (e1, o1) :: h2) env o := by
  have hkf := kept_facts hk
  rw [ledgerAfter_snoc, (after_writes hw).2.1, (after_writes hw).1, show h1 ++ [(e1, o1)] ++ h2 = h1 ++ (e1, o1) :: h2 by simp] at hkf
  have hin' : WithinH cfg.noWeak N (h1 ++ (e1, o1) :: h2) := by
    intro a b hab
    have hw : WithinH cfg N a := fun x y hxy => hin x (y ++ b) (by rw [hab, hxy]; simp)
    rw [stateAfter_nw hN a hw]
    exact hin a b hab
  have g := good_exact (cfg := cfg.noWeak) hc.noWeak _ (histOk_nw hN _ hin hok) env hm (noEvictH_of (cfg := cfg.noWeak) hN _ hin')
  rw [stateAfter_nw hN _ hin, ledgerAfter_nw hN _ hin] at g
  have hp : (getIfExists cfg env (stateAfter cfg (h1 ++ (e1, o1) :: h2)) k).ret = .val v := by
    have hpe : getIfExists cfg.noWeak env (stateAfter cfg (h1 ++ (e1, o1) :: h2)) k = getIfExists cfg env (stateAfter cfg (h1 ++ (e1, o1) :: h2)) k := by
      simp only [getIfExists, peekWalk_nw]; rfl
    rw [← hpe]
    rcases (getIfExists_ok hc.noWeak g k).2 with ⟨u, hu, hv, _⟩ | ⟨_, hd⟩
    · rw [hkf.1] at hv; cases hv; exact hu
    · exfalso
      rcases hd trivial v hkf.1 with hd | hd | hd
      · simp only [Ledger.ageLimit] at hd
        cases hA : cfg.maxAge with
        | none => rw [show cfg.noWeak.maxAge = none from hA] at hd; cases hd
        | some A =>
          rw [show cfg.noWeak.maxAge = some A from hA, hkf.2.1] at hd
          have := hage A hA
          exact (not_past _ _ _ _).2 this hd
      · have hd' : reached env.now ((ledgerAfter cfg (h1 ++ (e1, o1) :: h2)).idleLimit cfg.refresh k) = true := hd
        rw [hidle] at hd'; cases hd'
      · have : cfg.noWeak.weaken = true := hd.2.1
        cases this
  have g0 := good_any hc _ hok env
  exact stored_of_peek hc g0.wf1 g0.wf2 hp ho ha

/-- C11, the hypothesis in terms of the calls made: a cache without asynchronous
resolver and refreshing into which only keys from a list of at most `N` keys are
stored never holds more than `N` entries. -/
theorem C11_few_keys_stay_within_limit (hc : cfg.Ok) (hr : cfg.resolver ≠ .async) (hf : cfg.refresh = none) (N : Nat) (ks : List K) (hN : ks.length ≤ N)
    (h : Hist K V E) (hok : HistOk cfg St.init h) (hk : ∀ p ∈ h, ∀ k ∈ p.2.keys, k ∈ ks) : WithinH cfg N h :=
  within_of_keys hc hr hf ks hN h hok hk

/-- The limit is 3, and three keys are used; one of them is found much later. -/
example := C11_no_eviction_within_limit (cfg := resolving 3) (nat_ok rfl (by intro d i h; cases h)) 3 rfl
  ([(at_ 0, .emplace 0 10 .none), (at_ 0, .emplace 4 11 .none), (at_ 1, .erase 4)] : Hist Nat Nat Nat)
  [(at_ 2, .emplace 7 1 .none), (at_ 2, .emplace 0 1 .none)] (at_ 1) (.get 4 (.ok 44)) (by decide)
  (C11_few_keys_stay_within_limit (nat_ok rfl (by intro d i h; cases h)) (by decide) rfl 3 [0, 4, 7] (by decide) _ (by decide) (by decide)) 4 44 (by decide) (by decide) (at_ 9)
  (mono_at [0, 0, 1, 1, 2, 2, 9] (by decide)) (by intro A h; cases h) rfl (.get 4 (.ok 1)) (by decide) rfl

/-- A history of six operations on three keys with limit three, as required. -/
example : ∃ (h1 h2 : Hist Nat Nat Nat) (e1 : Env Nat) (o1 : Op Nat Nat Nat),
    HistOk (resolving 3) St.init (h1 ++ (e1, o1) :: h2) ∧
    (∀ p ∈ h1 ++ (e1, o1) :: h2, ∀ k ∈ p.2.keys, k ∈ [0, 4, 7]) ∧ WritesAt (resolving 3) 4 44 h1 e1 o1 ∧
    (outAt (resolving 3) (h1 ++ (e1, o1) :: h2) (at_ 9) (.get 4 (.ok 1))).ret = .val 44 :=
  ⟨[(at_ 0, .emplace 0 10 .none), (at_ 0, .emplace 4 11 .none), (at_ 1, .erase 4)],
   [(at_ 2, .emplace 7 1 .none), (at_ 2, .emplace 0 1 .none)], at_ 1, .get 4 (.ok 44), by decide, by decide,
   ⟨by decide, by decide, by decide⟩, by decide⟩

/-! ### C31, C32 -/

/-- C31.  With pointers and weakening, a value written and neither overwritten nor
removed since, whose object is alive and which is not too old, is returned by any way
of asking, whatever the size limit is and however far it is exceeded. -/
theorem C31_weakened_pointer_stays_available (hc : cfg.Ok) (hw : cfg.weaken = true) (hp : cfg.ptr = true) (h1 h2 : Hist K V E) (e1 : Env V)
    (o1 : Op K V E) (hok : HistOk cfg St.init (h1 ++ (e1, o1) :: h2)) (k : K) (v : V)
    (hwr : WritesAt cfg k v h1 e1 o1) (hk : Kept cfg k (h1 ++ [(e1, o1)]) h2) (env : Env V)
    (hm : Mono ((h1 ++ (e1, o1) :: h2).map (·.1) ++ [env])) (halive : env.alive v = true)
    (hage : ∀ A, cfg.maxAge = some A → Younger cfg.wall A e1.now env.now)
    (hidle : reached env.now ((ledgerAfter cfg (h1 ++ (e1, o1) :: h2)).idleLimit cfg.refresh k) = false)
    (o : Op K V E) (ho : o.ok cfg (stateAfter cfg (h1 ++ (e1, o1) :: h2))) (ha : Asks k o) :
    StoredAnswer cfg k v (h1 ++ (e1, o1) :: h2) env o := by
  have hkf := kept_facts hk
  rw [ledgerAfter_snoc, (after_writes hwr).2.1, (after_writes hwr).1, show h1 ++ [(e1, o1)] ++ h2 = h1 ++ (e1, o1) :: h2 by simp] at hkf
  have hno : ∀ (h : Hist K V E) (s : St K V E), NoEvictH cfg s h := by
    intro h
    induction h with
    | nil => exact fun s N _ => .inr ⟨hw, hp⟩
    | cons p h ih => exact fun s => ⟨fun N _ => .inr ⟨hw, hp⟩, ih _⟩
  have g := good_exact hc _ hok env hm (hno _ _)
  refine stored_of_peek hc g.wf1 g.wf2 ?_ ho ha
  rcases (getIfExists_ok hc g k).2 with ⟨u, hu, hv, _⟩ | ⟨_, hd⟩
  · rw [hkf.1] at hv; cases hv; exact hu
  · exfalso
    rcases hd trivial v hkf.1 with hd | hd | hd
    · simp only [Ledger.ageLimit] at hd
      cases hA : cfg.maxAge with
      | none => rw [hA] at hd; cases hd
      | some A =>
        rw [hA, hkf.2.1] at hd
        have := hage A hA
        exact (not_past _ _ _ _).2 this hd
    · rw [show reached env.now _ = false from hidle] at hd; cases hd
    · rw [show env.alive v = true from halive] at hd; cases hd.2.2.2

/-- A cache of pointers with a size limit of one and weakening. -/
def weakC : Cfg Nat := { plain with ptr := true, weaken := true, maxSize := some 1 }

/-- At time `t`, with the object `5` destroyed. -/
def without5 (t : Int) : Env Nat := { now := ⟨t, t⟩, alive := fun v => v != 5 }

/-- The hypotheses are met by a history far over the limit; the value asked for was
evicted (weakened) in between: were its object not alive, it would be missed. -/
example : ∃ (h1 h2 : Hist Nat Nat Nat) (e1 : Env Nat) (o1 : Op Nat Nat Nat), weakC.Ok ∧ HistOk weakC St.init (h1 ++ (e1, o1) :: h2) ∧
    WritesAt weakC 1 5 h1 e1 o1 ∧ Kept weakC 1 (h1 ++ [(e1, o1)]) h2 ∧ Mono ((h1 ++ (e1, o1) :: h2).map (·.1) ++ [at_ 3]) ∧
    (outAt weakC (h1 ++ (e1, o1) :: h2) (without5 3) (.get 1 (.ok 9))).ret = .miss ∧
    (outAt weakC (h1 ++ (e1, o1) :: h2) (at_ 3) (.get 1 (.ok 9))).ret = .val 5 := by
  refine ⟨[(at_ 0, .emplace 0 4 .none)], [(at_ 2, .emplace 2 6 .none), (at_ 2, .emplace 3 7 .none)], at_ 1, .emplace 1 5 .none,
    nat_ok rfl (by intro d i h; cases h), by decide, ⟨by decide, rfl, by decide⟩, ?_, mono_at [0, 1, 2, 2, 3] (by decide), by decide, by decide⟩
  intro a env o b hab
  rcases a with _ | ⟨x, _ | ⟨y, _ | ⟨z, a⟩⟩⟩ <;> simp at hab
  · obtain ⟨⟨rfl, rfl⟩, rfl⟩ := hab
    simp [ChangesAt, Ledger.Changes, weakC, plain]
  · obtain ⟨rfl, ⟨rfl, rfl⟩, rfl⟩ := hab
    simp [ChangesAt, Ledger.Changes, weakC, plain]

/-- C32.  No lookup returns a dangling pointer: an object returned from the cache has
an owner elsewhere or is owned by the cache at that moment. -/
theorem C32_never_dangling (hc : cfg.Ok) (h : Hist K V E) (hok : HistOk cfg St.init h) (env : Env V) (o : Op K V E)
    (ho : o.ok cfg (stateAfter cfg h)) (k : K) (v : V) (ha : StoredAnswer cfg k v h env o) : Owns (stateAfter cfg h) v ∨ env.alive v = true := by
  have g := good_any hc h hok env
  obtain ⟨_, hp⟩ := peek_of_stored hc g.wf1 g.wf2 ho ha.1 ha.2.1 ha.2.2
  obtain ⟨e, he, _, hx, hv⟩ := (peek_val hc g env k v).1 hp
  cases hm : e.mapped with
  | value u => rw [hm] at hv; cases hv; exact .inl ⟨e, he, hm⟩
  | weak u =>
    rw [hm] at hv; cases hv
    simp only [Entry.expired, hm, Mapped.expired, Bool.or_eq_false_iff] at hx
    exact .inr (by simpa using hx.1.1.1)
  | pending p => rw [hm] at hv; cases hv
  | gone => rw [hm] at hv; cases hv
  | error x => rw [hm] at hv; cases hv
  | void => rw [hm] at hv; cases hv

/-- C32, in the words of the property: once the cache has given up its reference
to an object and the object is destroyed, no lookup returns it from the cache. -/
theorem C32_weakened_and_destroyed_never_returned (hc : cfg.Ok) (h : Hist K V E) (hok : HistOk cfg St.init h) (env : Env V) (o : Op K V E)
    (ho : o.ok cfg (stateAfter cfg h)) (k : K) (v : V) (hweak : ¬ Owns (stateAfter cfg h) v) (hdead : env.alive v = false) :
    ¬ StoredAnswer cfg k v h env o := by
  intro ha
  rcases C32_never_dangling hc h hok env o ho k v ha with h1 | h1
  · exact hweak h1
  · rw [hdead] at h1; cases h1

/-- The object `5` is weakened, destroyed, and its entry is still in the table. -/
example : let h : Hist Nat Nat Nat := [(at_ 0, .emplace 0 4 .none), (at_ 1, .emplace 1 5 .none), (at_ 2, .emplace 2 6 .none), (at_ 2, .emplace 3 7 .none)]
    HistOk weakC St.init h ∧ ((stateAfter weakC h).ents.any (fun e => e.key == 1)) = true ∧
    ((stateAfter weakC h).ents.all (fun e => match e.mapped with | .value v => v != 5 | _ => true)) = true := by decide

/-! ### C51 -/

/-- C51.  A hit makes the cache an owner of the object again: after a `get`, synchronous or
asynchronous, that was answered with the stored object `v`, a cache with a size limit holds a strong
reference to `v`, even if it had been weakened before. -/
theorem C51_hit_takes_ownership (hc : cfg.Ok) (hm : cfg.maxSize.isSome = true) (h : Hist K V E) (hok : HistOk cfg St.init h) (env : Env V) (o : Op K V E)
    (ho : o.ok cfg (stateAfter cfg h)) (hg : (∃ k r, o = .get k r) ∨ ∃ k w b, o = .asyncGet k w b) (k : K) (v : V) (ha : StoredAnswer cfg k v h env o) :
    Owns (stateAfter cfg (h ++ [(env, o)])) v := by
  have g := good_any hc h hok env
  obtain ⟨e, he, _, h2, _⟩ := hit_strong hc g.wf1 hm hg ha.1 ha.2.1
  rw [stateAfter_snoc]
  exact ⟨e, he, h2⟩

/-- C51.  Hence after a hit it does not matter any more whether the object has other
owners: at once afterwards it is found also when everybody else has let go of it. -/
theorem C51_hit_survives_loss_of_owners (hc : cfg.Ok) (hm : cfg.maxSize.isSome = true) (h : Hist K V E) (hok : HistOk cfg St.init h) (env : Env V) (o : Op K V E)
    (ho : o.ok cfg (stateAfter cfg h)) (hg : (∃ k r, o = .get k r) ∨ ∃ k w b, o = .asyncGet k w b) (k : K) (v : V) (ha : StoredAnswer cfg k v h env o)
    (env' : Env V) (hnow : env'.now = env.now) :
    (outAt cfg (h ++ [(env, o)]) env' (.getIfExists k)).ret = .val v := by
  have g := good_any hc h hok env
  obtain ⟨e, he, h1, h2, h3⟩ := hit_strong hc g.wf1 hm hg ha.1 ha.2.1
  have g' := good_any hc (h ++ [(env, o)]) (by rw [HistOk_append]; exact ⟨hok, ho, trivial⟩) env'
  refine (peek_val hc g' env' k v).2 ⟨e, by rw [stateAfter_snoc]; exact he, h1, ?_, by simp [h2, Mapped.val?]⟩
  exact h3 env' hnow

/-- A weakened pointer that is found while somebody else keeps the object alive. -/
example := C51_hit_survives_loss_of_owners (cfg := weakC) (nat_ok rfl (by intro d i h; cases h)) rfl
  ([(at_ 0, .emplace 0 4 .none), (at_ 1, .emplace 1 5 .none), (at_ 2, .emplace 2 6 .none), (at_ 2, .emplace 3 7 .none)] : Hist Nat Nat Nat) (by decide) (at_ 3)
  (.get 1 (.ok 9)) (by decide) (.inl ⟨1, .ok 9, rfl⟩) 1 5 (by decide) (without5 3) rfl

/-- The object is weakened and alive at time 3, hit by a `get`, and found at the same time without any other
owner; without the hit it would not be found. -/
example : let h : Hist Nat Nat Nat := [(at_ 0, .emplace 0 4 .none), (at_ 1, .emplace 1 5 .none), (at_ 2, .emplace 2 6 .none), (at_ 2, .emplace 3 7 .none)]
    HistOk weakC St.init (h ++ [(at_ 3, .get 1 (.ok 9))]) ∧ (outAt weakC h (at_ 3) (.get 1 (.ok 9))).ret = .val 5 ∧
    (outAt weakC (h ++ [(at_ 3, .get 1 (.ok 9))]) (without5 3) (.getIfExists 1)).ret = .val 5 ∧
    (outAt weakC h (without5 3) (.getIfExists 1)).ret = .miss := by decide

/-! ### Applied -/

example := C09_size_limit_bounds_live_entries (cfg := { plain with maxSize := some 3 }) (nat_ok rfl (by intro d i h; cases h)) rfl rfl 3 rfl
  ([(at_ 0, .emplace 0 10 .none), (at_ 0, .emplace 1 11 .none), (at_ 1, .getOrEmplace 2 12 .none), (at_ 1, .emplace 4 14 .none)] : Hist Nat Nat Nat) (by decide) (at_ 4)

/-- The history of the example before `C32_never_dangling`: key 1 was weakened. -/
def weakHist : Hist Nat Nat Nat := [(at_ 0, .emplace 0 4 .none), (at_ 1, .emplace 1 5 .none), (at_ 2, .emplace 2 6 .none), (at_ 2, .emplace 3 7 .none)]

example := C31_weakened_pointer_stays_available (cfg := weakC) (nat_ok rfl (by intro d i h; cases h)) rfl rfl ([(at_ 0, .emplace 0 4 .none)] : Hist Nat Nat Nat) [(at_ 2, .emplace 2 6 .none), (at_ 2, .emplace 3 7 .none)]
  (at_ 1) (.emplace 1 5 .none) (by decide) 1 5 (by decide) (by decide) (at_ 3) (by exact mono_at [0, 1, 2, 2, 3] (by decide)) rfl (by intro A h; cases h) (by decide)
  (.get 1 (.ok 9)) (by decide) rfl
example := C32_never_dangling (cfg := weakC) (nat_ok rfl (by intro d i h; cases h)) weakHist (by decide) (at_ 3) (.get 1 (.ok 9)) (by decide) 1 5 (by decide)
example := C32_weakened_and_destroyed_never_returned (cfg := weakC) (nat_ok rfl (by intro d i h; cases h)) weakHist (by decide) (without5 3) (.get 1 (.ok 9)) (by decide) 1 5
  (by
    rintro ⟨e, he, hv⟩
    have h := List.all_eq_true.1 (show (stateAfter weakC weakHist).ents.all (fun e => match e.mapped with | .value v => v != 5 | _ => true) = true by decide) e he
    rw [hv] at h; cases h) rfl
example := C51_hit_takes_ownership (cfg := weakC) (nat_ok rfl (by intro d i h; cases h)) rfl weakHist (by decide) (at_ 3) (.get 1 (.ok 9)) (by decide) (.inl ⟨1, .ok 9, rfl⟩) 1 5 (by decide)

end Hoard.Props
