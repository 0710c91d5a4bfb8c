import Verif.LruLemmas
import Verif.Props.Recency
import Verif.Demo
/-!
# Properties: a cache with a size limit is a list in recency order (C48, C12)

The specification is in `Verif.Spec.Lru`.
-/
namespace Hoard.Props
open Spec Demo
variable {K V E : Type} {cfg : Cfg K}

/-- The calls as operations of the cache. -/
def calls (os : List (Env V × MapOp K V E)) : Hist K V E := os.map (fun p => (p.1, p.2.toOp))

theorem calls_ok (hk : cfg.resolver ≠ .async) (os : List (Env V × MapOp K V E)) :
    HistOk cfg St.init (calls os) ∧ (stateAfter cfg (calls os)).destroyed = false := by
  induction os using snoc_ind with
  | h0 => exact ⟨trivial, rfl⟩
  | h1 os p ih =>
    have e : calls (os ++ [p]) = calls os ++ [(p.1, p.2.toOp)] := by simp [calls]
    rw [e, stateAfter_snoc]
    refine ⟨by rw [HistOk_append]; exact ⟨ih.1, toOp_ok hk ih.2 p.2, trivial⟩, ?_⟩
    exact (step_destroyed cfg p.1 _ p.2.toOp (toOp_ne p.2)).trans ih.2

theorem lru_run {N : Nat} (hc : cfg.Ok) (hl : LruCfg cfg N) (os : List (Env V × MapOp K V E)) :
    ∃ l, LruRun cfg.eqv N (cfg.maxAge.map (·, cfg.wall)) (decide (cfg.resolver = .sync)) (os.map (fun p => (p.1.now, p.2)))
        ((outsOf cfg (calls os)).map visible) l ∧ Sim (stateAfter cfg (calls os)) l ∧ Flat (stateAfter cfg (calls os)) ∧ Distinct cfg.eqv l := by
  induction os using snoc_ind with
  | h0 => exact ⟨[], .nil, ⟨[], ⟨List.Perm.refl _, rfl⟩, rfl⟩, by intro e he; simp [calls, stateAfter, run, St.init, St.ents] at he, List.Pairwise.nil⟩
  | h1 os p ih =>
    obtain ⟨l, r, sm, f, d⟩ := ih
    have g := good_any hc (calls os) (calls_ok hl.sync os).1 p.1
    obtain ⟨l', h1, h2, h3⟩ := lru_step (env := p.1) hc hl g.wf1 g.wf2 f sm p.2
    have e : calls (os ++ [p]) = calls os ++ [(p.1, p.2.toOp)] := by simp [calls]
    refine ⟨l', ?_, ?_, ?_, h1.distinct hc.symm d⟩
    · rw [e, outsOf_snoc, List.map_append, List.map_append]
      exact .snoc r h1
    · rw [e, stateAfter_snoc]; exact h2
    · rw [e, stateAfter_snoc]; exact h3

/-- C48.  A cache with a size limit (with or without age limit and synchronous
resolver) behaves like a list in recency order: for every sequence of calls, all that is
visible of the calls is what a run of the list shows; the list has as many items as the cache has
entries, `count` is the number of live items, and no two items have equal keys. -/
theorem C48_recency_list {N : Nat} (hc : cfg.Ok) (hN : cfg.maxSize = some N) (hr : cfg.refresh = none) (hk : cfg.resolver ≠ .async)
    (hw : cfg.weaken = false ∨ cfg.ptr = false) (os : List (Env V × MapOp K V E)) :
    ∃ l, LruRun cfg.eqv N (cfg.maxAge.map (·, cfg.wall)) (decide (cfg.resolver = .sync)) (os.map (fun p => (p.1.now, p.2)))
        ((run cfg (St.init : St K V E) (os.map (fun p => (p.1, p.2.toOp)))).2.map visible) l ∧
      (∀ env : Env V, (outAt cfg (calls os) env .count).ret = .num (l.filter (Item.live env.now)).length) ∧
      l.length = (stateAfter cfg (calls os)).size ∧
      l.Pairwise (fun a b => cfg.eqv a.1 b.1 = false) := by
  obtain ⟨l, h1, ⟨es, ho, rfl⟩, h3, h4⟩ := lru_run hc ⟨hN, hr, hk, hw⟩ os
  refine ⟨_, h1, ?_, by simp [St.size, ho.perm.length_eq], h4.imp (fun h => h.1)⟩
  intro env
  show Ret.num (count env _) = _
  congr 1
  unfold count
  rw [List.filter_map, List.length_map, ← (ho.perm.filter _).length_eq]
  congr 1
  apply List.filter_congr
  intro e he
  rw [(h3 e (ho.perm.mem_iff.1 he)).expired env]
  simp

/-- A cache of at most three values. -/
def three : Cfg Nat := { plain with maxSize := some 3 }

/-- The same with an age limit and a resolver. -/
def threeM : Cfg Nat := { plain with maxSize := some 3, maxAge := some 10, resolver := .sync }

/-- The hypotheses of `C48_recency_list` can be met. -/
example : threeM.Ok ∧ threeM.maxSize = some 3 ∧ threeM.refresh = none ∧ threeM.resolver ≠ .async ∧ (threeM.weaken = false ∨ threeM.ptr = false) :=
  ⟨nat_ok rfl (by intro d i h; cases h), rfl, rfl, by decide, by decide⟩

/-- The specification tells hits from evictions: of four values the third, at the end of the recency order, is gone,
while the others are found. -/
example : (run three (St.init : St Nat Nat Nat) (([.emplace 1 10, .emplace 2 20, .get 1 (.ok 0), .emplace 3 30, .emplace 4 40, .getIfExists 1,
      .getIfExists 2, .getIfExists 3, .getIfExists 4] : List (MapOp Nat Nat Nat)).map (fun o => (at_ 0, o.toOp)))).2.map (·.ret) =
    [.unit, .unit, .val 10, .unit, .unit, .val 10, .miss, .val 30, .val 40] := by decide

/-- C12.  A value found by a lookup is not evicted by insertions of other keys, however many
there are, while few other values are used: let `u` be the number of lookups since that found some
other value; as long as the cache has at least `2 * (u + 1)` entries after each call, the value is still found. -/
theorem C12_hot_values_survive {N : Nat} (hc : cfg.Ok) (hN : cfg.maxSize = some N) (hr : cfg.refresh = none) (hk : cfg.resolver ≠ .async)
    (hw : cfg.weaken = false ∨ cfg.ptr = false) (hage : cfg.maxAge = none) (os1 os2 : List (Env V × MapOp K V E)) (e0 : Env V) (o : MapOp K V E) (k : K) (v : V)
    (hkey : (∃ r, o = .get k r) ∨ ∃ u, o = .getOrEmplace k u)
    (hfound : visible (outAt cfg (calls os1) e0 o.toOp) = (.val v, false, []))
    (hother : ∀ p ∈ os2, about cfg.eqv k p.2 = false)
    (hroom : ∀ p q, os2 = p ++ q →
      2 * (uses (p.map (·.2)) ((run cfg (stateAfter cfg (calls (os1 ++ [(e0, o)]))) (calls p)).2.map visible) + 1) ≤
        (stateAfter cfg (calls (os1 ++ [(e0, o)] ++ p))).size) (env : Env V) :
    (outAt cfg (calls (os1 ++ [(e0, o)] ++ os2)) env (.getIfExists k)).ret = .val v := by
  have hl : LruCfg cfg N := ⟨hN, hr, hk, hw⟩
  have csnoc : ∀ (os : List (Env V × MapOp K V E)) p, calls (os ++ [p]) = calls os ++ [(p.1, p.2.toOp)] := by intro os p; simp [calls]
  have simlen : ∀ {s : St K V E} {l : List (Item K V)}, Sim s l → l.length = s.size := by
    rintro s _ ⟨es, ho, rfl⟩; simp [St.size, ho.perm.length_eq]
  suffices H : ∀ p q, os2 = p ++ q → ∃ l k0, Sim (stateAfter cfg (calls (os1 ++ [(e0, o)] ++ p))) l ∧ Flat (stateAfter cfg (calls (os1 ++ [(e0, o)] ++ p))) ∧
      Distinct cfg.eqv l ∧ cfg.eqv k0 k = true ∧
      Within (k0, some (v, none)) (uses (p.map (·.2)) ((run cfg (stateAfter cfg (calls (os1 ++ [(e0, o)]))) (calls p)).2.map visible)) l by
    obtain ⟨l, k0, h1, h2, h3, h4, h5⟩ := H os2 [] (by simp)
    have g := good_any hc (calls (os1 ++ [(e0, o)] ++ os2)) (calls_ok hk _).1 env
    obtain ⟨l', h6, _, _⟩ := lru_step (env := env) hc hl g.wf1 g.wf2 h2 h1 (.getIfExists k)
    have h7 := look_within (now := env.now) h3 hc.trans hc.symm h5 rfl h4
    generalize hv : visible (step cfg env (stateAfter cfg (calls (os1 ++ [(e0, o)] ++ os2))) (MapOp.getIfExists k).toOp).2 = out at h6
    cases h6
    rw [h7] at hv
    exact congrArg (·.1) hv
  intro p
  induction p using snoc_ind with
  | h0 =>
    intro q hq
    obtain ⟨l, hrun, sm, f, d⟩ := lru_run hc hl os1
    have g := good_any hc (calls os1) (calls_ok hk os1).1 e0
    obtain ⟨l', h1, h2, h3⟩ := lru_step (env := e0) hc hl g.wf1 g.wf2 f sm o
    have hr0 := hroom [] os2 (by simp)
    simp only [List.append_nil] at hr0 ⊢
    rw [csnoc, stateAfter_snoc] at hr0 ⊢
    rw [← simlen h2] at hr0
    have hal : Ageless l' := by
      rw [hage] at hrun h1
      exact h1.ageless (lru_ageless hrun)
    have hout : visible (step cfg e0 (stateAfter cfg (calls os1)) o.toOp).2 = (.val v, false, []) := hfound
    rw [hout] at h1
    have hU : uses (([] : List (Env V × MapOp K V E)).map (·.2))
        ((run cfg (step cfg (e0, o).1 (stateAfter cfg (calls os1)) (e0, o).2.toOp).1 (calls [])).2.map visible) = 0 := rfl
    rw [hU] at hr0 ⊢
    have fin : ∀ {k0 : K} {tp : Option (Int × Option Int)}, cfg.eqv k0 k = true → Within (k0, some (v, tp)) 0 l' → ∃ l k0,
        Sim (step cfg (e0, o).1 (stateAfter cfg (calls os1)) (e0, o).2.toOp).1 l ∧ Flat (step cfg (e0, o).1 (stateAfter cfg (calls os1)) (e0, o).2.toOp).1 ∧
        Distinct cfg.eqv l ∧ cfg.eqv k0 k = true ∧ Within (k0, some (v, none)) 0 l := by
      intro k0 tp hk0 hwi
      have : tp = none := by
        obtain ⟨a, b, hab, _⟩ := hwi
        exact hal (k0, some (v, tp)) (by rw [hab]; simp) v tp rfl
      subst this
      exact ⟨l', k0, h2, h3, h1.distinct hc.symm d, hk0, hwi⟩
    rcases hkey with ⟨r, rfl⟩ | ⟨u, rfl⟩
    · generalize hg : ((.val v, false, []) : Ret V E × Bool × List K) = out at h1
      cases h1 with
      | hit a1 a2 =>
        cases hg
        obtain ⟨k0, tp, hk0, hwi⟩ := touch_within a1 a2
        exact fin hk0 hwi
      | miss => cases hg
      | resolve => cases hg
      | fail => cases hg
    · generalize hg : ((.val v, false, []) : Ret V E × Bool × List K) = out at h1
      cases h1 with
      | have_ a1 a2 =>
        cases hg
        obtain ⟨k0, tp, hk0, hwi⟩ := touch_within a1 a2
        rw [trim_length] at hr0
        exact fin hk0 (hwi.trim hr0)
      | make => cases hg
  | h1 p x ih =>
    intro q hq
    obtain ⟨l, k0, h1, h2, h3, h4, h5⟩ := ih (x :: q) (by simp [hq])
    have e : os1 ++ [(e0, o)] ++ (p ++ [x]) = (os1 ++ [(e0, o)] ++ p) ++ [x] := by simp
    have g := good_any hc (calls (os1 ++ [(e0, o)] ++ p)) (calls_ok hk _).1 x.1
    obtain ⟨l', h6, h7, h8⟩ := lru_step (env := x.1) hc hl g.wf1 g.wf2 h2 h1 x.2
    have hr1 := hroom (p ++ [x]) q hq
    have hlen : (p.map (·.2)).length = ((run cfg (stateAfter cfg (calls (os1 ++ [(e0, o)]))) (calls p)).2.map visible).length := by
      simp [run_len, calls]
    have ho : (run cfg (stateAfter cfg (calls (os1 ++ [(e0, o)]))) (calls (p ++ [x]))).2 =
        (run cfg (stateAfter cfg (calls (os1 ++ [(e0, o)]))) (calls p)).2 ++
          [(step cfg x.1 (stateAfter cfg (calls (os1 ++ [(e0, o)] ++ p))) x.2.toOp).2] := by
      rw [csnoc p x, run_append]
      have : stateAfter cfg (calls (os1 ++ [(e0, o)] ++ p)) = (run cfg (stateAfter cfg (calls (os1 ++ [(e0, o)]))) (calls p)).1 := by
        rw [← stateAfter_append]; simp [calls]
      rw [this]; rfl
    rw [e, csnoc (os1 ++ [(e0, o)] ++ p) x, stateAfter_snoc] at hr1 ⊢
    rw [ho, List.map_append, List.map_append, List.map_cons, List.map_cons, List.map_nil, List.map_nil, uses_snoc _ _ _ _ hlen] at hr1 ⊢
    rw [← simlen h7] at hr1
    refine ⟨l', k0, h7, h8, h6.distinct hc.symm h3, h4, h6.within h5 rfl ?_ hr1⟩
    have := hother x (by rw [hq]; simp)
    cases hx : x.2 with
    | clear => rw [hx] at this; cases this
    | emplace k' _ | get k' _ | getIfExists k' | getOrEmplace k' _ | erase k' =>
      rw [hx] at this
      show cfg.eqv k0 k' = false
      cases hh : cfg.eqv k0 k' with
      | false => rfl
      | true => exact absurd (hc.trans _ _ _ (hc.symm _ _ h4) hh) (by simp [show cfg.eqv k k' = false from this])

/-- The hypotheses of `C12_hot_values_survive` are met while five values are inserted into a cache of three, one of them is looked up, and three values are evicted. -/
example : let os1 : List (Env Nat × MapOp Nat Nat Nat) := [(at_ 0, .emplace 1 10), (at_ 0, .emplace 2 20), (at_ 0, .emplace 3 30), (at_ 0, .emplace 4 40)]
    let o : MapOp Nat Nat Nat := .get 1 (.ok 0)
    let os2 : List (Env Nat × MapOp Nat Nat Nat) := [(at_ 1, .emplace 5 50), (at_ 1, .emplace 6 60), (at_ 2, .get 6 (.ok 0)), (at_ 2, .emplace 7 70),
      (at_ 3, .emplace 8 80), (at_ 3, .emplace 9 90)]
    visible (outAt three (calls os1) (at_ 1) o.toOp) = (.val 10, false, []) ∧ (∀ p ∈ os2, about three.eqv 1 p.2 = false) ∧
    (∀ p q, os2 = p ++ q → 2 * (uses (p.map (·.2)) ((run three (stateAfter three (calls (os1 ++ [(at_ 1, o)]))) (calls p)).2.map visible) + 1) ≤
      (stateAfter three (calls (os1 ++ [(at_ 1, o)] ++ p))).size) ∧
    (outAt three (calls (os1 ++ [(at_ 1, o)] ++ os2)) (at_ 4) .count).ret = .num 3 := by
  intro os1 o os2
  refine ⟨by decide, by decide, ?_, by decide⟩
  have h : ∀ n ∈ List.range 7, 2 * (uses ((os2.take n).map (·.2)) ((run three (stateAfter three (calls (os1 ++ [(at_ 1, o)]))) (calls (os2.take n))).2.map visible) + 1) ≤
      (stateAfter three (calls (os1 ++ [(at_ 1, o)] ++ os2.take n))).size := by decide
  intro p q hpq
  have hp : p = os2.take p.length := by rw [hpq]; simp
  have := congrArg List.length hpq
  rw [hp]
  apply h
  simp [os2] at this ⊢
  omega

/-- C13, in the cache.  After any sequence of operations on a cache with a size limit (lookups that run, refreshes, thrown
exceptions included), the recency order has every entry of the table exactly once, its first half is hot and the rest is not, and
no end position was ever dereferenced. -/
theorem C13_every_entry_in_recency_order (hc : cfg.Ok) (hN : cfg.maxSize.isSome = true) (h : Hist K V E) (hok : HistOk cfg St.init h) :
    let s := stateAfter cfg h
    s.bq.q.Perm (s.ents.map (·.id)) ∧ s.bq.q.Nodup ∧ s.bq.ub = false ∧ (∀ x ∈ s.bq.q, s.bq.hot x = true ↔ x ∈ hotPart s.bq.q) := by
  have w := (good_any hc h hok ⟨⟨0, 0⟩, fun _ => true⟩).wf1
  obtain ⟨⟨hs, cs, i⟩, p⟩ := w.bq hN
  refine ⟨p, i.nodup, i.noub, fun x hx => ?_⟩
  rw [hotPart, ← i.take.1]
  constructor
  · intro hh
    rw [i.q, List.mem_append] at hx
    rcases hx with hx | hx
    · exact hx
    · rw [i.cold x hx] at hh; cases hh
  · exact i.hot x

/-- The hypotheses can be met: the first value is swept in passing, the one that was used and an error are in front. -/
example : threeM.Ok ∧ threeM.maxSize.isSome = true ∧
    HistOk threeM St.init ([(at_ 0, .emplace 1 10 .none), (at_ 0, .emplace 2 20 .none), (at_ 5, .get 2 (.ok 0)), (at_ 11, .get 3 (.err 7)), (at_ 12, .emplace 4 40 .none),
      (at_ 12, .emplace 5 50 .none)] : Hist Nat Nat Nat) ∧
    (stateAfter threeM ([(at_ 0, .emplace 1 10 .none), (at_ 0, .emplace 2 20 .none), (at_ 5, .get 2 (.ok 0)), (at_ 11, .get 3 (.err 7)), (at_ 12, .emplace 4 40 .none),
      (at_ 12, .emplace 5 50 .none)] : Hist Nat Nat Nat)).bq.q = [1, 2, 4, 3] :=
  ⟨nat_ok rfl (by intro d i h; cases h), rfl, by decide, by decide⟩

end Hoard.Props
