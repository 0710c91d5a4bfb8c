import Verif.AnswerLemmas
import Verif.Destroyed
import Verif.Spec.MapSpec
/-! A cache without limits is a map. -/
namespace Hoard
open Spec
variable {K V E : Type} {cfg : Cfg K} {M : Md V} {L : Ledger K V} {s : St K V E}

/-- Simulation relation. -/
structure MapSim (cfg : Cfg K) (env : Env V) (s : St K V E) (m : K → Option V) (L : Ledger K V) : Prop where
  good : Good cfg ⟨False, True, env, True⟩ (fun _ => False) s L
  cur : L.cur = m
  valid : ∀ k, L.valid k = none
  up : s.destroyed = false

theorem write_cur (eqv : K → K → Bool) (now : Time) (b : Bool) (L : Ledger K V) (k : K) (v : Option V) :
    (L.put eqv now b k v).cur = setAt eqv L.cur k v := rfl

theorem write_valid {eqv : K → K → Bool} {now : Time} {b : Bool} {L : Ledger K V} {k : K} {v : Option V} (h : ∀ k, L.valid k = none) (a : K) :
    (L.put eqv now b k v).valid a = none := by simp [Ledger.put, h]

theorem setAt_none {eqv : K → K → Bool} {m : K → Option V} {k : K} (h : ∀ a, eqv a k = true → m a = none) : setAt eqv m k none = m := by
  funext a; simp only [setAt]; split
  · rename_i hk; exact (h a hk).symm
  · rfl

theorem sim_noEvict (hs : cfg.maxSize = none) (s : St K V E) : NoEvict cfg s := by intro N h; rw [hs] at h; cases h

/-- One call. -/
theorem sim_step (hc : cfg.Ok) (hs : cfg.maxSize = none) (ha : cfg.maxAge = none) (hr : cfg.refresh = none) (hk : cfg.resolver ≠ .async)
    {env : Env V} {m : K → Option V} (h : MapSim cfg env s m L) (o : MapOp K V E) :
    (step cfg env s o.toOp).2.ret = (mapStep cfg.eqv (cfg.resolver = .sync) m o).2 ∧
    ∃ L', MapSim cfg env (step cfg env s o.toOp).1 (mapStep cfg.eqv (cfg.resolver = .sync) m o).1 L' := by
  obtain ⟨hg, rfl, hv, hd⟩ := h
  have hu : cfg.Untimed := ⟨ha, hr, .inl hs⟩
  have nocur : ∀ {k : K}, (True → ∀ u, L.cur k = some u → DeadL cfg env L k u) → L.cur k = none := by
    intro k h
    cases hcur : L.cur k with
    | none => rfl
    | some u => exact absurd (h trivial u hcur) hu.not_dead
  cases o with
  | emplace k v =>
    simp only [MapOp.toOp, step, mapStep]
    have h1 := emplace_ok hc hg hd k v .none (fun _ => sim_noEvict hs _)
    have h2 := step_destroyed cfg env s (.emplace k v .none) (by simp)
    have h3 : (emplace cfg env s k v .none).2 = ({ made := true } : Out K V E) := by simp [emplace, tryLink]
    rw [h3] at h1 ⊢
    exact ⟨rfl, _, h1, write_cur .., write_valid hv, h2.trans hd⟩
  | getIfExists k =>
    simp only [MapOp.toOp, step, mapStep]
    obtain ⟨h1, h2⟩ := getIfExists_ok hc hg k
    refine ⟨?_, L, hg, rfl, hv, hd⟩
    rcases h2 with ⟨u, h3, h4, _⟩ | ⟨h3, h4⟩
    · rw [h3, h4]; rfl
    · rw [h3, nocur h4]; rfl
  | get k r =>
    simp only [MapOp.toOp, step, mapStep]
    obtain ⟨h1, h2⟩ := get_ok hc hg hd hk k r
    have h5 : (get cfg env s k r).1.destroyed = false := (step_destroyed cfg env s (.get k r) (by simp)).trans hd
    rcases h2 with ⟨u, h3, h4, h6⟩ | ⟨⟨h3, h6, h7⟩ | ⟨h3, h6, h7⟩, h4⟩
    · rw [h4.1]
      simp only [Ledger.after, h6, h3, Ledger.read] at h1
      exact ⟨h3, _, h1, rfl, hv, h5⟩
    · have hn := nocur h4
      rw [hn, h7]
      simp only [Ledger.after, h6, h3, Ledger.read] at h1
      exact ⟨h3, _, h1, rfl, hv, h5⟩
    · have hn := nocur h4
      rw [hn, h7]
      simp only [Ledger.after, h6, Ledger.write] at h1
      cases r with
      | ok v => exact ⟨h3, _, h1, write_cur .., write_valid hv, h5⟩
      | err e =>
        refine ⟨h3, _, h1, ?_, write_valid hv, h5⟩
        rw [write_cur]
        exact setAt_none (fun a ha => ((hg.g.rsp a k ha).1.trans hn))
  | getOrEmplace k v =>
    simp only [MapOp.toOp, step, mapStep]
    obtain ⟨h1, h2⟩ := getOrEmplace_ok hc hg hd k v .none (fun _ => sim_noEvict hs _)
    have h5 : (getOrEmplace cfg env s k v .none).1.destroyed = false := (step_destroyed cfg env s (.getOrEmplace k v .none) (by simp)).trans hd
    rcases h2 with ⟨u, h3, h4, h6⟩ | ⟨_, _, h6⟩ | ⟨⟨h6, h3⟩, h4⟩
    · rw [h4.1]
      simp only [Ledger.after, h6, h3, Bool.false_eq_true, if_false] at h1
      exact ⟨h3, _, h1, rfl, hv, h5⟩
    · obtain ⟨⟨t, ht⟩, _⟩ := h6 rfl
      rw [hv] at ht; cases ht
    · rw [nocur (fun _ => (h4 trivial).2)]
      simp only [Ledger.after, h6, if_true, Ledger.write] at h1
      exact ⟨h3, _, h1, write_cur .., write_valid hv, h5⟩
  | erase k =>
    simp only [MapOp.toOp, step, mapStep]
    exact ⟨trivial, _, (expire_ok hc hg k).1, write_cur .., write_valid hv, (step_destroyed cfg env s (.erase k) (by simp)).trans hd⟩
  | clear =>
    simp only [MapOp.toOp, step, mapStep]
    exact ⟨trivial, _, clear_ok hg, rfl, fun _ => rfl, (step_destroyed cfg env s .clear (by simp)).trans hd⟩

theorem sim_run (hc : cfg.Ok) (hs : cfg.maxSize = none) (ha : cfg.maxAge = none) (hr : cfg.refresh = none) (hk : cfg.resolver ≠ .async) :
    ∀ (os : List (Env V × MapOp K V E)) {env : Env V} {s : St K V E} {m : K → Option V} {L : Ledger K V}, MapSim cfg env s m L →
    (run cfg s (os.map (fun p => (p.1, p.2.toOp)))).2.map (·.ret) = mapRun cfg.eqv (cfg.resolver = .sync) m (os.map (·.2))
  | [], _, _, _, _, _ => rfl
  | (e, o) :: os, env, s, m, L, h => by
    have hu : cfg.Untimed := ⟨ha, hr, .inl hs⟩
    have h' : MapSim cfg e s m L := ⟨h.good.advance (fun _ => .inr hu) (fun h => h.elim), h.cur, h.valid, h.up⟩
    obtain ⟨h1, L', h2⟩ := sim_step hc hs ha hr hk h' o
    simp only [List.map_cons, run, mapRun]
    rw [h1, sim_run hc hs ha hr hk os h2]

end Hoard
