import Verif.Spec.Objects
import Verif.AsyncLemmas
import Verif.Destroyed
/-! # Lemmas about several cache objects -/
namespace Hoard.Objects
open Spec Construct
variable {K V E τ α : Type} {w : World K V E} {env : Env V} {t : Nat}

theorem mem_of_var {x : Nat} {v : Option Nat} (h : w.var x = some v) : (x, v) ∈ w.vars := by
  unfold World.var at h
  revert h
  generalize w.vars = l
  intro h
  induction l with
  | nil => simp at h
  | cons p l ih =>
    obtain ⟨a, b⟩ := p
    rw [List.lookup_cons] at h
    by_cases e : x = a
    · subst e; simp at h; subst h; exact List.mem_cons_self ..
    · rw [show (x == a) = false from beq_eq_false_iff_ne.2 e] at h
      exact List.mem_cons_of_mem _ (ih h)

theorem lookup_filter (l : List (Nat × Option Nat)) {x z : Nat} (h : z ≠ x) : (l.filter (fun p => p.1 ≠ x)).lookup z = l.lookup z := by
  induction l with
  | nil => rfl
  | cons p l ih =>
    obtain ⟨a, b⟩ := p
    by_cases e : a = x
    · subst e
      rw [List.filter_cons_of_neg (by simp), ih, List.lookup_cons, show (z == a) = false from beq_eq_false_iff_ne.2 h]
    · rw [List.filter_cons_of_pos (by simpa using e), List.lookup_cons, List.lookup_cons, ih]

theorem var_set_self (x : Nat) (v : Option Nat) : (w.set x v).var x = some v := by simp [World.var, World.set]
theorem var_set_ne {x z : Nat} (v : Option Nat) (h : z ≠ x) : (w.set x v).var z = w.var z := by
  show List.lookup z ((x, v) :: _) = _
  rw [List.lookup_cons, show (z == x) = false from beq_eq_false_iff_ne.2 h]
  exact lookup_filter _ h
theorem var_unset_ne {x z : Nat} (h : z ≠ x) : (w.unset x).var z = w.var z := lookup_filter _ h
theorem var_act (o : Op K V E) (z : Nat) : (w.act env t o).var z = w.var z := by
  unfold World.act; split <;> rfl
theorem var_release (u : Option Nat) (z : Nat) : (w.release env u).var z = w.var z := by
  cases u with
  | none => rfl
  | some t =>
    show (if w.used t then w else w.act env t .destroy).var z = w.var z
    split
    · rfl
    · exact var_act _ _
theorem var_build_self (x : Nat) (cfg : Cfg K) : (w.build x cfg).var x = some (some w.tabs.length) := var_set_self _ _
theorem var_build_ne {x z : Nat} (cfg : Cfg K) (h : z ≠ x) : (w.build x cfg).var z = w.var z := var_set_ne _ h

theorem used_iff : w.used t = true ↔ ∃ x, (x, some t) ∈ w.vars := by
  simp only [World.used, List.any_eq_true, decide_eq_true_eq]
  constructor
  · rintro ⟨⟨x, v⟩, h, rfl⟩; exact ⟨x, h⟩
  · rintro ⟨x, h⟩; exact ⟨_, h, rfl⟩

theorem mem_set {x z : Nat} {v u : Option Nat} : (z, u) ∈ (w.set x v).vars ↔ (z = x ∧ u = v) ∨ (z ≠ x ∧ (z, u) ∈ w.vars) := by
  simp only [World.set, List.mem_cons, Prod.mk.injEq, List.mem_filter, decide_eq_true_eq]
  constructor
  · rintro (h | ⟨h1, h2⟩)
    · exact Or.inl h
    · exact Or.inr ⟨by simpa using h2, h1⟩
  · rintro (h | ⟨h1, h2⟩)
    · exact Or.inl h
    · exact Or.inr ⟨h2, by simpa using h1⟩

theorem mem_unset {x z : Nat} {u : Option Nat} : (z, u) ∈ (w.unset x).vars ↔ z ≠ x ∧ (z, u) ∈ w.vars := by
  simp only [World.unset, List.mem_filter]
  constructor
  · rintro ⟨h1, h2⟩; exact ⟨by simpa using h2, h1⟩
  · rintro ⟨h1, h2⟩; exact ⟨h2, by simpa using h1⟩

theorem keys_set {x : Nat} {v : Option Nat} (h : (w.vars.map (·.1)).Nodup) : ((w.set x v).vars.map (·.1)).Nodup := by
  show (((x, v) :: w.vars.filter (fun p => p.1 ≠ x)).map (·.1)).Nodup
  rw [List.map_cons, List.nodup_cons]
  constructor
  · intro hm
    obtain ⟨p, hp, e⟩ := List.mem_map.1 hm
    have := (List.mem_filter.1 hp).2
    simp only at e
    simp [e] at this
  · exact List.Nodup.sublist (List.Sublist.map _ List.filter_sublist) h

theorem keys_unset {x : Nat} (h : (w.vars.map (·.1)).Nodup) : ((w.unset x).vars.map (·.1)).Nodup :=
  List.Nodup.sublist (List.Sublist.map _ List.filter_sublist) h

theorem val_unique {l : List (Nat × Option Nat)} {x : Nat} {u v : Option Nat} (h : (l.map (·.1)).Nodup) (h1 : (x, u) ∈ l) (h2 : (x, v) ∈ l) : u = v := by
  induction l with
  | nil => cases h1
  | cons p l ih =>
    rw [List.map_cons, List.nodup_cons] at h
    rcases List.mem_cons.1 h1 with e1 | m1 <;> rcases List.mem_cons.1 h2 with e2 | m2
    · rw [← e1] at e2; cases e2; rfl
    · subst e1; exact absurd (List.mem_map.2 ⟨_, m2, rfl⟩) h.1
    · subst e2; exact absurd (List.mem_map.2 ⟨_, m1, rfl⟩) h.1
    · exact ih h.2 m1 m2

/-- What is known of a table. -/
structure TabOk (w : World K V E) (t : Nat) (cfg : Cfg K) (s : St K V E) : Prop where
  ok : HistOk cfg St.init (historyOf w t)
  st : stateAfter cfg (historyOf w t) = s
  outs : outcomesOf w t = outsOf cfg (historyOf w t)

/-- The invariant without what it says about destruction. -/
structure Pre (w : World K V E) : Prop where
  keys : (w.vars.map (·.1)).Nodup
  refs : ∀ x t, (x, some t) ∈ w.vars → t < w.tabs.length
  tab : ∀ t cfg s, w.tabs[t]? = some (cfg, s) → TabOk w t cfg s
  fresh : ∀ e ∈ w.log, e.table < w.tabs.length

structure Inv (w : World K V E) : Prop extends Pre w where
  live : ∀ t cfg s, w.tabs[t]? = some (cfg, s) → (s.destroyed = true ↔ w.used t = false)

theorem act_eq {cfg : Cfg K} {s : St K V E} (h : w.tabs[t]? = some (cfg, s)) (o : Op K V E) :
    w.act env t o = { w with tabs := w.tabs.set t (cfg, (step cfg env s o).1), log := w.log ++ [⟨t, env, o, (step cfg env s o).2⟩] } := by
  simp [World.act, h]

theorem tabs_act {cfg : Cfg K} {s : St K V E} (h : w.tabs[t]? = some (cfg, s)) (o : Op K V E) (t' : Nat) :
    (w.act env t o).tabs[t']? = if t' = t then some (cfg, (step cfg env s o).1) else w.tabs[t']? := by
  rw [act_eq h]
  show (w.tabs.set t _)[t']? = _
  rw [List.getElem?_set]
  have hl : t < w.tabs.length := (List.getElem?_eq_some_iff.1 h).1
  by_cases e : t = t'
  · subst e; simp [hl]
  · rw [if_neg e, if_neg (fun h => e h.symm)]

theorem Pre.act (p : Pre w) {cfg : Cfg K} {s : St K V E} (h : w.tabs[t]? = some (cfg, s)) (o : Op K V E) (ho : o.ok cfg s) : Pre (w.act env t o) := by
  have hl : t < w.tabs.length := (List.getElem?_eq_some_iff.1 h).1
  have hlen : (w.act env t o).tabs.length = w.tabs.length := by rw [act_eq h]; simp
  have hv : (w.act env t o).vars = w.vars := by rw [act_eq h]
  refine ⟨hv ▸ p.keys, ?_, ?_, ?_⟩
  · intro x t' hx; rw [hlen]; rw [hv] at hx; exact p.refs x t' hx
  · intro t' c' s' h'
    rw [tabs_act h] at h'
    by_cases e : t' = t
    · subst e
      rw [if_pos rfl] at h'
      cases h'
      have T := p.tab _ _ _ h
      have hh : historyOf (w.act env t' o) t' = historyOf w t' ++ [(env, o)] := by
        rw [act_eq h]; simp [historyOf, List.filter_append]
      have hoo : outcomesOf (w.act env t' o) t' = outcomesOf w t' ++ [(step cfg env s o).2] := by
        rw [act_eq h]; simp [outcomesOf, List.filter_append]
      refine ⟨?_, ?_, ?_⟩
      · rw [hh, HistOk_append]; refine ⟨T.ok, ?_, trivial⟩
        have := T.st
        rw [stateAfter] at this
        rw [this]; exact ho
      · rw [hh, stateAfter_snoc, T.st]
      · rw [hh, hoo, outsOf_snoc, T.outs, outAt, T.st]
    · rw [if_neg e] at h'
      have T := p.tab _ _ _ h'
      have e' : ¬ t = t' := fun h => e h.symm
      have hh : historyOf (w.act env t o) t' = historyOf w t' := by
        rw [act_eq h]; simp [historyOf, List.filter_append, e']
      have hoo : outcomesOf (w.act env t o) t' = outcomesOf w t' := by
        rw [act_eq h]; simp [outcomesOf, List.filter_append, e']
      exact ⟨hh ▸ T.ok, hh ▸ T.st, by rw [hh, hoo]; exact T.outs⟩
  · intro e he
    rw [hlen]
    rw [act_eq h] at he
    rcases List.mem_append.1 he with he | he
    · exact p.fresh e he
    · rw [List.mem_singleton.1 he]; exact hl

/-- Variables change, tables do not. -/
theorem Pre.revar {vs : List (Nat × Option Nat)} (p : Pre w) (hk : (vs.map (·.1)).Nodup) (hr : ∀ x t, (x, some t) ∈ vs → t < w.tabs.length) :
    Pre { w with vars := vs } :=
  ⟨hk, hr, fun t c s h => ⟨(p.tab t c s h).ok, (p.tab t c s h).st, (p.tab t c s h).outs⟩, p.fresh⟩

theorem used_act (o : Op K V E) (t' : Nat) : (w.act env t o).used t' = w.used t' := by
  unfold World.act; split <;> rfl

/-- Letting go of a table. -/
theorem Inv.release (p : Pre w) (u : Option Nat) (h1 : ∀ t cfg s, w.tabs[t]? = some (cfg, s) → some t ≠ u → (s.destroyed = true ↔ w.used t = false))
    (h2 : ∀ t cfg s, u = some t → w.tabs[t]? = some (cfg, s) → s.destroyed = false) (h3 : ∀ t, u = some t → t < w.tabs.length) : Inv (w.release env u) := by
  cases u with
  | none => exact ⟨p, fun t c s h => h1 t c s h (by simp)⟩
  | some t =>
    unfold World.release
    by_cases hu : w.used t = true
    · simp only [hu, if_true]
      refine ⟨p, fun t' c s h => ?_⟩
      by_cases e : t' = t
      · subst e; rw [h2 t' c s rfl h, hu]; simp
      · exact h1 t' c s h (by simpa using e)
    · simp only [hu, Bool.false_eq_true, if_false]
      have hlt := h3 t rfl
      obtain ⟨⟨c, s⟩, hcs⟩ : ∃ x, w.tabs[t]? = some x := ⟨_, List.getElem?_eq_getElem hlt⟩
      have hd := h2 t c s rfl hcs
      refine ⟨p.act hcs .destroy hd, fun t' c' s' h' => ?_⟩
      rw [used_act]
      rw [tabs_act hcs] at h'
      by_cases e : t' = t
      · subst e
        rw [if_pos rfl] at h'; cases h'
        simp [step, destroy, hu]
      · rw [if_neg e] at h'
        exact h1 t' c' s' h' (by simpa using e)

theorem Inv.init : Inv ({} : World K V E) := by
  refine ⟨⟨by simp, by simp, by simp, by simp⟩, by simp⟩

/-- Operations that leave the table alive. -/
theorem Inv.act (p : Inv w) {cfg : Cfg K} {s : St K V E} (h : w.tabs[t]? = some (cfg, s)) (o : Op K V E) (ho : o.ok cfg s) (hd : o ≠ .destroy) :
    Inv (w.act env t o) := by
  refine ⟨p.toPre.act h o ho, fun t' c' s' h' => ?_⟩
  rw [used_act]
  rw [tabs_act h] at h'
  by_cases e : t' = t
  · subst e
    rw [if_pos rfl] at h'; cases h'
    rw [step_destroyed cfg env s o hd]
    exact p.live _ _ _ h
  · rw [if_neg e] at h'
    exact p.live _ _ _ h'

theorem Inv.alive (p : Inv w) {x : Nat} {cfg : Cfg K} {s : St K V E} (hx : w.var x = some (some t)) (h : w.tabs[t]? = some (cfg, s)) : s.destroyed = false := by
  have hu : w.used t = true := used_iff.2 ⟨x, mem_of_var hx⟩
  have := p.live _ _ _ h
  rw [hu] at this
  simpa using this

theorem Inv.build (p : Inv w) (x : Nat) (hx : w.var x = none) (cfg : Cfg K) : Inv (w.build x cfg) := by
  have hlen : (w.build x cfg).tabs.length = w.tabs.length + 1 := by simp [World.build, World.set]
  have hget : ∀ t, (w.build x cfg).tabs[t]? = if t = w.tabs.length then some (cfg, St.init) else w.tabs[t]? := by
    intro t
    show (w.tabs ++ [_])[t]? = _
    by_cases e : t = w.tabs.length
    · subst e; simp
    · rw [if_neg e]
      by_cases hlt : t < w.tabs.length
      · rw [List.getElem?_append_left hlt]
      · rw [List.getElem?_eq_none (by simp; omega), List.getElem?_eq_none (by omega)]
  have hmem : ∀ z u, (z, u) ∈ (w.build x cfg).vars ↔ (z = x ∧ u = some w.tabs.length) ∨ (z ≠ x ∧ (z, u) ∈ w.vars) := fun z u => mem_set (w := { w with tabs := _ })
  have hnx : ∀ u, (x, u) ∉ w.vars := by
    intro u hu
    unfold World.var at hx
    rw [List.lookup_eq_none_iff] at hx
    have := hx (x, u) hu
    simp at this
  refine ⟨⟨keys_set (w := { w with tabs := _ }) p.keys, ?_, ?_, ?_⟩, ?_⟩
  · intro z t h
    rw [hlen]
    rcases (hmem _ _).1 h with ⟨_, e⟩ | ⟨_, h⟩
    · cases e; omega
    · have := p.refs z t h; omega
  · intro t c s h
    rw [hget] at h
    by_cases e : t = w.tabs.length
    · rw [if_pos e] at h
      cases h
      have hno : w.log.filter (fun e => decide (e.table = t)) = [] := by
        rw [List.filter_eq_nil_iff]
        intro a ha
        have := p.fresh a ha
        simp; omega
      have hh : historyOf (w.build x cfg) t = [] := by
        show (w.log.filter _).map _ = []
        rw [hno]; rfl
      refine ⟨by rw [hh]; trivial, by rw [hh]; rfl, ?_⟩
      rw [hh]
      show (w.log.filter _).map _ = _
      rw [hno]; rfl
    · rw [if_neg e] at h
      have T := p.tab t c s h
      exact ⟨T.ok, T.st, T.outs⟩
  · intro e he
    have := p.fresh e he
    rw [hlen]; omega
  · intro t c s h
    rw [hget] at h
    by_cases e : t = w.tabs.length
    · subst e
      rw [if_pos rfl] at h
      cases h
      have hu : (w.build x cfg).used w.tabs.length = true := used_iff.2 ⟨x, (hmem _ _).2 (Or.inl ⟨rfl, rfl⟩)⟩
      rw [hu]; simp [St.init]
    · rw [if_neg e] at h
      have hu : (w.build x cfg).used t = w.used t := by
        rw [Bool.eq_iff_iff, used_iff, used_iff]
        constructor
        · rintro ⟨z, hz⟩
          rcases (hmem _ _).1 hz with ⟨_, h⟩ | ⟨_, h⟩
          · cases h; exact absurd rfl e
          · exact ⟨z, h⟩
        · rintro ⟨z, hz⟩
          refine ⟨z, (hmem _ _).2 (Or.inr ⟨?_, hz⟩)⟩
          rintro rfl; exact hnx _ hz
      rw [hu]; exact p.live t c s h

variable [DecidableEq τ] {lib : Lib K τ α}

/-- Variables are changed so that a table other than `u` is referred to exactly if it was before. -/
theorem Inv.relet (p : Inv w) {vs : List (Nat × Option Nat)} (u : Option Nat) (hk : (vs.map (·.1)).Nodup)
    (h1 : ∀ t, (∃ x, (x, some t) ∈ vs) → w.used t = true) (h2 : ∀ t, some t ≠ u → w.used t = true → ∃ x, (x, some t) ∈ vs)
    (h3 : ∀ t, u = some t → w.used t = true) : Inv ({ w with vars := vs }.release env u) := by
  have hlt : ∀ t, w.used t = true → t < w.tabs.length := fun t h => by
    obtain ⟨x, hx⟩ := used_iff.1 h; exact p.refs x t hx
  refine Inv.release (p.toPre.revar hk fun x t hx => hlt t (h1 t ⟨x, hx⟩)) u ?_ ?_ (fun t h => hlt t (h3 t h))
  · intro t c s h hne
    have : World.used { w with vars := vs } t = w.used t := by
      rw [Bool.eq_iff_iff, used_iff]
      exact ⟨h1 t, h2 t hne⟩
    rw [this]; exact p.live t c s h
  · intro t c s hu h
    have := p.live t c s h
    rw [h3 t hu] at this
    simpa using this

theorem member_ok {cfg : Cfg K} {s : St K V E} {o : Op K V E} (h : member cfg o = true) (hd : s.destroyed = false) : o.ok cfg s ∧ o ≠ .destroy := by
  cases o <;> simp_all [member, Op.ok]

theorem external_ok {cfg : Cfg K} {s : St K V E} {o : Op K V E} (h : external cfg s o = true) : o.ok cfg s ∧ o ≠ .destroy := by
  cases o <;> simp_all [external, Op.ok]

theorem used_of_var {x t : Nat} (h : w.var x = some (some t)) : w.used t = true := used_iff.2 ⟨x, mem_of_var h⟩

theorem Inv.share (p : Inv w) {x y : Nat} {v : Option Nat} (hx : w.var x = none) (hy : w.var y = some v) : Inv (w.set x v) := by
  have hnx : ∀ u, (x, u) ∉ w.vars := by
    intro u hu
    unfold World.var at hx
    rw [List.lookup_eq_none_iff] at hx
    have := hx (x, u) hu
    simp at this
  have := Inv.relet (env := ⟨⟨0, 0⟩, fun _ => true⟩) p (vs := (w.set x v).vars) none (keys_set p.keys) ?_ ?_ (by simp)
  · exact this
  · rintro t ⟨z, hz⟩
    rcases mem_set.1 hz with ⟨_, h⟩ | ⟨_, h⟩
    · subst h; exact used_of_var hy
    · exact used_iff.2 ⟨z, h⟩
  · intro t _ h
    obtain ⟨z, hz⟩ := used_iff.1 h
    exact ⟨z, mem_set.2 (Or.inr ⟨by rintro rfl; exact hnx _ hz, hz⟩)⟩

theorem Inv.take (p : Inv w) {x y : Nat} {v : Option Nat} (hx : w.var x = none) (hy : w.var y = some v) : Inv ((w.set y none).set x v) := by
  have hnx : ∀ u, (x, u) ∉ w.vars := by
    intro u hu
    unfold World.var at hx
    rw [List.lookup_eq_none_iff] at hx
    have := hx (x, u) hu
    simp at this
  have := Inv.relet (env := ⟨⟨0, 0⟩, fun _ => true⟩) p (vs := ((w.set y none).set x v).vars) none (keys_set (keys_set p.keys)) ?_ ?_ (by simp)
  · exact this
  · rintro t ⟨z, hz⟩
    rcases mem_set.1 hz with ⟨_, h⟩ | ⟨_, h⟩
    · subst h; exact used_of_var hy
    · rcases mem_set.1 h with ⟨_, h⟩ | ⟨_, h⟩
      · cases h
      · exact used_iff.2 ⟨z, h⟩
  · intro t _ h
    obtain ⟨z, hz⟩ := used_iff.1 h
    by_cases e : z = y
    · subst e
      have := val_unique p.keys hz (mem_of_var hy)
      exact ⟨x, mem_set.2 (Or.inl ⟨rfl, this⟩)⟩
    · exact ⟨z, mem_set.2 (Or.inr ⟨by rintro rfl; exact hnx _ hz, mem_set.2 (Or.inr ⟨e, hz⟩)⟩)⟩

theorem Inv.exec (p : Inv w) (c : Cmd K V E τ α) (w' : World K V E) (h : exec lib env w c = some w') : Inv w' := by
  cases c with
  | build x args =>
    simp only [Objects.exec] at h
    split at h
    · rename_i hx _; cases h; exact p.build x hx _
    · cases h
  | make how x y =>
    simp only [Objects.exec] at h
    split at h
    · rename_i v hx hy _; cases h; exact p.share hx hy
    · rename_i v hx hy _; cases h; exact p.take hx hy
    · rename_i v hx hy _; cases h; exact p.build x hx _
    · cases h
  | assign x y =>
    simp only [Objects.exec] at h
    split at h
    · rename_i u v hx hy
      cases h
      refine Inv.relet p (vs := (w.set x v).vars) u (keys_set p.keys) ?_ ?_ ?_
      · rintro t ⟨z, hz⟩
        rcases mem_set.1 hz with ⟨_, h⟩ | ⟨_, h⟩
        · subst h; exact used_of_var hy
        · exact used_iff.2 ⟨z, h⟩
      · intro t hne h
        obtain ⟨z, hz⟩ := used_iff.1 h
        refine ⟨z, mem_set.2 (Or.inr ⟨?_, hz⟩)⟩
        rintro rfl
        exact hne (val_unique p.keys hz (mem_of_var hx))
      · rintro t rfl; exact used_of_var hx
    · cases h
  | moveAssign x y =>
    simp only [Objects.exec] at h
    split at h
    · rename_i u v hx hy
      cases h
      by_cases e : x = y
      · rw [if_pos e]; exact p
      · rw [if_neg e]
        refine Inv.relet p (vs := ((w.set y none).set x v).vars) u (keys_set (keys_set p.keys)) ?_ ?_ ?_
        · rintro t ⟨z, hz⟩
          rcases mem_set.1 hz with ⟨_, h⟩ | ⟨_, h⟩
          · subst h; exact used_of_var hy
          · rcases mem_set.1 h with ⟨_, h⟩ | ⟨_, h⟩
            · cases h
            · exact used_iff.2 ⟨z, h⟩
        · intro t hne h
          obtain ⟨z, hz⟩ := used_iff.1 h
          by_cases e1 : z = y
          · subst e1
            have := val_unique p.keys hz (mem_of_var hy)
            exact ⟨x, mem_set.2 (Or.inl ⟨rfl, this⟩)⟩
          · refine ⟨z, mem_set.2 (Or.inr ⟨?_, mem_set.2 (Or.inr ⟨e1, hz⟩)⟩)⟩
            rintro rfl
            exact hne (val_unique p.keys hz (mem_of_var hx))
        · rintro t rfl; exact used_of_var hx
    · cases h
  | destroy x =>
    simp only [Objects.exec] at h
    split at h
    · rename_i u hx
      cases h
      refine Inv.relet p (vs := (w.unset x).vars) u (keys_unset p.keys) ?_ ?_ ?_
      · rintro t ⟨z, hz⟩
        exact used_iff.2 ⟨z, (mem_unset.1 hz).2⟩
      · intro t hne h
        obtain ⟨z, hz⟩ := used_iff.1 h
        refine ⟨z, mem_unset.2 ⟨?_, hz⟩⟩
        rintro rfl
        exact hne (val_unique p.keys hz (mem_of_var hx))
      · rintro t rfl; exact used_of_var hx
    · cases h
  | call x o =>
    simp only [Objects.exec] at h
    split at h
    · rename_i t hx
      split at h
      · rename_i cfg s ht
        split at h
        · rename_i hm
          cases h
          have := member_ok hm (p.alive hx ht)
          exact p.act ht o this.1 this.2
        · cases h
      · cases h
    · cases h
  | other t o =>
    simp only [Objects.exec] at h
    split at h
    · rename_i cfg s ht
      split at h
      · rename_i hm
        cases h
        have := external_ok hm
        exact p.act ht o this.1 this.2
      · cases h
    · cases h

theorem Inv.execs : ∀ (cs : List (Env V × Cmd K V E τ α)) (w w' : World K V E) (_ : Inv w) (_ : execs lib w cs = some w'), Inv w'
  | [], w, w', p, h => by cases h; exact p
  | (env, c) :: cs, w, w', p, h => by
    simp only [Objects.execs] at h
    split at h
    · rename_i w1 h1; exact Inv.execs cs w1 w' (p.exec c w1 h1) h
    · cases h

end Hoard.Objects
