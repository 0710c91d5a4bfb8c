import Verif.NestedAsyncLimbo
/-! Asynchronous resolvers that use the cache: the plain history that a history of nested calls counts as. -/
namespace Hoard.NestedAsync
open Spec
open Handlers (AllE cbsOf withOpens complete_pos complete_neg complete_dead drop_pos drop_neg)
variable {K V E : Type} {cfg : Cfg K} {env : Env V} {s s' : St K V E} {n : NSt K V E}

theorem runN_append (h1 h2 : NHist K V E) : ∀ (n : NSt K V E),
    runN cfg n (h1 ++ h2) = ((runN cfg (runN cfg n h1).1 h2).1, (runN cfg n h1).2 ++ (runN cfg (runN cfg n h1).1 h2).2) := by
  induction h1 with
  | nil => intro n; simp [runN]
  | cons p h1 ih => intro n; obtain ⟨e, o⟩ := p; simp [runN, ih]

theorem NOk_append {h1 h2 : NHist K V E} : ∀ {n : NSt K V E}, NOk cfg n (h1 ++ h2) ↔ NOk cfg n h1 ∧ NOk cfg (runN cfg n h1).1 h2 := by
  induction h1 with
  | nil => intro n; simp [NOk, runN]
  | cons p h1 ih => intro n; obtain ⟨e, o⟩ := p; simp [NOk, runN, ih, and_assoc]

theorem endN_snoc (h : NHist K V E) (env : Env V) (e : Ev K V E) : endN cfg (h ++ [(env, e)]) = (next cfg env (endN cfg h) e).1 := by
  simp only [endN, runN_append, runN]

theorem ansN_snoc (h : NHist K V E) (env : Env V) (e : Ev K V E) :
    (runN cfg {} (h ++ [(env, e)])).2 = (runN cfg {} h).2 ++ [ansAt cfg h env e] := by
  simp only [runN_append, runN]; rfl

theorem flat_snoc (h : NHist K V E) (p : Env V × Ev K V E) : flat (h ++ [p]) = flat h ++ flatOf p := by
  simp [flat, List.flatMap_append]

theorem runN_length (h : NHist K V E) : ∀ (n : NSt K V E), (runN cfg n h).2.length = h.length := by
  induction h with
  | nil => intro n; rfl
  | cons p h ih => intro n; obtain ⟨e, o⟩ := p; simp [runN, ih]

theorem step_sim (h : er s = er s') (o : Op K V E) :
    er (step cfg env s o).1 = er (step cfg env s' o).1 ∧ seen (step cfg env s o).2 = seen (step cfg env s' o).2 := by
  have a := er_step (cfg := cfg) (env := env) (s := s) o
  have b := er_step (cfg := cfg) (env := env) (s := s') o
  rw [h] at a
  exact ⟨a.1.symm.trans b.1, a.2.symm.trans b.2⟩

theorem run_sim (H : Hist K V E) : ∀ {s s' : St K V E}, er s = er s' →
    er (run cfg s H).1 = er (run cfg s' H).1 ∧ (run cfg s H).2.map seen = (run cfg s' H).2.map seen := by
  induction H with
  | nil => intro s s' h; exact ⟨h, rfl⟩
  | cons p H ih =>
    intro s s' h
    obtain ⟨e, o⟩ := p
    obtain ⟨a, b⟩ := step_sim (cfg := cfg) (env := e) h o
    obtain ⟨c, d⟩ := ih a
    simp only [run, List.map_cons]
    exact ⟨c, by rw [b, d]⟩

/-- One step of nested calls, against the plain operation it counts as. -/
theorem next_sim (e : Ev K V E) : er (next cfg env n e).1.s = er (run cfg n.s (flatOf (env, e))).1 ∧
    seenOf e (next cfg env n e).2 = (run cfg n.s (flatOf (env, e))).2.map seen := by
  cases e with
  | op o => exact ⟨rfl, rfl⟩
  | ret =>
    simp only [next]
    cases n.stack with
    | nil => exact ⟨rfl, rfl⟩
    | cons p st => exact ⟨er_answer _ _ _, rfl⟩
  | throw =>
    simp only [next]
    cases n.stack with
    | nil => exact ⟨rfl, rfl⟩
    | cons p st => exact ⟨rfl, rfl⟩
  | get k w =>
    simp only [next, flatOf, run, step, asyncGet]
    cases (getWalk cfg env k true (n.s.bucket (n.s.bucketFor (cfg.hash k)))).hit with
    | some p => exact ⟨rfl, rfl⟩
    | none =>
      simp only [er_answer, true_and]
      simp only [seenOf, List.map_cons, List.map_nil, seen]
      cases (resolveAsync cfg env (get_ cfg env n.s k true).1 k .later).1.find (resolveAsync cfg env (get_ cfg env n.s k true).1 k .later).2 with
      | none => rfl
      | some e => simp only; cases e.mapped.get env true <;> rfl

theorem ok_sim (h : er s = er s') {o : Op K V E} (ho : o.ok cfg s) : o.ok cfg s' := by
  have : s.destroyed = s'.destroyed := by rw [← er_destroyed, h, er_destroyed]
  cases o <;> simp only [Op.ok] at ho ⊢ <;> first | rw [← this]; exact ho | trivial

theorem ev_ok_sim (h : er n.s = er s') {e : Ev K V E} (he : e.ok cfg n) : HistOk cfg s' (flatOf (env, e)) := by
  have hd : n.s.destroyed = s'.destroyed := by rw [← er_destroyed, h, er_destroyed]
  cases e with
  | op o => exact ⟨ok_sim h he.1, trivial⟩
  | get k w => exact ⟨⟨he.1, hd ▸ he.2⟩, trivial⟩
  | ret => trivial
  | throw => trivial

/-- A whole history. -/
theorem hist_sim (h : NHist K V E) : ∀ {n : NSt K V E} {s' : St K V E}, er n.s = er s' → NOk cfg n h →
    er (runN cfg n h).1.s = er (run cfg s' (flat h)).1 ∧ seenN h (runN cfg n h).2 = (run cfg s' (flat h)).2.map seen ∧ HistOk cfg s' (flat h) := by
  induction h with
  | nil => intro n s' he _; exact ⟨he, rfl, trivial⟩
  | cons p h ih =>
    intro n s' he hok
    obtain ⟨env, e⟩ := p
    obtain ⟨a, b⟩ := next_sim (cfg := cfg) (env := env) (n := n) e
    obtain ⟨c, d⟩ := run_sim (cfg := cfg) (flatOf (env, e)) he
    obtain ⟨f, g, i⟩ := ih (a.trans c) hok.2
    have hf : flat ((env, e) :: h) = flatOf (env, e) ++ flat h := rfl
    rw [hf, run_append, HistOk_append]
    simp only [runN, seenN, List.map_append]
    exact ⟨f, by rw [b, d, g], ev_ok_sim he hok.1, i⟩

theorem end_sim (h : NHist K V E) (hok : NOk cfg {} h) : er (endN cfg h).s = er (stateAfter cfg (flat h)) := (hist_sim h rfl hok).1
theorem flat_ok (h : NHist K V E) (hok : NOk cfg {} h) : HistOk cfg St.init (flat h) := (hist_sim h rfl hok).2.2

-- invariants that do not see the waiters

theorem ids_fg (l : List (Entry K V E)) : (l.map fg).map (·.id) = l.map (·.id) := by rw [List.map_map]; rfl

theorem wf1_er : WF1 cfg (er s) ↔ WF1 cfg s := by
  have e1 : ((er s).ents ++ (er s).limbo).map (·.id) = (s.ents ++ s.limbo).map (·.id) := by
    rw [er_ents, er_limbo, ← List.map_append, ids_fg]
  have e2 : (er s).ents.map (·.id) = s.ents.map (·.id) := by rw [er_ents, ids_fg]
  have e3 : ∀ c, ((er s).ents.filter (fun e => cfg.hash e.key == c)).map (·.id) = (s.ents.filter (fun e => cfg.hash e.key == c)).map (·.id) := by
    intro c; rw [er_ents, List.filter_map, ids_fg]; rfl
  have e4 : Placed cfg (er s).tbl ↔ Placed cfg s.tbl := by
    constructor
    · intro h i b hb e he
      have := h i (b.map fg) (by simp [er, hb]) (fg e) (List.mem_map.2 ⟨e, he, rfl⟩)
      simpa using this
    · intro h i b hb e he
      simp only [er, List.getElem?_map, Option.map_eq_some_iff] at hb
      obtain ⟨b0, hb0, rfl⟩ := hb
      obtain ⟨x, hx, rfl⟩ := List.mem_map.1 he
      have := h i b0 hb0 x hx
      simpa using this
  constructor
  · intro h
    refine ⟨e1 ▸ h.ids, fun e he => ?_, e4.1 h.placed, fun c => e3 c ▸ h.sorted c, fun hm => ?_, h.dqN, fun i hi => e2 ▸ h.dqM i hi⟩
    · have := h.lt (fg e) (by rw [er_ents, er_limbo, ← List.map_append]; exact List.mem_map.2 ⟨e, he, rfl⟩)
      exact this
    · have := h.bq hm; rw [e2] at this; exact this
  · intro h
    refine ⟨e1.symm ▸ h.ids, fun e he => ?_, e4.2 h.placed, fun c => (e3 c).symm ▸ h.sorted c, fun hm => ?_, h.dqN, fun i hi => e2.symm ▸ h.dqM i hi⟩
    · rw [er_ents, er_limbo, ← List.map_append] at he
      obtain ⟨x, hx, rfl⟩ := List.mem_map.1 he
      exact h.lt x hx
    · rw [e2]; exact h.bq hm

end Hoard.NestedAsync
