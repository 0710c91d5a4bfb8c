import Verif.LoadLemmas
import Verif.ReclaimLemmas
/-! # Lemmas about the number of dead entries in the table -/
namespace Hoard
variable {K V E : Type} {cfg : Cfg K} {env : Env V} {s s' s'' : St K V E}

/-- The number of entries that are not expired, or are lookups in flight. -/
def needed (env : Env V) (s : St K V E) : Nat := (s.ents.filter (fun e => !stale env e)).length

/-- At most one entry is inserted, after some were removed. -/
def Mv2 (cfg : Cfg K) (env : Env V) (s s' : St K V E) : Prop :=
  Le2 s s' ∨ ∃ s1, Le2 s s1 ∧ needed env s1 ≤ needed env s ∧ s'.tbl.length = (maybeRehash cfg env s1).tbl.length ∧ s'.size = (maybeRehash cfg env s1).size + 1

theorem Mv2.same (h : Mv2 cfg env s s') (h' : Same2 s' s'') : Mv2 cfg env s s'' := by
  rcases h with h | ⟨s1, h1, h2, h3, h4⟩
  · exact .inl (h.trans h'.le)
  · exact .inr ⟨s1, h1, h2, h'.1.trans h3, h'.2.trans h4⟩

theorem drops_needed (h : Drops env s.ents s'.ents) : needed env s' ≤ needed env s := by
  obtain ⟨rem, hp, _⟩ := h
  have := (hp.filter (fun e => !stale env e)).length_eq
  rw [List.filter_append, List.length_append] at this
  unfold needed; omega

theorem mv2_link (h : Le2 s s') (hn : needed env s' ≤ needed env s) (e : Entry K V E) : Mv2 cfg env s (link cfg env s' e) :=
  .inr ⟨s', h, hn, (link_shape e).1, (link_shape e).2⟩

theorem mv2_tryLink (h : Le2 s s') (hn : needed env s' ≤ needed env s) (e : Entry K V E) (f : Fail) : Mv2 cfg env s (tryLink cfg env s' e f).1 := by
  rcases tryLink_cases cfg env s' e f with q | q | q <;> rw [q]
  · exact mv2_link h hn e
  · exact .inl h
  · exact .inl (h.trans beforeLink_le2)

theorem expire__needed (hc : cfg.Ok) (h : WF1 cfg s) (k : K) : needed env (expire_ cfg env s k) ≤ needed env s := by
  obtain ⟨kept, rem, p1, p2, _, p4⟩ := expire_spec hc h env k
  have h1 := (p1.filter (fun e => !stale env e)).length_eq
  have h2 := (p2.filter (fun e => !stale env e)).length_eq
  rw [List.filter_append, List.length_append] at h1
  unfold needed
  rw [h1, h2, List.filter_map, List.length_map]
  have : (kept.filter ((fun e => !stale env e) ∘ expUpd cfg k)).length ≤ (kept.filter (fun e => !stale env e)).length := by
    rw [← List.countP_eq_length_filter, ← List.countP_eq_length_filter]
    refine List.countP_mono_left fun e he hx => ?_
    by_cases hk : cfg.eqv e.key k = true
    · simp [stale, p4 e he hk]
    · simpa [expUpd, hk] using hx
  omega

theorem get_miss (hc : cfg.Ok) (h : WF1 cfg s) (k : K) (incl : Bool) (hn : (get_ cfg env s k incl).2 = .none) :
    Le2 s (get_ cfg env s k incl).1 ∧ needed env (get_ cfg env s k incl).1 ≤ needed env s := by
  refine ⟨get__le2 k incl, ?_⟩
  rw [get__eq hc h.placed] at hn ⊢
  cases hf : s.ents.find? (isHit cfg env k incl) with
  | none => exact drops_needed (walked_drops s env k incl)
  | some e =>
    rw [hf] at hn; simp only at hn
    obtain ⟨_, _, _, ⟨u, _, h3⟩ | h3⟩ := hit_facts hf
    · rw [h3] at hn; cases hn
    · rw [h3.2.2] at hn; cases hn

theorem step_mv2 (hc : cfg.Ok) (h : WF1 cfg s) (o : Op K V E) : Mv2 cfg env s (step cfg env s o).1 := by
  have hrest : Le2 s (step cfg env s o).1 → Mv2 cfg env s (step cfg env s o).1 := .inl
  have hmv := step_mv (env := env) hc h o
  cases o with
  | getIfExists k => exact .inl (.refl _)
  | count => exact .inl (.refl _)
  | erase k => exact .inl (expire__le2 hc h k)
  | clear =>
    rcases hmv with q | ⟨s1, q, q1, q2⟩
    · exact .inl q
    · refine .inl ⟨by simp [step, clear, dispose_tbl], ?_⟩
      have : ∀ t : List (List (Entry K V E)), (t.map (fun b => (expireAllWalk b).kept)).flatten.length ≤ t.flatten.length := by
        intro t
        induction t with
        | nil => simp
        | cons b t ih =>
          simp only [List.map_cons, List.flatten_cons, List.length_append]
          have : (expireAllWalk b).kept.length ≤ b.length := by simp only [expireAllWalk, List.length_map]; exact List.length_filter_le _ _
          omega
      simp only [step, clear, St.size, St.ents, dispose_tbl]
      exact this _
  | complete tok r => exact .inl (complete_same2 tok r).le
  | drop tok => exact .inl (drop_same2 tok).le
  | destroy =>
    refine .inl ⟨by simp [step, destroy, dispose_tbl], ?_⟩
    have : ∀ t : List (List (Entry K V E)), (t.map (fun _ => ([] : List (Entry K V E)))).flatten.length ≤ t.flatten.length := by
      intro t; induction t <;> simp_all <;> omega
    simp only [step, destroy, St.size, St.ents, dispose_tbl]
    exact this _
  | get k r =>
    simp only [step, get]
    have hm := get_miss (env := env) hc h k false
    have hl := get__le2 (cfg := cfg) (env := env) (s := s) k false
    split
    · rename_i hq
      obtain ⟨h1, h2⟩ := hm hq
      exact mv2_link h1 h2 _
    all_goals exact .inl hl
  | asyncGet k w b =>
    simp only [step]
    rw [asyncGet_eq hc h.placed]
    cases hf : s.ents.find? (isHit cfg env k true) with
    | none =>
      obtain ⟨h1, h2⟩ := get_miss (env := env) hc h k true (by rw [get__eq hc h.placed, hf])
      simp only
      exact ((mv2_link h1 h2 _).same (resolveAsync_same2 _ _)).same (answer_same2 _ _ _)
    | some e => exact .inl ((get__le2 k true).trans (answer_same2 _ _ _).le)
  | emplace k v f =>
    simp only [step, emplace]
    split
    · exact (mv2_tryLink (expire__le2 hc h k) (expire__needed hc h k) _ _).same maintenance_same2
    · exact mv2_tryLink (expire__le2 hc h k) (expire__needed hc h k) _ _
  | getOrEmplace k v f =>
    simp only [step, getOrEmplace]
    have hm := get_miss (env := env) hc h k true
    have hl := get__le2 (cfg := cfg) (env := env) (s := s) k true
    split
    · exact .inl (hl.trans maintenance_same2.le)
    · rename_i hq
      obtain ⟨h1, h2⟩ := hm hq
      split
      · exact (mv2_tryLink h1 h2 _ _).same maintenance_same2
      · exact mv2_tryLink h1 h2 _ _
    · exact .inl (hl.trans maintenance_same2.le)
  | tick r b =>
    simp only [step, tick]
    split
    · exact .inl (.refl _)
    · rename_i i q _
      split
      · exact .inl (.refl _)
      · rename_i e _
        split
        · unfold refresh
          split
          · exact .inl ⟨rfl, Nat.le_refl _⟩
          · simp only
            have h0 : Le2 s { s with delayQ := q } := ⟨rfl, Nat.le_refl _⟩
            have h00 : needed env { s with delayQ := q } ≤ needed env s := Nat.le_refl _
            have hres : Mv2 cfg env s (if cfg.resolver = .async then resolveAsync cfg env { s with delayQ := q } e.key b else resolveSync cfg env { s with delayQ := q } e.key r).1 := by
              split
              · exact (mv2_link h0 h00 _).same (resolveAsync_same2 _ _)
              · exact mv2_link h0 h00 _
            generalize (if cfg.resolver = .async then resolveAsync cfg env { s with delayQ := q } e.key b else resolveSync cfg env { s with delayQ := q } e.key r) = g at *
            obtain ⟨s1, tok⟩ := g
            simp only at *
            have h1 := hres.same (modify_same2 s1 e.id (fun x => { x with refreshing := true }))
            repeat' split
            · exact h1.same (modify_same2 _ _ _)
            · exact h1.same (runCb_same2 _ _)
            · exact h1
        · exact .inl (.refl _)

/-- What making room leaves: with few entries all of them, with many only those needed; the
number of buckets grows only if those needed are too many. -/
theorem maybeRehash_shape (s : St K V E) :
    ((maybeRehash cfg env s).size = needed env s ∧ cfg.over (s.size + 1) s.tbl.length = true ∨
      (maybeRehash cfg env s).size = s.size ∧ cfg.over (s.size + 1) s.tbl.length = false) ∧
    ((maybeRehash cfg env s).tbl.length = s.tbl.length ∨ s.tbl.length = 0 ∧ (maybeRehash cfg env s).tbl.length = 4 ∨
      s.tbl.length ≠ 0 ∧ (maybeRehash cfg env s).tbl.length ≤ 2 * s.tbl.length ∧ cfg.over (needed env s + 1) s.tbl.length = true ∧
        (maybeRehash cfg env s).size = needed env s) := by
  have hb : (beforeLink cfg env s).size = needed env s ∧ cfg.over (s.size + 1) s.tbl.length = true ∨
      (beforeLink cfg env s).size = s.size ∧ cfg.over (s.size + 1) s.tbl.length = false := by
    unfold beforeLink
    by_cases ho : cfg.over (s.size + 1) s.tbl.length = true
    · rw [if_pos ho]; exact .inl ⟨by simp only [St.size, purge_ents, needed], ho⟩
    · rw [if_neg ho]; exact .inr ⟨rfl, by simpa using ho⟩
  have hl : (beforeLink cfg env s).tbl.length = s.tbl.length := beforeLink_len
  unfold maybeRehash; simp only
  by_cases hm : mustGrow cfg (beforeLink cfg env s) = true
  · rw [if_pos hm]
    obtain ⟨l, z⟩ := rehash_shape (cfg := cfg) (s := beforeLink cfg env s) (grown cfg (beforeLink cfg env s).tbl.length) (grown_pos hm)
    rw [l, z, hl]
    refine ⟨hb, ?_⟩
    by_cases h0 : s.tbl.length = 0
    · exact .inr (.inl ⟨h0, by simp [grown, h0]⟩)
    · simp only [mustGrow, hl, h0, decide_false, Bool.false_or, Bool.and_eq_true] at hm
      refine .inr (.inr ⟨h0, ?_, ?_⟩)
      · unfold grown; rw [if_neg h0]; split <;> omega
      · rcases hb with hb | hb
        · exact ⟨hb.1 ▸ hm.1, hb.1⟩
        · rw [hb.1, hb.2] at hm; cases hm.1
  · rw [if_neg hm, hl]
    exact ⟨hb, .inl rfl⟩

end Hoard
