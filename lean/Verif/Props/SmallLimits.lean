import Verif.Props.Load
import Verif.Props.Values
import Verif.Props.Floats
import Verif.Props.Full
/-! # C27 and C105 for load factor limits below 1/4

The first insertion makes four buckets, whatever the limit is, and each insertion doubles their number at most.  So a small limit is not
kept at first.  It is as soon as there are enough entries: the exact number is given here, for each limit. -/
namespace Hoard
variable {K V E : Type} {cfg : Cfg K} {env : Env V} {s : St K V E}

/-- What the test `over` satisfies, whatever the limit. -/
structure Room1 (over : Nat → Nat → Bool) : Prop where
  mono : ∀ n m b, m ≤ n → over n b = false → over m b = false
  dbl : ∀ n b, 0 < n → 0 < b → over n b = false → over (n + 1) (2 * b) = false

/-- The limit is kept, or there are few entries, or the table is as large as it can be. -/
def Kept3 (cfg : Cfg K) (n b : Nat) : Prop := (b = 0 ∧ n = 0) ∨ (4 ≤ b ∧ (cfg.over n b = false ∨ 2 ^ (n + 1) ≤ b ∨ cfg.maxBuckets ≤ b))

theorem Kept3.le (hr : Room1 cfg.over) {n m b : Nat} (h : Kept3 cfg n b) (hm : m ≤ n) : Kept3 cfg m b := by
  rcases h with h | ⟨h4, h | h | h⟩
  · exact .inl ⟨h.1, by omega⟩
  · exact .inr ⟨h4, .inl (hr.mono _ _ _ hm h)⟩
  · exact .inr ⟨h4, .inr (.inl (Nat.le_trans (Nat.pow_le_pow_right (by omega) (by omega)) h))⟩
  · exact .inr ⟨h4, .inr (.inr h)⟩

theorem link_kept3 (hr : Room1 cfg.over) (h : Kept3 cfg s.size s.tbl.length) : Kept3 cfg ((maybeRehash cfg env s).size + 1) (maybeRehash cfg env s).tbl.length := by
  have hb := beforeLink_le2 (cfg := cfg) (env := env) (s := s)
  have h := h.le hr hb.2
  rw [← hb.1] at h
  unfold maybeRehash; simp only
  split
  · rename_i hg
    obtain ⟨l, z⟩ := rehash_shape (cfg := cfg) (s := beforeLink cfg env s) (grown cfg (beforeLink cfg env s).tbl.length) (grown_pos hg)
    rw [l, z]
    simp only [mustGrow, Bool.or_eq_true, decide_eq_true_eq, Bool.and_eq_true] at hg
    have hg := hg.imp_right And.right
    generalize (beforeLink cfg env s).tbl.length = b at *
    generalize hn : (beforeLink cfg env s).size = n at *
    unfold grown
    rcases h with h | ⟨h4, h⟩
    · rw [if_pos h.1, h.2]; exact .inr ⟨Nat.le_refl _, .inr (.inl (by decide))⟩
    · have hb0 : ¬ b = 0 := by omega
      rw [if_neg hb0]
      split
      · exact .inr ⟨by omega, .inr (.inr (Nat.le_refl _))⟩
      · refine .inr ⟨by omega, ?_⟩
        rcases h with h | h | h
        · rcases Nat.eq_zero_or_pos n with rfl | hn0
          · exact .inr (.inl (by simp; omega))
          · exact .inl (hr.dbl n b hn0 (by omega) h)
        · exact .inr (.inl (by rw [Nat.pow_succ]; omega))
        · omega
  · rename_i hg
    simp only [mustGrow, Bool.or_eq_true, decide_eq_true_eq, Bool.and_eq_true, not_or, not_and, Nat.not_lt] at hg
    generalize (beforeLink cfg env s).tbl.length = b at *
    generalize (beforeLink cfg env s).size = n at *
    have h4 : 4 ≤ b := by
      rcases h with h | h
      · exact absurd h.1 hg.1
      · exact h.1
    cases hov : cfg.over (n + 1) b
    · exact .inr ⟨h4, .inl hov⟩
    · exact .inr ⟨h4, .inr (.inr (hg.2 hov))⟩

theorem step_kept3 (hc : cfg.Ok) (hr : Room1 cfg.over) (hw : WF1 cfg s) (h : Kept3 cfg s.size s.tbl.length) (o : Op K V E) :
    Kept3 cfg (step cfg env s o).1.size (step cfg env s o).1.tbl.length := by
  rcases step_mv (env := env) hc hw o with q | ⟨s1, q, q1, q2⟩
  · rw [q.1]; exact h.le hr q.2
  · rw [q1, q2]
    refine link_kept3 hr ?_
    rw [q.1]; exact h.le hr q.2

theorem step_doubles (hc : cfg.Ok) (hw : WF1 cfg s) (o : Op K V E) :
    (step cfg env s o).1.tbl.length ≤ 4 ∨ (step cfg env s o).1.tbl.length ≤ 2 * s.tbl.length := by
  rcases step_mv (env := env) hc hw o with q | ⟨s1, q, q1, q2⟩
  · rw [q.1]; omega
  · rw [q1, ← q.1, ← beforeLink_len (cfg := cfg) (env := env) (s := s1)]
    unfold maybeRehash; simp only
    split
    · rename_i hg
      rw [(rehash_shape _ (grown_pos hg)).1]
      unfold grown
      split
      · exact .inl (Nat.le_refl _)
      · split <;> omega
    · omega

end Hoard

namespace Hoard.Props
open Hoard Spec Demo Flt
variable {K V E : Type} {cfg : Cfg K}

theorem kept3_run (hc : cfg.Ok) (hr : Room1 cfg.over) (h : Hist K V E) (hok : HistOk cfg St.init h) : Kept3 cfg (stateAfter cfg h).size (stateAfter cfg h).tbl.length := by
  induction h using snoc_ind with
  | h0 => exact .inl ⟨rfl, rfl⟩
  | h1 l a ih =>
    obtain ⟨env, o⟩ := a
    have hok1 := (HistOk_append.1 hok).1
    rw [stateAfter_snoc]
    exact step_kept3 hc hr (good_any hc _ hok1 env).wf1 (ih hok1) o

theorem room1_ratio {p q : Nat} : Room1 (fun n b => decide (n * q > p * b)) where
  mono := by
    intro n m b hm hn
    simp only [gt_iff_lt, decide_eq_false_iff_not, Nat.not_lt] at *
    exact Nat.le_trans (Nat.mul_le_mul_right q hm) hn
  dbl := by
    intro n b h0 hb hn
    simp only [gt_iff_lt, decide_eq_false_iff_not, Nat.not_lt] at *
    have h2 : p * (2 * b) = p * b + p * b := by rw [← Nat.mul_assoc, Nat.mul_comm p 2, Nat.mul_assoc]; omega
    have h3 : q ≤ n * q := Nat.le_mul_of_pos_left q h0
    rw [Nat.add_mul, h2]; omega

/-- C27 for every limit `p / q`: at all times the limit is kept, or the table has at least `2 ^ (n + 1)` buckets for its `n` entries, or as many as
possible. -/
theorem C27_any_limit (hc : cfg.Ok) {p q : Nat} (hov : cfg.over = fun n b => decide (n * q > p * b)) (h : Hist K V E) (hok : HistOk cfg St.init h) :
    (stateAfter cfg h).size * q ≤ p * (stateAfter cfg h).tbl.length ∨ 2 ^ ((stateAfter cfg h).size + 1) ≤ (stateAfter cfg h).tbl.length ∨
      cfg.maxBuckets ≤ (stateAfter cfg h).tbl.length := by
  rcases kept3_run hc (hov ▸ room1_ratio) h hok with h | ⟨-, h | h | h⟩
  · left; rw [h.1, h.2]; simp
  · left; rw [hov] at h; simpa using h
  · exact .inr (.inl h)
  · exact .inr (.inr h)

/-- C27, how many entries are enough: if there are `n` and `n * q ≤ p * 2 ^ (n + 1)`, the limit is kept, whatever the history.  For limits of at
least 1/4 every `n` will do; for a smaller limit all but finitely many.  (Partial: for the other `n` see `C27_exceeded_exactly`.) -/
theorem C27_enough_entries_partial (hc : cfg.Ok) {p q : Nat} (hov : cfg.over = fun n b => decide (n * q > p * b)) (h : Hist K V E) (hok : HistOk cfg St.init h)
    (hn : (stateAfter cfg h).size * q ≤ p * 2 ^ ((stateAfter cfg h).size + 1)) :
    (stateAfter cfg h).size * q ≤ p * (stateAfter cfg h).tbl.length ∨ cfg.maxBuckets ≤ (stateAfter cfg h).tbl.length := by
  rcases C27_any_limit hc hov h hok with h | h | h
  · exact .inl h
  · exact .inl (Nat.le_trans hn (Nat.mul_le_mul_left p h))
  · exact .inr h

theorem buckets_le (hc : cfg.Ok) (h : Hist K V E) (hok : HistOk cfg St.init h) : (stateAfter cfg h).tbl.length ≤ 2 ^ (h.length + 1) := by
  induction h using snoc_ind with
  | h0 => exact Nat.zero_le _
  | h1 l a ih =>
    obtain ⟨env, o⟩ := a
    have hok1 := (HistOk_append.1 hok).1
    have := ih hok1
    rw [stateAfter_snoc, List.length_append, List.length_singleton, Nat.pow_succ]
    have h2 : 2 ≤ 2 ^ (l.length + 1) := by rw [Nat.pow_succ]; have := Nat.two_pow_pos l.length; omega
    rcases step_doubles (env := env) hc (good_any hc _ hok1 env).wf1 o with h | h <;> omega

theorem mapRun_puts (eqv : K → K → Bool) (refl : ∀ a, eqv a a = true) (ks : List K) (v : V) (m : K → Option V) (k : K) (hk : k ∈ ks ∨ m k = some v) :
    ∃ l, mapRun (E := E) eqv false m (ks.map (fun k => .emplace k v) ++ [.getIfExists k]) = l ++ [.val v] := by
  induction ks generalizing m with
  | nil =>
    rcases hk with hk | hk
    · cases hk
    · exact ⟨[], by simp [mapRun, mapStep, hk, found]⟩
  | cons a ks ih =>
    obtain ⟨l, hl⟩ := ih (setAt eqv m a (some v)) (by
      rcases hk with hk | hk
      · rcases List.mem_cons.1 hk with rfl | hk
        · exact .inr (by simp [setAt, refl])
        · exact .inl hk
      · right; unfold setAt; split
        · rfl
        · exact hk)
    exact ⟨.unit :: l, by simp [mapRun, mapStep, hl]⟩

/-- The history that puts the value `v` for each of the keys. -/
def puts (env : Env V) (v : V) (ks : List K) : Hist K V E := ks.map (fun k => (env, .emplace k v .none))

theorem puts_size (hc : cfg.Ok) (hs : cfg.maxSize = none) (ha : cfg.maxAge = none) (hr : cfg.refresh = none) (hk : cfg.resolver = .none)
    (env : Env V) (v : V) (ks : List K) (hd : ks.Pairwise (fun a b => cfg.eqv a b = false)) :
    HistOk cfg St.init (puts (E := E) env v ks) ∧ ks.length ≤ (stateAfter cfg (puts (E := E) env v ks)).size := by
  have hcalls : puts (E := E) env v ks = calls (ks.map (fun k => (env, .emplace k v))) := by simp [puts, calls, MapOp.toOp]
  have hk' : cfg.resolver ≠ .async := by rw [hk]; decide
  have hok : HistOk cfg St.init (puts (E := E) env v ks) := hcalls ▸ (calls_ok hk' _).1
  refine ⟨hok, ?_⟩
  have g := good_any hc _ hok env
  have hin : ∀ k ∈ ks, ∃ y ∈ (stateAfter cfg (puts (E := E) env v ks)).ents.map (·.key), cfg.eqv k y = true := by
    intro k hkm
    have h1 := C02_unlimited_cache_is_a_map (E := E) hc hs ha hr hk (ks.map (fun k => (env, .emplace k v)) ++ [(env, .getIfExists k)])
    obtain ⟨l, hl⟩ := mapRun_puts (E := E) cfg.eqv hc.refl ks v (fun _ => none) k (.inl hkm)
    simp only [List.map_append, List.map_map, List.map_cons, List.map_nil, Function.comp_def, run_append] at h1 hl
    rw [hl] at h1
    have h2 := (List.append_inj' h1 rfl).2
    have h3 : (getIfExists cfg env (stateAfter cfg (puts (E := E) env v ks)) k).ret = .val v := by
      simpa [run, step, MapOp.toOp, puts, stateAfter, Function.comp_def] using h2
    have h4 := (holds_iff hc g env k).2 ⟨v, h3⟩
    simp only [holds, List.any_eq_true, Bool.and_eq_true] at h4
    obtain ⟨e, he, -, hek⟩ := h4
    exact ⟨e.key, List.mem_map.2 ⟨e, he, rfl⟩, hc.symm _ _ hek⟩
  have := distinct_le hc.symm hc.trans ks _ hd hin
  simpa [St.size] using this

/-- C27 is false for every limit below 1/4, and this is exact: for each `n` with `n * q > p * 2 ^ (n + 1)`, `n` different keys put into a new
cache exceed the limit, although there could be more buckets. -/
theorem C27_exceeded_exactly (hc : cfg.Ok) (hs : cfg.maxSize = none) (ha : cfg.maxAge = none) (hr : cfg.refresh = none) (hk : cfg.resolver = .none)
    (env : Env V) (v : V) (ks : List K) (hd : ks.Pairwise (fun a b => cfg.eqv a b = false)) {p q : Nat}
    (hn : ks.length * q > p * 2 ^ (ks.length + 1)) (hmx : 2 ^ (ks.length + 1) < cfg.maxBuckets) :
    let s := stateAfter cfg (puts (E := E) env v ks)
    s.size * q > p * s.tbl.length ∧ s.tbl.length < cfg.maxBuckets := by
  obtain ⟨hok, hsz⟩ := puts_size (E := E) hc hs ha hr hk env v ks hd
  have hb := buckets_le hc _ hok
  have hl : (puts (E := E) env v ks).length = ks.length := by simp [puts]
  rw [hl] at hb
  refine ⟨?_, by omega⟩
  exact Nat.lt_of_le_of_lt (Nat.mul_le_mul_left p hb) (Nat.lt_of_lt_of_le hn (Nat.mul_le_mul_right q hsz))

/-- With the limit 1/10 this concerns up to four entries, from five on the limit is kept: here four keys, and a history after which there are five entries. -/
example :
    let c : Cfg Nat := { plain with over := fun n b => decide (n * 10 > 1 * b) }
    let s := stateAfter c (puts (E := Nat) (at_ 0) 7 [1, 2, 3, 4])
    let s' := stateAfter c (puts (E := Nat) (at_ 0) 7 [1, 2, 3, 4, 5] ++ [(at_ 0, .erase 3), (at_ 0, .emplace 9 7 .none)])
    (s.size * 10 > 1 * s.tbl.length ∧ s.tbl.length < c.maxBuckets) ∧ s.size = 4 ∧ s'.size = 5 ∧ (s'.size * 10 ≤ 1 * s'.tbl.length ∨ c.maxBuckets ≤ s'.tbl.length) := by
  intro c s s'
  have hc : c.Ok := nat_ok rfl (by intro d i h; cases h)
  refine ⟨C27_exceeded_exactly hc rfl rfl rfl rfl (at_ 0) 7 [1, 2, 3, 4] (by decide) (by decide) (by decide), by decide, by decide, ?_⟩
  exact C27_enough_entries_partial hc rfl _ (by decide) (by decide)

theorem room1_float {l : ℚ} (hf : IsFloat l) : Room1 (over (.fin l)) where
  mono := by
    intro n m b hm h
    rcases Nat.eq_zero_or_pos b with rfl | hb
    · rcases Nat.eq_zero_or_pos m with rfl | hm0
      · simp [over, ofNat, div, Flt.fl_zero, gt]
      · have hn := Flt.fl_nat_pos (n := n) (by omega)
        simp [over, ofNat, div, Flt.fl_zero, gt, hn.ne', not_lt.2 hn.le] at h
    · exact Flt.over_mono hb hm h
  dbl := by
    intro n b hn hb h
    have h2 : 0 < 2 * b := by omega
    rw [Flt.over_fin (Flt.isFloat_lt hf) _ hb] at h
    rw [Flt.over_fin (Flt.isFloat_lt hf) _ h2]
    simp only [decide_eq_false_iff_not, not_lt] at h ⊢
    refine le_trans (Flt.fl_mono (div_nonneg (Flt.fl_nonneg (by positivity)) (Flt.fl_nonneg (by positivity))) ?_) h
    have hbp := Flt.fl_nat_pos (n := b) hb
    have hm := Flt.fl_nat_mono (n := n + 1) (m := 2 * n) (by omega)
    rw [Flt.fl_double_nat] at hm ⊢
    rw [div_le_div_iff₀ (by linarith) hbp]
    nlinarith

/-- C105 for every limit that a `float` can hold and that is not negative: at all times the load factor that the table reports is not above the
limit, or the table has at least `2 ^ (n + 1)` buckets for its `n` entries, or as many as possible. -/
theorem C105_any_limit (hc : cfg.Ok) {l : ℚ} (hf : IsFloat l) (hl : 0 ≤ l) (hov : cfg.over = over (.fin l)) (h : Hist K V E) (hok : HistOk cfg St.init h) :
    gt (loadFactor (stateAfter cfg h).size (stateAfter cfg h).tbl.length) (.fin l) = false ∨
      2 ^ ((stateAfter cfg h).size + 1) ≤ (stateAfter cfg h).tbl.length ∨ cfg.maxBuckets ≤ (stateAfter cfg h).tbl.length := by
  rcases kept3_run hc (hov ▸ room1_float hf) h hok with h | ⟨-, h | h | h⟩
  · left
    rw [h.2]; simp [loadFactor, gt]; linarith
  · left
    unfold loadFactor
    split
    · simp [gt]; linarith
    · rwa [hov] at h
  · exact .inr (.inl h)
  · exact .inr (.inr h)

/-- The hypotheses can be met, with the limit 1/16: after two insertions the table has eight buckets, and the load factor is 1/4. -/
example (mx : Nat) :
    let c : Cfg Nat := { plain with over := over (.fin (1 / 16)), maxBuckets := mx }
    let s := stateAfter c (puts (E := Nat) (at_ 0) 7 [1, 2])
    gt (loadFactor s.size s.tbl.length) (.fin (1 / 16)) = false ∨ 2 ^ (s.size + 1) ≤ s.tbl.length ∨ mx ≤ s.tbl.length := by
  intro c s
  have hc : c.Ok := nat_ok rfl (by intro d i h; cases h)
  exact C105_any_limit hc (l := 1 / 16) ⟨1, -4, by norm_num⟩ (by norm_num) rfl _ ((calls_ok (fun h => by cases h) [(at_ 0, .emplace 1 7), (at_ 0, .emplace 2 7)]).1)

end Hoard.Props
