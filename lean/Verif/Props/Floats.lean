import Verif.FloatsTab
import Verif.Demo
/-! # Load factors in single precision: C105

`F` are the values of type `float`, `rn` rounds, `over l n b` is the test whether `n` entries are too many for `b` buckets with the
limit `l`, `Tab` a table: `n` entries, `b` buckets, limit `l`, at most `mx` buckets.  `IsFloat` and `Nearest` are in `Verif.Spec.Floats`. -/
namespace Hoard.Props
open Spec Demo
open Flt (F rn over div ofNat loadFactor gt fl need)
variable {K V E : Type} {cfg : Cfg K}

/-! ## The arithmetic -/

/-- C105, the arithmetic.  Rounding a number gives the nearest `float`; of two that are as near, it is the one that is an even multiple of
their distance.  Numbers from `2 ^ 128 - 2 ^ 103` on become infinite. -/
theorem C105_rounding (x : ℚ) (hx : 0 ≤ x) :
    (x < 2 ^ 128 - 2 ^ 103 → ∃ y, rn x = .fin y ∧ Nearest x y ∧ ∀ z, IsFloat z → z ≠ y → |x - z| = |x - y| → ∃ k : ℤ, y = 2 * k * |y - z|) ∧
    (2 ^ 128 - 2 ^ 103 ≤ x → rn x = .inf false) := by
  constructor
  · intro h
    have h1 := (Flt.fl_lt_iff hx).2 h
    refine ⟨fl x, ?_, ⟨Flt.isFloat_of_rep (Flt.fl_nonneg hx) (Flt.fl_rep hx) h1, fun z hz => Flt.fl_near hx (.of_isFloat hz)⟩, ?_⟩
    · unfold rn
      rw [abs_of_nonneg (Flt.fl_nonneg hx), if_pos h1]
    · intro z hz hne he
      exact Flt.fl_tie hx (.of_isFloat hz) hne he
  · intro h
    have h1 : ¬ fl x < 2 ^ 128 := fun hc => absurd ((Flt.fl_lt_iff hx).1 hc) (not_lt.2 h)
    unfold rn
    rw [abs_of_nonneg (Flt.fl_nonneg hx), if_neg h1]
    simp [not_lt.2 hx]

/-- C105.  With the default limit 1, the test is exact for tables of up to `2 ^ 24` entries and buckets. -/
theorem C105_default_is_exact (n b : Nat) (hn : n ≤ 2 ^ 24) (hb : b ≤ 2 ^ 24) : over (.fin 1) n b = decide (n > b) := by
  rcases Nat.eq_zero_or_pos b with rfl | hb0
  · rcases Nat.eq_zero_or_pos n with rfl | hn0
    · simp [over, ofNat, div, Flt.fl_zero, gt]
    · have := Flt.fl_nat_pos hn0
      simp [over, ofNat, div, Flt.fl_zero, gt, this.ne', not_lt.2 this.le, hn0]
  · have h1 : Flt.Rep 1 := by simpa using Flt.rep_natpow 0
    rcases Nat.lt_or_ge b n with h | h
    · rw [Flt.over_fin (by norm_num) _ hb0, Flt.fl_nat hn, Flt.fl_nat hb]
      have hbq : (0 : ℚ) < b := by exact_mod_cast hb0
      have hb24 : (b : ℚ) ≤ 2 ^ 24 := by exact_mod_cast hb
      have hnb : (b : ℚ) + 1 ≤ n := by exact_mod_cast h
      have hq : 1 + 1 / 2 ^ 24 ≤ (n : ℚ) / b := by
        rw [le_div_iff₀ hbq]
        have : (1 : ℚ) / 2 ^ 24 * b ≤ 1 := by rw [div_mul_eq_mul_div, div_le_one (by norm_num)]; linarith
        linarith
      simp only [gt_iff_lt, h, decide_true, decide_eq_true_eq]
      -- the next float above 1 is `1 + 2 ^ (-23)`; half-way, rounding goes to 1, but that needs `b = 2 ^ 24`
      by_contra hc
      have hc := not_lt.1 hc
      have hx0 : (0 : ℚ) ≤ (n : ℚ) / b := by positivity
      have hnear := Flt.fl_near hx0 (⟨2 ^ 23 + 1, -23, by norm_num, by norm_num, rfl⟩ : Flt.Rep (((2 ^ 23 + 1 : ℤ) : ℚ) * 2 ^ (-23 : ℤ)))
      have e : ((2 ^ 23 + 1 : ℤ) : ℚ) * 2 ^ (-23 : ℤ) = 1 + 1 / 2 ^ 23 := by norm_num
      rw [e, abs_of_nonneg (by linarith)] at hnear
      have hle : (n : ℚ) / b ≤ 1 + 1 / 2 ^ 24 := by
        rcases abs_cases ((n : ℚ) / b - (1 + 1 / 2 ^ 23)) with ⟨a, _⟩ | ⟨a, _⟩ <;> rw [a] at hnear <;> norm_num at * <;> linarith
      have heq : (n : ℚ) / b = 1 + 1 / 2 ^ 24 := le_antisymm hle hq
      rw [div_eq_iff hbq.ne'] at heq
      have hb' : (b : ℚ) = 2 ^ 24 := by
        have hn24 : (b : ℚ) + 1 ≤ b + b / 2 ^ 24 := by
          calc (b : ℚ) + 1 ≤ n := hnb
            _ = _ := by rw [heq]; ring
        have : (2 : ℚ) ^ 24 ≤ b := by
          have : (1 : ℚ) ≤ b / 2 ^ 24 := by linarith
          rwa [le_div_iff₀ (by norm_num), one_mul] at this
        exact le_antisymm hb24 this
      have : b = 2 ^ 24 := by exact_mod_cast hb'
      omega
    · rw [Flt.not_over (by norm_num) hb0 h1]
      · simp; omega
      · rw [one_mul]; exact Flt.fl_nat_mono h

/-! ## The limit -/

theorem kept2_float (hc : cfg.Ok) {l : ℚ} (hf : IsFloat l) (hq : 1 / 4 ≤ l) (hov : cfg.over = over (.fin l)) (h : Hist K V E)
    (hok : HistOk cfg St.init h) : Kept2 cfg (stateAfter cfg h).size (stateAfter cfg h).tbl.length := by
  have hr : Room cfg.over := hov ▸ Flt.room_float hf hq
  induction h using snoc_ind with
  | h0 => exact .inl ⟨rfl, rfl⟩
  | h1 l a ih =>
    obtain ⟨env, o⟩ := a
    have hok1 := (HistOk_append.1 hok).1
    rw [stateAfter_snoc]
    exact step_kept2 hc hr (good_any hc _ hok1 env).wf1 (ih hok1) o

/-- C105.  With a limit of at least 1/4: at all times the load factor that the table reports is not above the limit that it reports,
unless the table has the maximal number of buckets. -/
theorem C105_reported_limit_kept_partial (hc : cfg.Ok) {l : ℚ} (hf : IsFloat l) (hq : 1 / 4 ≤ l) (hov : cfg.over = over (.fin l))
    (h : Hist K V E) (hok : HistOk cfg St.init h) :
    gt (loadFactor (stateAfter cfg h).size (stateAfter cfg h).tbl.length) (.fin l) = false ∨ cfg.maxBuckets ≤ (stateAfter cfg h).tbl.length := by
  rcases kept2_float hc hf hq hov h hok with h | h | h
  · left
    rw [h.2]; simp [loadFactor, gt]; linarith
  · left
    unfold loadFactor
    split
    · simp [gt]; linarith
    · have := h.2
      rwa [hov] at this
  · exact .inr h.2

/-- C105.  The true quotient may be above the limit, but by no more than one part in `2 ^ 22`. -/
theorem C105_real_limit_nearly_kept (hc : cfg.Ok) {l : ℚ} (hf : IsFloat l) (hq : 1 / 4 ≤ l) (hov : cfg.over = over (.fin l))
    (h : Hist K V E) (hok : HistOk cfg St.init h) :
    ((stateAfter cfg h).size : ℚ) ≤ l * (stateAfter cfg h).tbl.length * (1 + 1 / 2 ^ 22) ∨ cfg.maxBuckets ≤ (stateAfter cfg h).tbl.length := by
  rcases kept2_float hc hf hq hov h hok with h | h | h
  · left; rw [h.1, h.2]; simp
  · left
    refine Flt.not_over_real hf (by omega) (le_trans (by norm_num) hq) ?_
    rw [← hov]; exact h.2
  · exact .inr h.2

/-- The insertion of `Verif.Cache` changes the number of entries and buckets as `Tab.link` does. -/
theorem C105_models_agree {l : F} (hov : cfg.over = over l) (env : Env V) (s : St K V E) (e : Entry K V E) :
    (⟨(link cfg env s e).size, (link cfg env s e).tbl.length, l, cfg.maxBuckets⟩ : Flt.Tab) =
      Flt.Tab.link ⟨s.size, s.tbl.length, l, cfg.maxBuckets⟩ (s.ents.filter (fun e => e.expired env && !e.isPending)).length := by
  have hl : (beforeLink cfg env s).size =
      Flt.Tab.left ⟨s.size, s.tbl.length, l, cfg.maxBuckets⟩ (s.ents.filter (fun e => e.expired env && !e.isPending)).length := by
    unfold beforeLink Flt.Tab.left
    rw [hov]
    split
    · simp only [St.size, purge_ents]
      have : ∀ l : List (Entry K V E), (l.filter (fun e => !stale env e)).length = l.length - (l.filter (fun e => e.expired env && !e.isPending)).length := by
        intro l
        induction l with
        | nil => rfl
        | cons e l ih =>
          have := List.length_filter_le (fun e : Entry K V E => e.expired env && !e.isPending) l
          simp only [List.filter_cons, stale] at ih ⊢
          cases (e.expired env && !e.isPending) <;> simp only [Bool.not_false, Bool.not_true, if_true, Bool.false_eq_true, if_false, List.length_cons, ih] <;> omega
      exact this _
    · rfl
  have hb := beforeLink_len (cfg := cfg) (env := env) (s := s)
  rw [(link_shape e).1, (link_shape e).2]
  unfold Flt.Tab.link maybeRehash
  simp only
  rw [← hl]
  by_cases hm : mustGrow cfg (beforeLink cfg env s) = true
  · have h2 := hm
    simp only [mustGrow, Bool.or_eq_true, decide_eq_true_eq, Bool.and_eq_true, hov, hb] at h2
    rw [if_pos hm, if_pos h2]
    have := rehash_shape (cfg := cfg) (s := beforeLink cfg env s) (grown cfg (beforeLink cfg env s).tbl.length) (grown_pos hm)
    rw [this.1, this.2, hb]
    rfl
  · have h2 := hm
    simp only [mustGrow, Bool.or_eq_true, decide_eq_true_eq, Bool.and_eq_true, hov, hb] at h2
    rw [if_neg hm, if_neg h2, hb]

theorem links_small (k : Nat) (hk : 2 ≤ k) (N : Nat) (hN : fl (N : ℚ) ≤ (2 ^ k : Nat)) (mx : Nat) (hmx : 2 ^ k < mx) :
    let t := (Flt.Tab.init (.fin 1) mx).run (List.replicate N (.link 0))
    t.n = N ∧ t.l = .fin 1 ∧ t.mx = mx ∧ t.b ≤ 2 ^ k := by
  have h2k : 4 ≤ 2 ^ k := le_trans (by norm_num) (Nat.pow_le_pow_right (by norm_num) hk)
  have key : ∀ i, i ≤ N → let t := (Flt.Tab.init (.fin 1) mx).run (List.replicate i (.link 0))
      t.n = i ∧ t.l = .fin 1 ∧ t.mx = mx ∧ (t.b = 0 ∨ ∃ a, a ≤ k ∧ t.b = 2 ^ a) := by
    intro i
    induction i with
    | zero => intro _; exact ⟨rfl, rfl, rfl, .inl rfl⟩
    | succ i ih =>
      intro hi
      obtain ⟨h1, h2, h3, h4⟩ := ih (by omega)
      simp only [List.replicate_succ', Flt.run_snoc]
      generalize (Flt.Tab.init (.fin 1) mx).run (List.replicate i (.link 0)) = t at *
      have hl := Flt.step_l t (.link 0)
      have hleft : t.left 0 = i := by unfold Flt.Tab.left; split <;> simp [h1]
      refine ⟨?_, hl.1.trans h2, hl.2.trans h3, .inr ?_⟩
      · simp only [Flt.Tab.step, Flt.Tab.link, hleft]; split <;> rfl
      · simp only [Flt.Tab.step, Flt.Tab.link, hleft]
        rcases h4 with hb | ⟨a, hak, hb⟩
        · refine ⟨2, by omega, ?_⟩
          simp [hb]
        · have hb0 : ¬ t.b = 0 := by rw [hb]; positivity
          have hpa : 0 < 2 ^ a := by positivity
          split
          · rename_i hg
            have hg := hg.resolve_left hb0
            have hlt : a < k := by
              rcases Nat.lt_or_ge a k with h | h
              · exact h
              · exfalso
                have : a = k := by omega
                subst this
                rw [h2, hb, Flt.not_over (by norm_num) hpa (by simpa using Flt.rep_natpow 0)] at hg
                · simp at hg
                · rw [one_mul, Flt.fl_natpow]
                  exact (Flt.fl_nat_mono hi).trans hN
            have hle : 2 * 2 ^ a ≤ 2 ^ k := by
              rw [← pow_succ']; exact Nat.pow_le_pow_right (by norm_num) hlt
            have hbm2 : ¬ t.b > t.mx / 2 := by rw [hb, h3]; omega
            refine ⟨a + 1, by omega, ?_⟩
            simp only [if_neg hbm2]; rw [hb, pow_succ']
          · exact ⟨a, hak, hb⟩
  obtain ⟨h1, h2, h3, h4⟩ := key _ le_rfl
  refine ⟨h1, h2, h3, ?_⟩
  rcases h4 with h | ⟨a, ha, hb⟩
  · rw [h]; omega
  · rw [hb]; exact Nat.pow_le_pow_right (by norm_num) ha

/-- C105 is false for the exact quotient, with the default limit 1: for every `k ≥ 24`, a new table into which `2 ^ k + 2 ^ (k - 24)` entries
are put has no more than `2 ^ k` buckets. -/
theorem C105_large_tables_hold_more (k : Nat) (hk : 24 ≤ k) (mx : Nat) (hmx : 2 ^ k < mx) :
    let t := (Flt.Tab.init (.fin 1) mx).run (List.replicate (2 ^ k + 2 ^ (k - 24)) (.link 0))
    t.n = 2 ^ k + 2 ^ (k - 24) ∧ t.b ≤ 2 ^ k := by
  have h := links_small k (by omega) _ (Flt.fl_above hk).le mx hmx
  exact ⟨h.1, h.2.2.2⟩

/-! ## Reserving -/

theorem reserve_shape {t t' : Flt.Tab} {m d : Nat} {l : ℚ} (hl : t.l = .fin l) (h : t.reserve m d = some t') :
    ∃ r, need m (.fin l) = some r ∧ t'.l = .fin l ∧ t'.mx = t.mx ∧ (r ≤ t'.b ∨ t.mx ≤ t'.b) ∧ (t'.b = min r t.mx ∨ t'.b = t.b) := by
  unfold Flt.Tab.reserve at h
  rw [hl] at h
  cases hr : need m (.fin l) with
  | none => rw [hr] at h; simp at h
  | some r =>
    rw [hr] at h
    simp only [Option.map_some, Option.some.injEq] at h
    subst h
    refine ⟨r, rfl, ?_⟩
    split
    · exact ⟨rfl, rfl, by simp only; omega, .inl rfl⟩
    · exact ⟨hl, rfl, by omega, .inr rfl⟩

theorem over_anti {l : ℚ} (hf : IsFloat l) {n b c : Nat} (hb : 0 < b) (hbc : b ≤ c) (h : over (.fin l) n b = false) : over (.fin l) n c = false := by
  rw [Flt.over_fin (Flt.isFloat_lt hf) _ (by omega)]
  rw [Flt.over_fin (Flt.isFloat_lt hf) _ hb] at h
  simp only [decide_eq_false_iff_not, not_lt] at h ⊢
  have h1 := Flt.fl_nat_pos hb
  have h2 := Flt.fl_nat_mono hbc
  have h3 : 0 ≤ fl (n : ℚ) := Flt.fl_nonneg (by positivity)
  refine le_trans (Flt.fl_mono (div_nonneg h3 (h1.le.trans h2)) ?_) h
  exact div_le_div_of_nonneg_left h3 h1 h2

/-- C105.  After `reserve(m)` there is room for `m` entries less one part in `2 ^ 22`: the table does not grow, whatever insertions and
removals follow, while it has no more. -/
theorem C105_reserved_is_nearly_enough (t t' : Flt.Tab) (l : ℚ) (hf : IsFloat l) (hl0 : 0 < l) (hl : t.l = .fin l) (m d : Nat) (hm : 0 < m)
    (hmx : 0 < t.mx) (h : t.reserve m d = some t') (os : List Flt.Op)
    (hn : ∀ os1 os2, os = os1 ++ os2 → ((t'.run os1).n : ℚ) * (1 + 1 / 2 ^ 22) ≤ m) : (t'.run os).b = t'.b := by
  obtain ⟨r, h1, h2, h3, h4, h5⟩ := reserve_shape hl h
  have hr := Flt.need_pos hf hl0 hm h1
  refine (Flt.run_steady t' (by omega) os fun os1 os2 e => ?_).1
  rw [h2, h3]
  rcases h4 with h4 | h4
  · exact .inl (over_anti hf hr h4 (Flt.need_nearly hf hl0 hm h1 (hn os1 os2 e)))
  · exact .inr h4

/-- C105.  In particular, of up to `2 ^ 22` entries for which room was reserved, only the last one can make the table grow. -/
theorem C105_only_the_last_grows (t t' : Flt.Tab) (l : ℚ) (hf : IsFloat l) (hl0 : 0 < l) (hl : t.l = .fin l) (m d : Nat) (hm : 0 < m)
    (hm22 : m ≤ 2 ^ 22) (hmx : 0 < t.mx) (h : t.reserve m d = some t') (os : List Flt.Op)
    (hn : ∀ os1 os2, os = os1 ++ os2 → (t'.run os1).n < m) : (t'.run os).b = t'.b := by
  refine C105_reserved_is_nearly_enough t t' l hf hl0 hl m d hm hmx h os fun os1 os2 e => ?_
  have h1 : ((t'.run os1).n : ℚ) + 1 ≤ m := by exact_mod_cast hn os1 os2 e
  have h2 : (m : ℚ) ≤ 4194304 := by exact_mod_cast (by omega : m ≤ 4194304)
  norm_num
  linarith

/-- C105.  With a limit that is a power of two, such as the default, there is room for all `m` entries.  (For other limits the claim is false,
see `C105_reserve_too_small`.) -/
theorem C105_reserved_is_enough_partial (t t' : Flt.Tab) (j : ℤ) (hf : IsFloat (2 ^ j)) (hl : t.l = .fin (2 ^ j)) (m d : Nat) (hm : 0 < m)
    (hmx : 0 < t.mx) (h : t.reserve m d = some t') (os : List Flt.Op)
    (hn : ∀ os1 os2, os = os1 ++ os2 → (t'.run os1).n ≤ m) : (t'.run os).b = t'.b := by
  have hl0 := Flt.two_zpow_pos j
  obtain ⟨r, h1, h2, h3, h4, h5⟩ := reserve_shape hl h
  have hr := Flt.need_pos hf hl0 hm h1
  refine (Flt.run_steady t' (by omega) os fun os1 os2 e => ?_).1
  rw [h2, h3]
  rcases h4 with h4 | h4
  · exact .inl (over_anti hf hr h4 (Flt.need_all hf hl0 hm h1 (Flt.need_pow hf h1) (hn os1 os2 e)))
  · exact .inr h4

/-- The number of entries by counting calls: one more for every insertion, one less for every removal. -/
def callBalance (n : Nat) : List Flt.Op → Nat
  | [] => n
  | .link _ :: os => callBalance (n + 1) os
  | .unlink :: os => callBalance (n - 1) os

theorem run_callBalance (os : List Flt.Op) : ∀ (t : Flt.Tab) (n : Nat), t.n ≤ n → (t.run os).n ≤ callBalance n os := by
  induction os with
  | nil => intro t n h; exact h
  | cons o os ih =>
    intro t n h
    cases o with
    | link d =>
      refine ih (t.link d) (n + 1) ?_
      have : t.left d ≤ t.n := by unfold Flt.Tab.left; split <;> omega
      simp only [Flt.Tab.link]
      split <;> (try simp only) <;> omega
    | unlink => exact ih t.unlink (n - 1) (by simp only [Flt.Tab.unlink]; omega)

/-- C105, by counting calls only: with a limit that is a power of two, after `reserve(m)`, if the entries there were, with one more for
every insertion and one less for every removal, are never more than `m`, the table does not grow. -/
theorem C105_removals_make_room_partial (t t' : Flt.Tab) (j : ℤ) (hf : IsFloat (2 ^ j)) (hl : t.l = .fin (2 ^ j)) (m d : Nat) (hm : 0 < m)
    (hmx : 0 < t.mx) (h : t.reserve m d = some t') (os : List Flt.Op) (hn : ∀ os1 os2, os = os1 ++ os2 → callBalance t.n os1 ≤ m) :
    (t'.run os).b = t'.b := by
  refine C105_reserved_is_enough_partial t t' j hf hl m d hm hmx h os fun os1 os2 e => le_trans (run_callBalance os1 t' t.n ?_) (hn os1 os2 e)
  unfold Flt.Tab.reserve at h
  obtain ⟨r, _, rfl⟩ := Option.map_eq_some_iff.1 h
  split <;> (try simp only) <;> omega

/-- The `float` nearest to 0.97. -/
def f97 : ℚ := 16273900 / 2 ^ 24

theorem f97_float : IsFloat f97 := ⟨16273900, -24, by norm_num, by norm_num, by norm_num, by unfold f97; norm_num⟩

theorem need97 : need 127232 (.fin f97) = some 131167 := by
  have h0 : (0 : ℚ) < f97 := by unfold f97; norm_num
  rw [Flt.need_fin h0]
  have h1 : fl ((127232 : Nat) : ℚ) = 127232 := by have := Flt.fl_nat (n := 127232) (by norm_num); simpa using this
  have h2 : fl (127232 / f97) = 131167 := by
    have := Flt.fl_eq (x := 127232 / f97) (-6) 8394688 (by norm_num) (by unfold f97; norm_num) (by unfold f97; norm_num)
      (by unfold f97; norm_num [abs_lt])
    rw [this]; norm_num
  rw [h1, h2]
  norm_num
  rfl

theorem over97 : over (.fin f97) 127232 131167 = true := by
  rw [Flt.over_fin (Flt.isFloat_lt f97_float) _ (by norm_num)]
  have h1 : fl ((127232 : Nat) : ℚ) = 127232 := by have := Flt.fl_nat (n := 127232) (by norm_num); simpa using this
  have h2 : fl ((131167 : Nat) : ℚ) = 131167 := by have := Flt.fl_nat (n := 131167) (by norm_num); simpa using this
  have h3 := Flt.fl_eq (x := 127232 / 131167) (-24) 16273901 (by norm_num) (by norm_num) (by norm_num) (by norm_num [abs_lt])
  rw [h1, h2, h3]
  unfold f97
  norm_num

/-- C105 is false for other limits: with the limit 0.97, `reserve(127232)` makes 131167 buckets; the first 127231 insertions leave
them as they are, and the next one makes the table grow. -/
theorem C105_reserve_too_small (mx : Nat) (hmx : 2 * 131167 ≤ mx) :
    Nearest (97 / 100) f97 ∧ ∃ t, (Flt.Tab.init (.fin f97) mx).reserve 127232 0 = some t ∧ t.b = 131167 ∧
      (∀ i, i < 127232 → (t.run (List.replicate i (.link 0))).b = 131167) ∧
      (t.run (List.replicate 127232 (.link 0))).b = 262334 := by
  refine ⟨⟨f97_float, fun z hz => ?_⟩, ?_⟩
  · have h := Flt.fl_near (x := 97 / 100) (by norm_num) (.of_isFloat hz)
    have e := Flt.fl_eq (x := 97 / 100) (-24) 16273900 (by norm_num) (by norm_num) (by norm_num) (by norm_num [abs_lt])
    have e2 : fl (97 / 100) = f97 := by rw [e]; unfold f97; norm_num
    rwa [e2] at h
  · have h0 : (0 : ℚ) < f97 := by unfold f97; norm_num
    have hres : (Flt.Tab.init (.fin f97) mx).reserve 127232 0 = some ⟨0, 131167, .fin f97, mx⟩ := by
      have hm : min 131167 mx = 131167 := by omega
      have h1 : ¬ mx = 0 := by omega
      simp [Flt.Tab.reserve, Flt.Tab.init, need97, hm, h1]
    have hcount : ∀ i, ((⟨0, 131167, .fin f97, mx⟩ : Flt.Tab).run (List.replicate i (.link 0))).n = i := by
      intro i
      induction i with
      | zero => rfl
      | succ i ih =>
        rw [List.replicate_succ', Flt.run_snoc]
        generalize Flt.Tab.run _ _ = u at *
        have hleft : u.left 0 = i := by unfold Flt.Tab.left; split <;> simp [ih]
        simp only [Flt.Tab.step, Flt.Tab.link, hleft]; split <;> rfl
    have hsame : ∀ i, i < 127232 → let u := (⟨0, 131167, .fin f97, mx⟩ : Flt.Tab).run (List.replicate i (.link 0))
        u.b = 131167 ∧ u.l = .fin f97 ∧ u.mx = mx := by
      intro i hi
      refine Flt.run_steady ⟨0, 131167, .fin f97, mx⟩ (by norm_num) _ fun os1 os2 e => ?_
      left
      obtain ⟨j, hj, he⟩ : ∃ j, j ≤ i ∧ os1 = List.replicate j (.link 0) := by
        refine ⟨os1.length, ?_, ?_⟩
        · have := congrArg List.length e; simp at this; omega
        · refine List.eq_replicate_iff.2 ⟨rfl, fun o ho => ?_⟩
          exact (List.mem_replicate.1 (e ▸ List.mem_append_left _ ho)).2
      rw [he, hcount]
      refine Flt.need_nearly f97_float h0 (by norm_num) need97 ?_
      have : (j : ℚ) ≤ 127231 := by exact_mod_cast (show j ≤ 127231 by omega)
      push_cast
      norm_num
      linarith
    refine ⟨_, hres, rfl, fun i hi => (hsame i hi).1, ?_⟩
    obtain ⟨a, b, c⟩ := hsame 127231 (by norm_num)
    have hn := hcount 127231
    rw [show (127232 : Nat) = 127231 + 1 by norm_num, List.replicate_succ', Flt.run_snoc]
    generalize Flt.Tab.run _ _ = u at *
    have hleft : u.left 0 = 127231 := by unfold Flt.Tab.left; split <;> simp [hn]
    simp only [Flt.Tab.step, Flt.Tab.link, hleft, a, b, c]
    have h1 : 131167 < mx := by omega
    have h2 : ¬ 131167 > mx / 2 := by omega
    simp [over97, h1, h2]

/-- C105.  Small tables are not safe either: with the limit 0.45454544, `reserve(5)` makes 11 buckets, and the fifth insertion makes the table grow. -/
theorem C105_reserve_too_small_for_five :
    Nearest (45454544 / 10 ^ 8) (15252014 / 2 ^ 25) ∧ ∃ t, (Flt.Tab.init (.fin (15252014 / 2 ^ 25)) (2 ^ 60)).reserve 5 0 = some t ∧
      t.b = 11 ∧ (t.run (List.replicate 4 (.link 0))).b = 11 ∧ (t.run (List.replicate 5 (.link 0))).b = 22 := by
  refine ⟨⟨⟨15252014, -25, by norm_num, by norm_num, by norm_num, by norm_num⟩, fun z hz => ?_⟩, ⟨0, 11, .fin (15252014 / 2 ^ 25), 2 ^ 60⟩, ?_⟩
  · have h := Flt.fl_near (x := 45454544 / 10 ^ 8) (by norm_num) (.of_isFloat hz)
    have e := Flt.fl_eq (x := 45454544 / 10 ^ 8) (-25) 15252014 (by norm_num) (by norm_num) (by norm_num) (by norm_num [abs_lt])
    have e2 : fl (45454544 / 10 ^ 8) = 15252014 / 2 ^ 25 := by rw [e]; norm_num
    rwa [e2] at h
  · decide +kernel

/-- C105.  With the limit 1, `reserve(m)` is undefined for the last `2 ^ 39` values of `m`, although it is meant to be cut off at the largest
number of buckets; with the limit 0, or one that is not a number, it is undefined for every `m`. -/
theorem C105_reserve_undefined (t : Flt.Tab) (m d : Nat) :
    (t.l = .fin 1 → (t.reserve m d = none ↔ 2 ^ 64 - 2 ^ 39 ≤ m)) ∧ (t.l = .fin 0 ∨ t.l = .nan → t.reserve m d = none) := by
  constructor
  · intro hl
    unfold Flt.Tab.reserve
    rw [hl, Option.map_eq_none_iff, Flt.need_fin (by norm_num), div_one, Flt.fl_of_rep (Flt.fl_nonneg (by positivity)) (Flt.fl_rep (by positivity))]
    have h := Flt.fl_nat_lt m
    split
    · rename_i h1; have := h.1 h1; simp; omega
    · rename_i h1; have : ¬ m < 2 ^ 64 - 2 ^ 39 := fun a => h1 (h.2 a); simp; omega
  · rintro (hl | hl)
    · unfold Flt.Tab.reserve Flt.need Flt.div Flt.ofNat
      rw [hl]
      by_cases h : fl (m : ℚ) = 0 <;> simp [h, Flt.ceil, Flt.toSize]
    · unfold Flt.Tab.reserve Flt.need Flt.div Flt.ofNat
      rw [hl]
      simp [Flt.ceil, Flt.toSize]

/-- C105.  With an infinite limit, `reserve` does nothing; and an infinite limit can be set at any time. -/
theorem C105_infinite_limit (t : Flt.Tab) (s : Bool) :
    (t.l = .inf s → ∀ m d, t.reserve m d = some t) ∧ t.setMax (.inf s) = some { t with l := .inf s } := by
  have h : ∀ n, need n (.inf s) = some 0 := by
    intro n
    simp only [need, ofNat, div, Flt.ceil, Flt.toSize]
    norm_num
  constructor
  · intro hl m d
    simp [Flt.Tab.reserve, hl, h]
  · simp [Flt.Tab.setMax, h, ofNat, div, Flt.ceil, Flt.finite]

/-! ## Changing the limit -/

/-- C105 is false when the limit is changed: a table with 127232 entries, got by inserting them with the default limit, is given the limit 0.97;
it grows to 131167 buckets, and the load factor that it then reports is above the limit. -/
theorem C105_new_limit_too_small (mx : Nat) (hmx : 131167 ≤ mx) :
    ∃ t, ((Flt.Tab.init (.fin 1) mx).run (List.replicate 127232 (.link 0))).setMax (.fin f97) = some t ∧
      t.n = 127232 ∧ t.b = 131167 ∧ t.l = .fin f97 ∧ Flt.gt (Flt.loadFactor t.n t.b) t.l = true := by
  have h := links_small 17 (by norm_num) 127232 (by rw [Flt.fl_nat (by norm_num)]; norm_num) mx (by omega)
  generalize Flt.Tab.run _ _ = u at *
  obtain ⟨h1, h2, h3, h4⟩ := h
  have h0 : (0 : ℚ) < f97 := by unfold f97; norm_num
  have hf : Flt.finite (Flt.ceil (Flt.div (Flt.ofNat 127232) (.fin f97))) = true := by
    have := need97
    unfold Flt.need at this
    cases h : Flt.ceil (Flt.div (Flt.ofNat 127232) (.fin f97)) <;> rw [h] at this <;> simp [Flt.toSize, Flt.finite] at this ⊢
  have hm : min 131167 mx = 131167 := by omega
  refine ⟨⟨127232, 131167, .fin f97, mx⟩, ?_, rfl, rfl, rfl, ?_⟩
  · unfold Flt.Tab.setMax
    rw [h1, hf, need97, h3]
    have : u.b < 131167 := by omega
    have h5 : ¬ mx ≤ u.b := by omega
    simp [hm, this, h5]
  · exact over97

/-- C105.  A limit as small as `2 ^ (-64)` makes the call undefined for every table of up to `2 ^ 24` entries that is not empty; the limit 0
does not, because then the number asked for is not finite. -/
theorem C105_new_limit_undefined (t : Flt.Tab) (hn : 0 < t.n) (hn2 : t.n ≤ 2 ^ 24) :
    IsFloat (2 ^ (-64 : ℤ)) ∧ t.setMax (.fin (2 ^ (-64 : ℤ))) = none ∧ t.setMax (.fin 0) = some { t with l := .fin 0 } := by
  have hnq : (0 : ℚ) < t.n := by exact_mod_cast hn
  have h1q : (1 : ℚ) ≤ t.n := by exact_mod_cast hn
  have h2q : (t.n : ℚ) ≤ 2 ^ 24 := by exact_mod_cast hn2
  have e : (t.n : ℚ) / 2 ^ (-64 : ℤ) = 2 ^ 64 * t.n := by rw [zpow_neg, div_inv_eq_mul, mul_comm]; norm_num
  have hfl : fl (2 ^ 64 * (t.n : ℚ)) = 2 ^ 64 * t.n := by rw [Flt.fl_scale (Flt.nat_small hn), Flt.fl_nat hn2]
  refine ⟨⟨1, -64, by norm_num, by norm_num, by norm_num, by norm_num⟩, ?_, ?_⟩
  · have h1 : Flt.div (Flt.ofNat t.n) (.fin (2 ^ (-64 : ℤ))) = .fin (2 ^ 64 * t.n) := by
      unfold Flt.div Flt.ofNat Flt.rn
      simp only [(Flt.two_zpow_pos (-64)).ne', if_false]
      rw [Flt.fl_nat hn2, e, hfl, if_pos]
      rw [abs_of_pos (by positivity)]
      have : (t.n : ℚ) ≤ 16777216 := by norm_num at h2q; exact_mod_cast h2q
      norm_num
      linarith
    have h2 : Flt.need t.n (.fin (2 ^ (-64 : ℤ))) = none := by
      rw [Flt.need_fin (Flt.two_zpow_pos _), Flt.fl_nat hn2, e, hfl, if_neg]
      norm_num
      linarith
    unfold Flt.Tab.setMax
    rw [h1, h2]
    rfl
  · have h1 : Flt.div (Flt.ofNat t.n) (.fin 0) = .inf (decide (fl (t.n : ℚ) < 0)) := by
      unfold Flt.div Flt.ofNat
      have := (Flt.fl_nat_pos hn).ne'
      simp [this]
    unfold Flt.Tab.setMax
    rw [h1]
    rfl

/-! ## Limits that make no sense -/

theorem bad_never (l : F) (hl : l = .nan ∨ l = .inf false) (n b : Nat) : over l n b = false := by
  unfold Flt.over
  generalize Flt.div _ _ = q
  rcases hl with rfl | rfl <;> cases q <;> simp [Flt.gt]

/-- C105.  The constructor takes any limit.  With an infinite one, or one that is not a number, the table never has more than four buckets. -/
theorem C105_bad_limit_never_grows (l : F) (hl : l = .nan ∨ l = .inf false) (mx : Nat) (os : List Flt.Op) :
    ((Flt.Tab.init l mx).run os).b ≤ 4 := by
  suffices h : let t := (Flt.Tab.init l mx).run os; t.l = l ∧ t.b ≤ 4 from h.2
  induction os using List.reverseRecOn with
  | nil => exact ⟨rfl, Nat.zero_le _⟩
  | append_singleton os o ih =>
    rw [Flt.run_snoc]
    generalize Flt.Tab.run _ _ = t at *
    refine ⟨(Flt.step_l t o).1.trans ih.1, ?_⟩
    cases o with
    | link d =>
      simp only [Flt.Tab.step, Flt.Tab.link, ih.1, bad_never l hl]
      by_cases hb : t.b = 0
      · simp [hb]
      · simp [hb, ih.2]
    | unlink => exact ih.2

theorem bad_always (l : ℚ) (hl : l ≤ 0) (n b : Nat) (hb : 0 < b) (hb2 : b ≤ 2 ^ 64) : over (.fin l) (n + 1) b = true := by
  rw [Flt.over_fin (lt_of_le_of_lt hl (by norm_num)) _ hb, decide_eq_true_iff]
  refine lt_of_le_of_lt hl (lt_of_lt_of_le (Flt.two_zpow_pos (-64)) ?_)
  have h1 := Flt.fl_nat_pos hb
  have h2 : fl (b : ℚ) ≤ 2 ^ 64 := by
    have := Flt.fl_nat_mono hb2
    rw [Flt.fl_natpow] at this
    exact_mod_cast this
  have h3 : 1 ≤ fl ((n + 1 : Nat) : ℚ) := by
    have := Flt.fl_nat_mono (show 1 ≤ n + 1 by omega)
    rw [Flt.fl_nat (by norm_num)] at this
    simpa using this
  have h4 : (2 : ℚ) ^ (-64 : ℤ) ≤ fl ((n + 1 : Nat) : ℚ) / fl b := by
    rw [le_div_iff₀ h1, zpow_neg, ← one_div, div_mul_eq_mul_div, one_mul, div_le_iff₀ (by positivity)]
    have h5 : fl (b : ℚ) ≤ 18446744073709551616 := by norm_num at h2; exact h2
    have e : (2 : ℚ) ^ (64 : ℤ) = 18446744073709551616 := by norm_num
    rw [e]
    linarith
  exact Flt.le_fl (Flt.two_zpow_pos _).le (Flt.rep_pow _ (by norm_num)) h4

/-- C105.  With a limit that is not positive, every insertion doubles the number of buckets, up to the largest number. -/
theorem C105_bad_limit_always_grows (l : ℚ) (hl : l ≤ 0) (mx : Nat) (h4 : 4 ≤ mx) (hmx : mx ≤ 2 ^ 64) (i : Nat) :
    ((Flt.Tab.init (.fin l) mx).run (List.replicate (i + 1) (.link 0))).b = min mx (4 * 2 ^ i) := by
  suffices h : let t := (Flt.Tab.init (.fin l) mx).run (List.replicate (i + 1) (.link 0)); t.l = .fin l ∧ t.mx = mx ∧ t.b = min mx (4 * 2 ^ i) from h.2.2
  induction i with
  | zero =>
    refine ⟨rfl, rfl, ?_⟩
    have : min mx (4 * 2 ^ 0) = 4 := by omega
    rw [this]
    simp [Flt.Tab.run, Flt.Tab.step, Flt.Tab.link, Flt.Tab.init]
  | succ i ih =>
    rw [List.replicate_succ', Flt.run_snoc]
    generalize Flt.Tab.run _ _ = t at *
    obtain ⟨h1, h2, h3⟩ := ih
    have hl' := Flt.step_l t (.link 0)
    refine ⟨hl'.1.trans h1, hl'.2.trans h2, ?_⟩
    have hp : 0 < 2 ^ i := by positivity
    have hb : 0 < t.b := by omega
    have hb' : t.b ≠ 0 := by omega
    simp only [Flt.Tab.step, Flt.Tab.link, h1, h2, bad_always l hl _ t.b hb (by omega)]
    rw [pow_succ]
    by_cases hlt : t.b < mx
    · simp only [hlt, hb', and_self, or_true, if_true, if_false]
      split <;> omega
    · simp only [hlt, hb', and_false, or_self, if_false]
      omega

/-! ## Examples -/

/-- Rounding: exact, up and down, to the even one of two, to the smallest number, to infinity. -/
example : rn 97 = .fin 97 ∧ rn (1 / 10) = .fin (13421773 / 2 ^ 27) ∧ rn (1 / 3) = .fin (11184811 / 2 ^ 25) ∧ rn (2 ^ 24 + 1) = .fin (2 ^ 24) ∧
    rn (2 ^ 24 + 3) = .fin (2 ^ 24 + 4) ∧ rn (2 / 3 * 2 ^ (-149 : ℤ)) = .fin (2 ^ (-149 : ℤ)) ∧ rn (1 / 2 * 2 ^ (-149 : ℤ)) = .fin 0 ∧
    rn (2 ^ 128 - 2 ^ 103) = .inf false := by decide +kernel

/-- A cache with the default limit, which grows. -/
example :
    let c : Cfg Nat := { plain with over := over (.fin 1) }
    let h : Hist Nat Nat Nat := [(at_ 0, .emplace 0 0 .none), (at_ 0, .emplace 1 1 .none), (at_ 0, .emplace 2 2 .none), (at_ 4, .emplace 3 3 .none),
      (at_ 4, .emplace 4 3 .none)]
    c.Ok ∧ IsFloat 1 ∧ HistOk c St.init h ∧ (stateAfter c h).size = 5 ∧ (stateAfter c h).tbl.length = 8 := by
  refine ⟨nat_ok rfl (by intro d i h; cases h), ⟨1, 0, by norm_num, by norm_num, by norm_num, by norm_num⟩, ?_⟩
  decide +kernel

/-- Room for 10 entries with the limit 3/4 and with the limit 1/2. -/
example : ((Flt.Tab.init (.fin (3 / 4)) 1000).reserve 10 0).map (·.b) = some 14 ∧ ((Flt.Tab.init (.fin (1 / 2)) 1000).reserve 10 0).map (·.b) = some 20 ∧
    ((⟨0, 14, .fin (3 / 4), 1000⟩ : Flt.Tab).run (List.replicate 10 (.link 0))).b = 14 ∧
    ((⟨0, 14, .fin (3 / 4), 1000⟩ : Flt.Tab).run (List.replicate 11 (.link 0))).b = 28 := by decide +kernel

/-- Four insertions into a table with room for 2, two at a time. -/
example : (Flt.Tab.init (.fin (2 ^ (0 : ℤ))) 1000).reserve 2 0 = some ⟨0, 2, .fin (2 ^ (0 : ℤ)), 1000⟩ ∧
    (∀ n ≤ 7, callBalance 0 (([.link 0, .link 0, .unlink, .link 0, .unlink, .link 0, .unlink] : List Flt.Op).take n) ≤ 2) ∧
    ((⟨0, 2, .fin (2 ^ (0 : ℤ)), 1000⟩ : Flt.Tab).run [.link 0, .link 0, .unlink, .link 0, .unlink, .link 0, .unlink]).b = 2 ∧
    ((⟨0, 2, .fin (2 ^ (0 : ℤ)), 1000⟩ : Flt.Tab).run [.link 0, .link 0, .link 0]).b = 4 := by decide +kernel

/-- A limit that is too small, and a limit of 0 when there are entries. -/
example : (⟨5, 8, .fin 1, 1000⟩ : Flt.Tab).setMax (.fin (2 ^ (-64 : ℤ))) = none ∧ ((⟨5, 8, .fin 1, 1000⟩ : Flt.Tab).setMax (.fin 0)).map (·.b) = some 8 ∧
    ((⟨5, 8, .fin 1, 1000⟩ : Flt.Tab).setMax (.fin (1 / 2))).map (·.b) = some 10 := by decide +kernel

end Hoard.Props
