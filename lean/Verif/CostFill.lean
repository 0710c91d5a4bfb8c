import Verif.CostLemmas
/-! Helper lemmas: the cost of filling a table with ascending hash codes. -/
namespace Hoard.Chain

/-- `n` buckets, entry `j` alone in bucket `j` for `j < k`. -/
def asc (n k : Nat) : List (List Nat) := (List.range n).map (fun j => if j < k then [j] else [])

theorem asc_length (n k : Nat) : (asc n k).length = n := by simp [asc]

theorem asc_ins (n k : Nat) : insB k k (asc n k) = asc n (k + 1) := by
  apply List.ext_getElem?
  intro j
  simp only [asc, insB, List.getElem?_modify, List.getElem?_map]
  by_cases hj : j < n
  · rw [List.getElem?_range hj]
    by_cases he : k = j
    · subst he; simp
    · by_cases h1 : j < k
      · have : j < k + 1 := by omega
        simp [he, h1, this]
      · have : ¬ j < k + 1 := by omega
        simp [he, h1, this]
  · simp [Nat.le_of_not_lt hj]

theorem asc_flatten_min (k : Nat) : ∀ n, (asc n k).flatten = List.range (min n k)
  | 0 => by simp [asc]
  | n + 1 => by
    have h : asc (n + 1) k = asc n k ++ [if n < k then [n] else []] := by
      simp [asc, List.range_succ]
    rw [h, List.flatten_append, asc_flatten_min k n]
    by_cases hk : n < k
    · have h1 : min n k = n := by omega
      have h2 : min (n + 1) k = n + 1 := by omega
      simp [hk, h1, h2, List.range_succ]
    · have h1 : min n k = k := by omega
      have h2 : min (n + 1) k = k := by omega
      simp [hk, h1, h2]

theorem asc_flatten {n k : Nat} (hk : k ≤ n) : (asc n k).flatten = List.range k := by
  rw [asc_flatten_min, Nat.min_eq_right hk]

theorem asc_dist {n k : Nat} (hk : k ≤ n) (h : Nat → Nat) (hh : ∀ e, e < k → h e = e) :
    distribute h n (List.range k) = asc n k := by
  unfold distribute asc
  apply List.map_congr_left
  intro j hj
  have hj : j < n := by simpa using hj
  have : (List.range k).filter (fun e => h e % n == j) = (List.range k).filter (fun e => e == j) := by
    apply List.filter_congr
    intro e he
    have he : e < k := by simpa using he
    rw [hh e he, Nat.mod_eq_of_lt (by omega)]
  rw [this, List.filter_beq, List.Nodup.count List.nodup_range]
  by_cases h1 : j < k
  · simp [h1]
  · simp [h1]

theorem asc_run {n k : Nat} (hk : k < n) : emptyRun ((asc n k).drop (k + 1)) + 1 = n - k := by
  have hl : ((asc n k).drop (k + 1)).length = n - (k + 1) := by simp [asc_length]
  have h1 := (le_emptyRun (cs := (asc n k).drop (k + 1)) (Nat.le_refl _)).2 (by
    intro m hm
    rw [hl] at hm
    rw [List.getElem?_drop]
    simp only [asc, List.getElem?_map, List.getElem?_range (show k + 1 + m < n by omega), Option.map_some]
    rw [if_neg (by omega)])
  have h2 := emptyRun_le ((asc n k).drop (k + 1))
  omega

/-- Distributing ascending hash codes. -/
theorem distCost_asc (h : Nat → Nat) (n : Nat) : ∀ (m i : Nat), i + m ≤ n → (∀ e, e < i + m → h e = e) →
    2 * distCost h n (List.range i) (List.range' i m) + m * (2 * i + m) = m * (2 * n + 1)
  | 0, i, _, _ => by simp [distCost]
  | m + 1, i, hl, hh => by
    have ih := distCost_asc h n m (i + 1) (by omega) (fun e he => hh e (by omega))
    have h1 : h i % n = i := by rw [hh i (by omega), Nat.mod_eq_of_lt (by omega)]
    have h2 := asc_run (n := n) (k := i) (by omega)
    rw [List.range'_succ]
    simp only [distCost]
    rw [h1, asc_dist (by omega) h (fun e he => hh e (by omega)), h2, ← List.range_succ]
    have h3 : n - i = n - i := rfl
    obtain ⟨d, hd⟩ : ∃ d, n = i + d := ⟨n - i, by omega⟩
    subst hd
    have h4 : i + d - i = d := by omega
    rw [h4]
    generalize distCost h (i + d) (List.range (i + 1)) (List.range' (i + 1) m) = x at ih ⊢
    have e1 : m * (2 * (i + 1) + m) = 2 * (m * i) + 2 * m + m * m := by
      rw [Nat.mul_add, Nat.mul_add, Nat.mul_add]; simp only [Nat.mul_left_comm m 2]; omega
    have e2 : m * (2 * (i + d) + 1) = 2 * (m * i) + 2 * (m * d) + m := by
      rw [Nat.mul_add, Nat.mul_left_comm m 2, Nat.mul_add]; omega
    have e3 : (m + 1) * (2 * i + (m + 1)) = 2 * (m * i) + m * m + m + 2 * i + m + 1 := by
      rw [Nat.add_mul, Nat.mul_add, Nat.mul_add, Nat.mul_left_comm m 2]; omega
    have e4 : (m + 1) * (2 * (i + d) + 1) = 2 * (m * i) + 2 * (m * d) + m + 2 * i + 2 * d + 1 := by
      rw [Nat.add_mul, e2]; omega
    rw [e1, e2] at ih
    rw [e3, e4]
    omega

/-- Entries `0 … k - 1` with these hash codes, `b` buckets. -/
def ascC (k b : Nat) : Contents := ⟨(List.range k).map (fun e => (e, e)), b⟩

theorem ascC_link (k b : Nat) : (COp.link k k).apply (ascC k b) = ascC (k + 1) b := by
  simp [COp.apply, ascC, List.range_succ]

theorem ascC_hash {c : Tab} {k b : Nat} {bs : List (List Nat)} (hi : Inv c (ascC k b) bs) (e : Nat) (he : e < k) :
    c.hash e = e := hi.hash (e, e) (by simpa [ascC] using he)

theorem asc_link {c : Tab} {k b : Nat} (hi : Inv c (ascC k b) (asc b k)) (hk : k < b) :
    (COp.link k k).ok (ascC k b) ∧ ∃ c', exec c (.link k k) = some c' ∧ Inv c' (ascC (k + 1) b) (asc b (k + 1)) ∧
      cost c (.link k k) = b - k := by
  have ho : (COp.link k k).ok (ascC k b) := ⟨by simp [ascC], by show 0 < b; omega⟩
  obtain ⟨c', h1, h2⟩ := exec_inv hi _ ho
  refine ⟨ho, c', h1, ?_, ?_⟩
  · rw [ascC_link] at h2
    have : bstep c (asc b k) (.link k k) = asc b (k + 1) := by
      show insB (k % (asc b k).length) k (asc b k) = _
      rw [asc_length, Nat.mod_eq_of_lt hk, asc_ins]
    rw [this] at h2; exact h2
  · have := linkCost_eq hi.rep (by rw [asc_length]; omega) k
    rw [asc_length, Nat.mod_eq_of_lt hk, asc_run hk] at this
    exact this

theorem asc_grow {c : Tab} {k b : Nat} (hi : Inv c (ascC k b) (asc b k)) (hk : k ≤ b) {n : Nat} (hn : 0 < n)
    (hkn : k ≤ n) :
    ∃ c', exec c (.grow n) = some c' ∧ Inv c' (ascC k n) (asc n k) ∧
      2 * cost c (.grow n) + k * k = k * (2 * n + 1) := by
  have hh : ∀ e, e < k → c.hash e = e := ascC_hash hi
  obtain ⟨c', h1, h2⟩ := exec_inv hi (.grow n) hn
  refine ⟨c', h1, ?_, ?_⟩
  · have : bstep c (asc b k) (.grow n) = asc n k := by
      show distribute c.hash n (asc b k).flatten = _
      rw [asc_flatten hk, asc_dist hkn _ hh]
    rw [this] at h2; exact h2
  · have h3 : cost c (.grow n) = distCost c.hash n [] (List.range k) := by
      show c.rehashCost n = _
      rw [rehashCost_eq hi.rep hi.size hn, asc_flatten hk]
    have h4 := distCost_asc c.hash n k 0 (by omega) (fun e he => hh e (by omega))
    rw [← List.range_eq_range'] at h4
    rw [h3]; simpa using h4

theorem asc_fresh (own : Nat) (hash0 : Nat → Nat) : Inv (fresh own hash0) (ascC 0 0) (asc 0 0) := inv_fresh own hash0

end Hoard.Chain
