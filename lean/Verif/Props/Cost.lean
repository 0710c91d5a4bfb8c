import Verif.CostFill
/-! C93: what it costs to change the hash table. -/
namespace Hoard.Chain

/-- What a sequence of calls costs. -/
def costAll (c : Tab) : List COp → Nat
  | [] => 0
  | o :: os =>
    match exec c o with
    | none => 0
    | some c' => cost c o + costAll c' os

/-- C93, inserting: the number of places of the bucket array that are changed is one more than
the number of empty buckets directly after the bucket of the new entry. -/
theorem C93_cost_of_inserting (own : Nat) (hash0 : Nat → Nat) (os : List COp) (h e : Nat)
    (hok : COk ⟨[], 0⟩ os) (ho : (COp.link h e).ok (contents os)) :
    ∃ c, execAll (fresh own hash0) os = some c ∧
      cost c (.link h e) = span (contents os).nb ((contents os).ents.map (·.2)) h := by
  obtain ⟨c, bs, h1, hi⟩ := execAll_inv os _ _ _ (inv_fresh own hash0) hok
  change Inv c (contents os) bs at hi
  refine ⟨c, h1, ?_⟩
  rw [← inv_span hi ho.2]
  have := linkCost_eq hi.rep (by rw [hi.nb]; exact ho.2) h
  rw [hi.nb] at this; exact this

/-- C93, removing: nothing is changed unless the entry is the last one of its bucket; then the
same number as for inserting. -/
theorem C93_cost_of_removing (own : Nat) (hash0 : Nat → Nat) (os : List COp) (h e : Nat)
    (hok : COk ⟨[], 0⟩ os) (hnb : 0 < (contents os).nb) (ho : (e, h) ∈ (contents os).ents) :
    ∃ c b, execAll (fresh own hash0) os = some c ∧ c.visitBucket (h % (contents os).nb) = some b ∧ e ∈ b ∧
      cost c (.unlink e) =
        if b.getLast? = some e then span (contents os).nb ((contents os).ents.map (·.2)) h else 0 := by
  obtain ⟨c, bs, h1, hi⟩ := execAll_inv os _ _ _ (inv_fresh own hash0) hok
  change Inv c (contents os) bs at hi
  have he : e ∈ bs.flatten := (hi.mem e).2 (List.mem_map.2 ⟨_, ho, rfl⟩)
  have hhe : c.hash e = h := hi.hash _ ho
  have hsp := inv_span hi hnb h
  obtain ⟨b, hb, heb⟩ := List.mem_flatten.1 he
  obtain ⟨k, hk⟩ := List.getElem?_of_mem hb
  have hkk := hi.rep.hash k b hk e heb
  rw [hhe, hi.nb] at hkk
  rw [hkk] at hsp ⊢
  refine ⟨c, b, h1, visitBucket_spec hi.rep hi.size hk, heb, ?_⟩
  have hlt := (List.getElem?_eq_some_iff.1 hk).1
  obtain ⟨as, b', cs, rfl, rfl⟩ := split_at hlt
  obtain rfl : b' = b := by simpa using hk
  obtain ⟨b1, b2, rfl⟩ := List.append_of_mem heb
  show c.unlinkElemCost e = _
  rw [unlinkElemCost_split hi.rep hi.size]
  rw [show as ++ (b1 ++ e :: b2) :: cs = (as ++ [b1 ++ e :: b2]) ++ cs by simp, List.drop_left' (by simp)] at hsp
  rw [← hsp]
  have hiff : ((b1 ++ e :: b2).getLast? = some e) ↔ b2 = [] := by
    constructor
    · intro hl
      cases b2 with
      | nil => rfl
      | cons x l =>
        exfalso
        have hn := hi.rep.nodup
        simp only [List.flatten_append, List.flatten_cons] at hn
        simp only [List.nodup_append, List.nodup_cons] at hn
        have h3 : (x :: l).getLast? = some e := by
          rw [List.getLast?_append] at hl
          simpa using hl
        exact hn.2.1.1.2.1.1 (List.mem_of_getLast? h3)
    · rintro rfl; simp
  by_cases hb2 : b2 = []
  · rw [if_pos hb2, if_pos (hiff.2 hb2)]
  · rw [if_neg hb2, if_neg (fun h => hb2 (hiff.1 h))]

/-- C93, growing: the entries are inserted into the new table in iteration order, and the
cost is the sum of what these insertions cost. -/
theorem C93_cost_of_growing (own : Nat) (hash0 : Nat → Nat) (os : List COp) (n : Nat)
    (hok : COk ⟨[], 0⟩ os) (hn : 0 < n) :
    ∃ (c : Tab) (l : List (Nat × Nat)), execAll (fresh own hash0) os = some c ∧ c.visitAll = some (l.map Prod.fst) ∧
      l.Perm (contents os).ents ∧ cost c (.grow n) = spans n (l.map Prod.snd) := by
  obtain ⟨c, bs, h1, hi⟩ := execAll_inv os _ _ _ (inv_fresh own hash0) hok
  change Inv c (contents os) bs at hi
  refine ⟨c, bs.flatten.map (fun e => (e, c.hash e)), h1, ?_, inv_perm hi, ?_⟩
  · rw [visitAll_spec hi.rep hi.size]
    rw [List.map_map]; simp [Function.comp_def]
  · show c.rehashCost n = _
    rw [rehashCost_eq hi.rep hi.size hn, distCost_eq_spans _ _ hn]
    rw [List.map_map]; rfl

/-- C93, bounds for single calls: inserting or removing changes at most as many places as there
are buckets, growing at most that many for each entry.

The full claim (a constant number on average) is false, see `C93_growing_is_quadratic` and
`C93_filling_is_quadratic`. -/
theorem C93_bounds_partial (own : Nat) (hash0 : Nat → Nat) (os : List COp) (hok : COk ⟨[], 0⟩ os) :
    ∃ c, execAll (fresh own hash0) os = some c ∧
      (∀ h e, (COp.link h e).ok (contents os) →
        1 ≤ cost c (.link h e) ∧ cost c (.link h e) ≤ (contents os).nb) ∧
      (∀ e, (COp.unlink e).ok (contents os) → cost c (.unlink e) ≤ (contents os).nb) ∧
      (∀ n, 0 < n → (contents os).ents.length ≤ cost c (.grow n) ∧
        cost c (.grow n) ≤ (contents os).ents.length * n) := by
  obtain ⟨c, bs, h1, hi⟩ := execAll_inv os _ _ _ (inv_fresh own hash0) hok
  change Inv c (contents os) bs at hi
  refine ⟨c, h1, ?_, ?_, ?_⟩
  · intro h e ho
    have h2 := linkCost_eq hi.rep (by rw [hi.nb]; exact ho.2) h
    rw [hi.nb] at h2
    have h3 := inv_span hi ho.2 h
    have h4 := span_le (contents os).nb ((contents os).ents.map (·.2)) h
    exact ⟨by show 1 ≤ c.linkCost h; omega, by show c.linkCost h ≤ _; omega⟩
  · intro e ho
    show c.unlinkElemCost e ≤ _
    have he : e ∈ bs.flatten := (hi.mem e).2 ho
    obtain ⟨b, hb, heb⟩ := List.mem_flatten.1 he
    obtain ⟨as, cs, rfl⟩ := List.append_of_mem hb
    obtain ⟨b1, b2, rfl⟩ := List.append_of_mem heb
    rw [unlinkElemCost_split hi.rep hi.size]
    have hnb := hi.nb
    have := emptyRun_le cs
    simp only [List.length_append, List.length_cons] at hnb
    split <;> omega
  · intro n hn
    show _ ≤ c.rehashCost n ∧ c.rehashCost n ≤ _
    have hlen : (contents os).ents.length = bs.flatten.length := by
      rw [← (inv_perm hi).length_eq, List.length_map]
    rw [rehashCost_eq hi.rep hi.size hn, hlen]
    constructor
    · have : ∀ (l done : List Nat), l.length ≤ distCost c.hash n done l := by
        intro l
        induction l with
        | nil => intro _; simp
        | cons x l ih =>
          intro done
          have := ih (done ++ [x])
          simp only [distCost, List.length_cons]; omega
      exact this _ _
    · rw [distCost_eq_spans _ _ hn]
      have := spans_le n (bs.flatten.map c.hash)
      rwa [List.length_map] at this

/-- Calls that make `n` buckets and put one entry into each, in ascending order. -/
def ascending (n : Nat) : List COp := .grow n :: (List.range n).map (fun e => .link e e)

theorem ascending_run {c : Tab} {b : Nat} : ∀ (m k : Nat), k + m ≤ b → Inv c (ascC k b) (asc b k) →
    COk (ascC k b) ((List.range' k m).map (fun e => .link e e)) ∧
    ∃ c', execAll c ((List.range' k m).map (fun e => .link e e)) = some c' ∧ Inv c' (ascC (k + m) b) (asc b (k + m)) := by
  intro m
  induction m generalizing c with
  | zero => intro k _ hi; exact ⟨trivial, c, rfl, hi⟩
  | succ m ih =>
    intro k hk hi
    obtain ⟨ho, c1, h1, h2, _⟩ := asc_link hi (by omega)
    obtain ⟨g0, c2, g1, g2⟩ := ih (k + 1) (by omega) h2
    rw [List.range'_succ, List.map_cons]
    refine ⟨⟨ho, by rw [ascC_link]; exact g0⟩, c2, ?_, by rw [show k + (m + 1) = k + 1 + m by omega]; exact g2⟩
    simp only [execAll, h1, Option.bind_some]; exact g1

theorem ascending_inv (own : Nat) (hash0 : Nat → Nat) (n : Nat) (hn : 0 < n) :
    COk ⟨[], 0⟩ (ascending n) ∧
    ∃ c, execAll (fresh own hash0) (ascending n) = some c ∧ Inv c (ascC n n) (asc n n) := by
  obtain ⟨c1, h1, h2, _⟩ := asc_grow (asc_fresh own hash0) (Nat.le_refl 0) hn (by omega)
  obtain ⟨g0, c2, g1, g2⟩ := ascending_run n 0 (by omega) h2
  rw [← List.range_eq_range'] at g0 g1
  refine ⟨⟨hn, g0⟩, c2, ?_, by simpa using g2⟩
  simp only [ascending, execAll, h1, Option.bind_some]; exact g1

/-- C93 is false for a single growth: a full table whose entries have the hash codes `0 … n - 1`
changes `n (3 n + 1) / 2` places of the bucket array when it doubles. -/
theorem C93_growing_is_quadratic (own : Nat) (hash0 : Nat → Nat) (n : Nat) (hn : 0 < n) :
    COk ⟨[], 0⟩ (ascending n) ∧ (contents (ascending n)).ents.length = n ∧
    ∃ c, execAll (fresh own hash0) (ascending n) = some c ∧ 2 * cost c (.grow (2 * n)) = n * (3 * n + 1) := by
  obtain ⟨hok, c, h1, h2⟩ := ascending_inv own hash0 n hn
  refine ⟨hok, ?_, c, h1, ?_⟩
  · have : ∀ (l : List Nat) (a : Contents), ((l.map (fun e => COp.link e e)).foldl COp.apply a).ents.length = a.ents.length + l.length := by
      intro l
      induction l with
      | nil => intro a; rfl
      | cons x l ih => intro a; simp only [List.map_cons, List.foldl_cons, ih, COp.apply]; simp; omega
    have := this (List.range n) ⟨[], n⟩
    simpa [contents, ascending, COp.apply] using this
  · obtain ⟨_, _, _, h3⟩ := asc_grow h2 (Nat.le_refl n) (n := 2 * n) (by omega) (by omega)
    have e1 : n * (2 * (2 * n) + 1) = 4 * (n * n) + n := by
      rw [Nat.mul_add, ← Nat.mul_assoc, ← Nat.mul_assoc]
      have : n * 2 * 2 * n = 4 * (n * n) := by rw [Nat.mul_assoc n, Nat.mul_comm n (2 * 2), Nat.mul_assoc]
      rw [this]; omega
    have e2 : n * (3 * n + 1) = 3 * (n * n) + n := by
      rw [Nat.mul_add, Nat.mul_left_comm]; omega
    rw [e1] at h3; rw [e2]; omega

/-- What has been paid so far for `k` entries in `b` buckets. -/
def Paid (k b w : Nat) : Prop :=
  (b = 0 ∧ k = 0 ∧ w = 0) ∨ (b = 4 ∧ 2 * w + k * k = 9 * k) ∨ (0 < b ∧ 3 * (b * b) ≤ 8 * w)

theorem costAll_cons {c c' : Tab} {o : COp} {os : List COp} (h : exec c o = some c') :
    costAll c (o :: os) = cost c o + costAll c' os := by simp [costAll, h]

theorem fill_run (mx : Nat) : ∀ (m k b w : Nat) (c : Tab), 2 * (k + m) ≤ mx → k ≤ b →
    Inv c (ascC k b) (asc b k) → Paid k b w →
    COk (ascC k b) (fillCalls ⟨k, b, 1, 1, mx⟩ k (List.range' k m)) ∧
    3 * ((k + m) * (k + m)) ≤ 8 * (w + costAll c (fillCalls ⟨k, b, 1, 1, mx⟩ k (List.range' k m))) := by
  intro m
  induction m with
  | zero =>
    intro k b w c _ hk _ hp
    refine ⟨trivial, ?_⟩
    simp only [List.range'_zero, fillCalls, costAll, Nat.add_zero]
    rcases hp with ⟨rfl, rfl, rfl⟩ | ⟨rfl, hp⟩ | ⟨_, hp⟩
    · simp
    · have : k = 0 ∨ k = 1 ∨ k = 2 ∨ k = 3 ∨ k = 4 := by omega
      rcases this with rfl | rfl | rfl | rfl | rfl <;> omega
    · have := Nat.mul_le_mul hk hk
      omega
  | succ m ih =>
    intro k b w c hm hk hi hp
    rw [List.range'_succ]
    have e0 : k + (m + 1) = k + 1 + m := by omega
    rw [e0]
    by_cases hkb : k < b
    · have ht : Grow.Tab.link ⟨k, b, 1, 1, mx⟩ 0 = ⟨k + 1, b, 1, 1, mx⟩ := by
        have h1 : ¬ b < k + 1 := by omega
        have h2 : b ≠ 0 := by omega
        simp [Grow.Tab.link, Grow.Tab.left, Grow.Tab.over, h1, h2]
      obtain ⟨ho, c1, g1, g2, g3⟩ := asc_link hi hkb
      have := ih (k + 1) b (w + (b - k)) c1 (by omega) (by omega) g2 (by
        rcases hp with ⟨rfl, rfl, rfl⟩ | ⟨rfl, hp⟩ | ⟨_, hp⟩
        · omega
        · right; left
          refine ⟨rfl, ?_⟩
          have : (k + 1) * (k + 1) = k * k + 2 * k + 1 := by rw [Nat.add_mul, Nat.mul_add]; omega
          rw [this]; omega
        · exact Or.inr (Or.inr ⟨by omega, by omega⟩))
      simp only [fillCalls, linkCalls, ht, if_true, List.cons_append, List.nil_append]
      rw [costAll_cons g1, g3]
      refine ⟨⟨ho, by rw [ascC_link]; exact this.1⟩, ?_⟩
      rw [← Nat.add_assoc]; exact this.2
    · obtain rfl : k = b := by omega
      obtain ⟨n, hn, ht⟩ : ∃ n, n = (if k = 0 then 4 else 2 * k) ∧ Grow.Tab.link ⟨k, k, 1, 1, mx⟩ 0 = ⟨k + 1, n, 1, 1, mx⟩ := by
        refine ⟨_, rfl, ?_⟩
        have h2 : ¬ k > mx / 2 := by omega
        have h3 : k < mx := by omega
        simp [Grow.Tab.link, Grow.Tab.left, Grow.Tab.over, h2, h3]
      have hne : n ≠ k := by split at hn <;> omega
      have hkn : k < n := by split at hn <;> omega
      obtain ⟨c1, f1, f2, f3⟩ := asc_grow hi (Nat.le_refl k) (n := n) (by omega) (by omega)
      obtain ⟨ho, c2, g1, g2, g3⟩ := asc_link f2 hkn
      have := ih (k + 1) n (w + (cost c (.grow n) + (n - k))) c2 (by omega) (by omega) g2 (by
        by_cases h0 : k = 0
        · subst h0
          rw [if_pos rfl] at hn
          subst hn
          rcases hp with ⟨_, _, rfl⟩ | ⟨h, _⟩ | ⟨h, _⟩
          · right; left; refine ⟨rfl, ?_⟩; omega
          · omega
          · omega
        · rw [if_neg h0] at hn
          subst hn
          refine Or.inr (Or.inr ⟨by omega, ?_⟩)
          have e1 : k * (2 * (2 * k) + 1) = 4 * (k * k) + k := by
            rw [Nat.mul_add, ← Nat.mul_assoc, ← Nat.mul_assoc]
            have : k * 2 * 2 * k = 4 * (k * k) := by rw [Nat.mul_assoc k, Nat.mul_comm k (2 * 2), Nat.mul_assoc]
            rw [this]; omega
          have e2 : 2 * k * (2 * k) = 4 * (k * k) := by
            rw [Nat.mul_mul_mul_comm]
          rw [e1] at f3
          rw [e2]; omega)
      simp only [fillCalls, linkCalls, ht, if_neg hne, List.cons_append, List.nil_append]
      rw [costAll_cons f1, costAll_cons g1, g3]
      refine ⟨⟨by show 0 < n; omega, ho, by
        rw [show (COp.grow n).apply (ascC k k) = ascC k n from rfl, ascC_link]; exact this.1⟩, ?_⟩
      simp only [← Nat.add_assoc] at this ⊢; exact this.2

/-- C93 is false for a whole series of insertions: inserting `N` entries with the hash codes
`0 … N - 1` into a new table changes at least `3 N² / 8` places of the bucket array. -/
theorem C93_filling_is_quadratic (own : Nat) (hash0 : Nat → Nat) (N mx : Nat) (hmx : 2 * N ≤ mx) :
    COk ⟨[], 0⟩ (fillCalls (Grow.Tab.init 1 1 mx) 0 (List.range N)) ∧
    3 * N ^ 2 ≤ 8 * costAll (fresh own hash0) (fillCalls (Grow.Tab.init 1 1 mx) 0 (List.range N)) := by
  have := fill_run mx N 0 0 0 (fresh own hash0) (by omega) (Nat.le_refl 0) (asc_fresh own hash0) (Or.inl ⟨rfl, rfl, rfl⟩)
  rw [← List.range_eq_range'] at this
  simp only [Nat.zero_add] at this
  rw [Nat.pow_two]
  exact this

theorem inv_link_le {c : Tab} {a : Contents} {bs : List (List Nat)} (hi : Inv c a bs) (hpos : 0 < a.nb) (h e : Nat) :
    cost c (.link h e) ≤ a.nb := by
  have h2 := linkCost_eq hi.rep (by rw [hi.nb]; exact hpos) h
  rw [hi.nb] at h2
  have h3 := inv_span hi hpos h
  have h4 := span_le a.nb (a.ents.map (·.2)) h
  show c.linkCost h ≤ _; omega

theorem inv_grow_le {c : Tab} {a : Contents} {bs : List (List Nat)} (hi : Inv c a bs) {n : Nat} (hn : 0 < n) :
    cost c (.grow n) ≤ a.ents.length * n := by
  show c.rehashCost n ≤ _
  have hlen : a.ents.length = bs.flatten.length := by
    rw [← (inv_perm hi).length_eq, List.length_map]
  rw [rehashCost_eq hi.rep hi.size hn, hlen, distCost_eq_spans _ _ hn]
  have := spans_le n (bs.flatten.map c.hash)
  rwa [List.length_map] at this

theorem fill_le (mx : Nat) : ∀ (hs : List Nat) (k b w : Nat) (c : Tab) (a : Contents) (bs : List (List Nat)),
    2 * (k + hs.length) ≤ mx → k ≤ b → b ≤ 2 * k + 2 →
    Inv c a bs → a.nb = b → a.ents.length = k → (∀ e, k ≤ e → e ∉ a.ents.map (·.1)) → w ≤ k * b + b * b →
    COk a (fillCalls ⟨k, b, 1, 1, mx⟩ k hs) ∧
    w + costAll c (fillCalls ⟨k, b, 1, 1, mx⟩ k hs) ≤ 6 * ((k + hs.length + 1) * (k + hs.length + 1)) := by
  intro hs
  induction hs with
  | nil =>
    intro k b w c a bs _ hk hb _ _ _ _ hw
    refine ⟨trivial, ?_⟩
    simp only [fillCalls, costAll, List.length_nil, Nat.add_zero]
    have h1 := Nat.mul_le_mul (show k ≤ k + 1 by omega) hb
    have h2 := Nat.mul_le_mul hb hb
    have e1 : (k + 1) * (2 * k + 2) = 2 * ((k + 1) * (k + 1)) := by
      rw [show 2 * k + 2 = 2 * (k + 1) by omega, Nat.mul_left_comm]
    have e2 : (2 * k + 2) * (2 * k + 2) = 4 * ((k + 1) * (k + 1)) := by
      rw [show 2 * k + 2 = 2 * (k + 1) by omega, Nat.mul_mul_mul_comm]
    omega
  | cons h hs ih =>
    intro k b w c a bs hm hk hb hi hnb hlen hfr hw
    simp only [List.length_cons] at hm ⊢
    have e0 : k + (hs.length + 1) = k + 1 + hs.length := by omega
    rw [e0]
    have hlink : ∀ (c : Tab) (a : Contents) (bs : List (List Nat)) (n : Nat), Inv c a bs → a.nb = n → 0 < n →
        a.ents.length = k → (∀ e, k ≤ e → e ∉ a.ents.map (·.1)) →
        (COp.link h k).ok a ∧ ∃ c' bs', exec c (.link h k) = some c' ∧ cost c (.link h k) ≤ n ∧
          Inv c' ((COp.link h k).apply a) bs' ∧ ((COp.link h k).apply a).nb = n ∧
          ((COp.link h k).apply a).ents.length = k + 1 ∧
          (∀ e, k + 1 ≤ e → e ∉ ((COp.link h k).apply a).ents.map (·.1)) := by
      intro c a bs n hi hnb hpos hlen hfr
      have ho : (COp.link h k).ok a := ⟨hfr k (Nat.le_refl k), by omega⟩
      obtain ⟨c', g1, g2⟩ := exec_inv hi _ ho
      refine ⟨ho, c', _, g1, ?_, g2, hnb, by simp [COp.apply, hlen], ?_⟩
      · have := inv_link_le hi (by omega) h k; omega
      · intro e he
        have := hfr e (by omega)
        simp only [COp.apply, List.map_append, List.mem_append, not_or]
        exact ⟨this, by simp; omega⟩
    by_cases hkb : k < b
    · have ht : Grow.Tab.link ⟨k, b, 1, 1, mx⟩ 0 = ⟨k + 1, b, 1, 1, mx⟩ := by
        have h1 : ¬ b < k + 1 := by omega
        have h2 : b ≠ 0 := by omega
        simp [Grow.Tab.link, Grow.Tab.left, Grow.Tab.over, h1, h2]
      obtain ⟨ho, c1, bs1, g1, g2, g3, g4, g5, g6⟩ := hlink c a bs b hi hnb (by omega) hlen hfr
      have := ih (k + 1) b (w + cost c (.link h k)) c1 _ bs1 (by omega) (by omega) (by omega) g3 g4 g5 g6 (by
        rw [Nat.add_mul]; omega)
      simp only [fillCalls, linkCalls, ht, if_true, List.cons_append, List.nil_append]
      rw [costAll_cons g1, ← Nat.add_assoc]
      exact ⟨⟨ho, this.1⟩, this.2⟩
    · obtain rfl : k = b := by omega
      obtain ⟨n, hn, ht⟩ : ∃ n, n = (if k = 0 then 4 else 2 * k) ∧ Grow.Tab.link ⟨k, k, 1, 1, mx⟩ 0 = ⟨k + 1, n, 1, 1, mx⟩ := by
        refine ⟨_, rfl, ?_⟩
        have h2 : ¬ k > mx / 2 := by omega
        have h3 : k < mx := by omega
        simp [Grow.Tab.link, Grow.Tab.left, Grow.Tab.over, h2, h3]
      have hne : n ≠ k := by split at hn <;> omega
      have hkn : k < n := by split at hn <;> omega
      have hn2 : n ≤ 2 * (k + 1) + 2 := by split at hn <;> omega
      have hsq : k * k + k * k ≤ n * n := by
        have h1 : 2 * k ≤ n := by split at hn <;> omega
        have h2 := Nat.mul_le_mul h1 h1
        rw [Nat.mul_mul_mul_comm] at h2
        omega
      obtain ⟨c1, f1, f2⟩ := exec_inv hi (.grow n) (show 0 < n by omega)
      have f3 := inv_grow_le hi (n := n) (by omega)
      rw [hlen] at f3
      obtain ⟨ho, c2, bs2, g1, g2, g3, g4, g5, g6⟩ := hlink c1 _ _ n f2 rfl (by omega) hlen hfr
      have := ih (k + 1) n (w + cost c (.grow n) + cost c1 (.link h k)) c2 _ bs2 (by omega) (by omega) hn2 g3 g4 g5 g6 (by
        rw [Nat.add_mul]; omega)
      simp only [fillCalls, linkCalls, ht, if_neg hne, List.cons_append, List.nil_append]
      rw [costAll_cons f1, costAll_cons g1, ← Nat.add_assoc, ← Nat.add_assoc]
      exact ⟨⟨by show 0 < n; omega, ho, this.1⟩, this.2⟩

/-- C93, an upper bound for a whole series of insertions: whatever the hash codes are, inserting
`N` entries into a new table changes at most `6 (N + 1)²` places of the bucket array.

The full claim has a multiple of `N` here, which `C93_filling_is_quadratic` shows to be wrong. -/
theorem C93_filling_partial (own : Nat) (hash0 : Nat → Nat) (hs : List Nat) (mx : Nat) (hmx : 2 * hs.length ≤ mx) :
    COk ⟨[], 0⟩ (fillCalls (Grow.Tab.init 1 1 mx) 0 hs) ∧
    costAll (fresh own hash0) (fillCalls (Grow.Tab.init 1 1 mx) 0 hs) ≤ 6 * (hs.length + 1) ^ 2 := by
  have := fill_le mx hs 0 0 0 (fresh own hash0) ⟨[], 0⟩ _ (by omega) (Nat.le_refl 0) (by omega) (inv_fresh own hash0)
    rfl rfl (by intro e _; simp) (by omega)
  simp only [Nat.zero_add] at this
  rw [Nat.pow_two]
  exact this

/-! Concrete cases. -/

/-- Three entries in eight buckets (1, 1 and 6): an entry for bucket 2 changes the places 2 to 5. -/
example : COk ⟨[], 0⟩ [.grow 8, .link 1 10, .link 9 11, .link 6 12] ∧
    (COp.link 2 13).ok (contents [.grow 8, .link 1 10, .link 9 11, .link 6 12]) ∧
    span 8 [1, 9, 6] 2 = 4 ∧ span 8 [1, 9, 6] 1 = 5 ∧ span 8 [1, 9, 6] 7 = 1 := by
  refine ⟨by simp [COk, COp.ok, COp.apply], by simp [COp.ok, COp.apply, contents], by decide, by decide, by decide⟩

example : ∃ c, execAll (fresh 0 id) [.grow 8, .link 1 10, .link 9 11, .link 6 12] = some c ∧
    cost c (.link 2 13) = 4 :=
  C93_cost_of_inserting 0 id [.grow 8, .link 1 10, .link 9 11, .link 6 12] 2 13
    (by simp [COk, COp.ok, COp.apply]) (by simp [COp.ok, COp.apply, contents])

/-- Removing the first of two entries of a bucket changes nothing, removing the second one
changes the places 1 to 5. -/
example : ∃ c b, execAll (fresh 0 id) [.grow 8, .link 1 10, .link 9 11, .link 6 12] = some c ∧
    c.visitBucket 1 = some b ∧ 11 ∈ b ∧ cost c (.unlink 11) = if b.getLast? = some 11 then 5 else 0 :=
  C93_cost_of_removing 0 id [.grow 8, .link 1 10, .link 9 11, .link 6 12] 9 11
    (by simp [COk, COp.ok, COp.apply]) (by simp [COp.apply, contents]) (by simp [COp.apply, contents])

example : ((execAll (fresh 0 id) [.grow 8, .link 1 10, .link 9 11, .link 6 12]).map
    (fun c => (cost c (.unlink 10), cost c (.unlink 11), cost c (.grow 16)))) = some (0, 5, 25) := by decide +kernel

/-- Growing with these three entries. -/
example : ∃ (c : Tab) (l : List (Nat × Nat)), execAll (fresh 0 id) [.grow 8, .link 1 10, .link 9 11, .link 6 12] = some c ∧
    c.visitAll = some (l.map Prod.fst) ∧ l.Perm [(10, 1), (11, 9), (12, 6)] ∧ cost c (.grow 16) = spans 16 (l.map Prod.snd) :=
  C93_cost_of_growing 0 id [.grow 8, .link 1 10, .link 9 11, .link 6 12] 16
    (by simp [COk, COp.ok, COp.apply]) (by omega)

example : ∃ c, execAll (fresh 0 id) [.grow 8, .link 1 10, .link 9 11, .link 6 12] = some c ∧
    cost c (.unlink 11) ≤ 8 := by
  obtain ⟨c, h, _, h2, _⟩ := C93_bounds_partial 0 id [.grow 8, .link 1 10, .link 9 11, .link 6 12]
    (by simp [COk, COp.ok, COp.apply])
  exact ⟨c, h, h2 11 (by simp [COp.ok, COp.apply, contents])⟩

/-- Doubling a table of a thousand entries changes a million and a half places. -/
example : ∃ c, execAll (fresh 0 id) (ascending 1000) = some c ∧ cost c (.grow 2000) = 1500500 := by
  obtain ⟨_, _, c, h1, h2⟩ := C93_growing_is_quadratic 0 id 1000 (by omega)
  have h2 : 2 * cost c (.grow 2000) = 1000 * (3 * 1000 + 1) := h2
  exact ⟨c, h1, by omega⟩

/-- The calls for five entries: the table grows at the first and at the fifth. -/
example : (fillCalls (Grow.Tab.init 1 1 1000) 0 (List.range 5)).length = 7 ∧
    costAll (fresh 0 id) (fillCalls (Grow.Tab.init 1 1 1000) 0 (List.range 5)) = 40 := by decide +kernel

example : 3 * 1000000 ^ 2 ≤ 8 * costAll (fresh 0 id) (fillCalls (Grow.Tab.init 1 1 (2 ^ 60)) 0 (List.range 1000000)) :=
  (C93_filling_is_quadratic 0 id 1000000 (2 ^ 60) (by omega)).2

example : costAll (fresh 0 id) (fillCalls (Grow.Tab.init 1 1 1000) 0 [7, 7, 3, 12, 5]) ≤ 216 :=
  (C93_filling_partial 0 id [7, 7, 3, 12, 5] 1000 (by simp)).2

end Hoard.Chain
