/-! Helper lemmas about arrays of buckets (lists of lists placed by hash). -/
namespace Hoard.Buckets
variable {α β : Type}

/-- Elements are in the bucket of their hash. -/
def Placed (h : α → Nat) (t : List (List α)) : Prop :=
  ∀ i b, t[i]? = some b → ∀ x ∈ b, h x % t.length = i

/-- Append to the bucket of the hash. -/
def place (h : α → Nat) (t : List (List α)) (x : α) : List (List α) := t.modify (h x % t.length) (· ++ [x])

theorem length_place (h : α → Nat) (t : List (List α)) (x) : (place h t x).length = t.length := by simp [place]

theorem filter_other (h : α → Nat) {t : List (List α)} {c n : Nat} (i : Nat)
    (hp : ∀ j b, t[j]? = some b → ∀ x ∈ b, h x % n = i + j) (hlt : c % n < i) :
    t.flatten.filter (fun x => h x == c) = [] := by
  rw [List.filter_eq_nil_iff]
  intro x hx
  obtain ⟨b, hb, hxb⟩ := List.mem_flatten.1 hx
  obtain ⟨j, hj, rfl⟩ := List.mem_iff_getElem.1 hb
  have := hp j _ (List.getElem?_eq_getElem hj) x hxb
  simp only [beq_iff_eq]
  rintro rfl; omega

theorem filter_bucket_aux (h : α → Nat) {c n : Nat} : ∀ (t : List (List α)) (i : Nat),
    (∀ j b, t[j]? = some b → ∀ x ∈ b, h x % n = i + j) → i ≤ c % n →
    t.flatten.filter (fun x => h x == c) = ((t[c % n - i]?).getD []).filter (fun x => h x == c)
  | [], i, _, _ => by simp
  | b :: t, i, hp, hi => by
    rw [List.flatten_cons, List.filter_append]
    have hp' : ∀ j b', t[j]? = some b' → ∀ x ∈ b', h x % n = (i + 1) + j := by
      intro j b' hb x hx
      have := hp (j + 1) b' (by simpa using hb) x hx
      omega
    by_cases hc : c % n = i
    · rw [filter_other h (i + 1) hp' (by omega)]
      simp [hc]
    · rw [filter_bucket_aux h t (i + 1) hp' (by omega)]
      have : b.filter (fun x => h x == c) = [] := by
        rw [List.filter_eq_nil_iff]
        intro x hx
        have := hp 0 b (by simp) x hx
        simp only [beq_iff_eq]
        rintro rfl; omega
      rw [this, List.nil_append]
      have : c % n - i = (c % n - (i + 1)) + 1 := by omega
      rw [this, List.getElem?_cons_succ]

/-- All elements with hash `c` are in the bucket of `c`, in the same order. -/
theorem filter_bucket {h : α → Nat} {t : List (List α)} (hp : Placed h t) (c : Nat) :
    t.flatten.filter (fun x => h x == c) = ((t[c % t.length]?).getD []).filter (fun x => h x == c) := by
  have := filter_bucket_aux h (c := c) (n := t.length) t 0
    (by intro j b hb x hx; rw [Nat.zero_add]; exact hp j b hb x hx) (by omega)
  simpa using this

theorem placed_place {h : α → Nat} {t : List (List α)} (hp : Placed h t) (x : α) : Placed h (place h t x) := by
  intro i b hb y hy
  rw [length_place]
  simp only [place, List.getElem?_modify] at hb
  cases ht : t[i]? with
  | none => simp [ht] at hb
  | some b0 =>
    simp only [ht, Option.map_eq_map, Option.map_some, Option.some.injEq] at hb
    by_cases hx : h x % t.length = i
    · simp only [hx, if_true] at hb
      subst hb
      rcases List.mem_append.1 hy with hy | hy
      · exact hp i b0 ht y hy
      · simp at hy; subst hy; exact hx
    · simp only [hx, if_false] at hb
      subst hb
      exact hp i b0 ht y hy

theorem perm_place (h : α → Nat) {t : List (List α)} (ht : t ≠ []) (x : α) :
    (place h t x).flatten.Perm (t.flatten ++ [x]) := by
  have hl : h x % t.length < t.length := Nat.mod_lt _ (List.length_pos_iff.2 ht)
  unfold place
  generalize h x % t.length = i at hl
  clear ht
  induction t generalizing i with
  | nil => simp at hl
  | cons b t ih =>
    cases i with
    | zero =>
      simp only [List.modify_zero_cons, List.flatten_cons, List.append_assoc]
      exact List.Perm.append_left _ List.perm_append_comm
    | succ i =>
      simp only [List.modify_succ_cons, List.flatten_cons, List.append_assoc]
      exact List.Perm.append_left _ (ih i (by simpa using hl))

theorem filter_place {h : α → Nat} {t : List (List α)} (hp : Placed h t) (ht : t ≠ []) (x : α) (c : Nat) :
    (place h t x).flatten.filter (fun y => h y == c) =
      t.flatten.filter (fun y => h y == c) ++ (if h x = c then [x] else []) := by
  rw [filter_bucket (placed_place hp x), filter_bucket hp, length_place]
  have hl : c % t.length < t.length := Nat.mod_lt _ (List.length_pos_iff.2 ht)
  simp only [place, List.getElem?_modify, List.getElem?_eq_getElem hl, Option.map_eq_map, Option.map_some, Option.getD_some]
  by_cases hx : h x % t.length = c % t.length
  · simp only [hx, if_true, List.filter_append]
    congr 1
    by_cases hc : h x = c <;> simp [hc]
  · have : h x ≠ c := by rintro rfl; exact hx rfl
    simp [hx, this]

/-- Stable redistribution. -/
def redistribute (h : α → Nat) (n : Nat) (l : List α) : List (List α) := l.foldl (place h) (List.replicate n [])

theorem foldl_place {h : α → Nat} (l : List α) : ∀ {t : List (List α)}, Placed h t → t ≠ [] →
    Placed h (l.foldl (place h) t) ∧ (l.foldl (place h) t).length = t.length ∧
    (l.foldl (place h) t).flatten.Perm (t.flatten ++ l) ∧
    ∀ c, (l.foldl (place h) t).flatten.filter (fun y => h y == c) =
      t.flatten.filter (fun y => h y == c) ++ l.filter (fun y => h y == c) := by
  induction l with
  | nil => intro t hp _; simp [hp]
  | cons x l ih =>
    intro t hp ht
    have hne : place h t x ≠ [] := by
      intro hn; have := congrArg List.length hn; rw [length_place] at this
      exact ht (List.length_eq_zero_iff.1 this)
    obtain ⟨h1, h2, h3, h4⟩ := ih (placed_place hp x) hne
    refine ⟨h1, by rw [List.foldl_cons, h2, length_place], ?_, ?_⟩
    · rw [List.foldl_cons]
      refine h3.trans (((perm_place h ht x).append_right l).trans ?_)
      simp
    · intro c
      rw [List.foldl_cons, h4, filter_place hp ht, List.append_assoc]
      congr 1
      by_cases hc : h x = c <;> simp [hc]

theorem placed_replicate (h : α → Nat) (n : Nat) : Placed h (List.replicate n []) := by
  intro i b hb x hx
  rw [List.getElem?_replicate] at hb
  split at hb
  · simp at hb; subst hb; simp at hx
  · simp at hb

theorem redistribute_spec (h : α → Nat) {n : Nat} (hn : 0 < n) (l : List α) :
    Placed h (redistribute h n l) ∧ (redistribute h n l).length = n ∧ (redistribute h n l).flatten.Perm l ∧
    ∀ c, (redistribute h n l).flatten.filter (fun y => h y == c) = l.filter (fun y => h y == c) := by
  have := foldl_place (h := h) l (placed_replicate h n) (by intro hc; simp at hc; omega)
  simpa [redistribute] using this

/-- Shrinking every bucket keeps placement. -/
theorem Placed.sub {h : α → Nat} {t t' : List (List α)} (hp : Placed h t) (hl : t'.length = t.length)
    (hs : ∀ (i : Nat) (b b' : List α), t[i]? = some b → t'[i]? = some b' → ∀ x ∈ b', x ∈ b) : Placed h t' := by
  intro i b' hb' x hx
  have hi : i < t'.length := (List.getElem?_eq_some_iff.1 hb').1
  have := hp i t[i] (List.getElem?_eq_getElem (by omega)) x (hs i _ _ (List.getElem?_eq_getElem (by omega)) hb' x hx)
  rw [hl]; exact this

theorem Placed.map {h : β → Nat} {f : α → β} {t : List (List α)} :
    Placed h (t.map (·.map f)) ↔ Placed (fun x => h (f x)) t := by
  constructor
  · intro hp i b hb x hx
    have := hp i (b.map f) (by simp [hb]) (f x) (List.mem_map.2 ⟨x, hx, rfl⟩)
    simpa using this
  · intro hp i b hb y hy
    simp only [List.getElem?_map, Option.map_eq_some_iff] at hb
    obtain ⟨b0, hb0, rfl⟩ := hb
    obtain ⟨x, hx, rfl⟩ := List.mem_map.1 hy
    simpa using hp i b0 hb0 x hx

theorem modify_map (f : α → β) (g : α → α) (g' : β → β) (hg : ∀ a, f (g a) = g' (f a)) : ∀ (l : List α) (i : Nat),
    (l.modify i g).map f = (l.map f).modify i g'
  | [], _ => by simp
  | a :: l, 0 => by simp [hg]
  | a :: l, i + 1 => by simp [modify_map f g g' hg l i]

theorem map_place (f : α → β) (h : β → Nat) (t : List (List α)) (x : α) :
    (place (fun x => h (f x)) t x).map (·.map f) = place h (t.map (·.map f)) (f x) := by
  unfold place
  rw [modify_map (fun b => b.map f) (· ++ [x]) (· ++ [f x]) (by simp)]
  simp

end Hoard.Buckets
