import Verif.LruLemmas
import Verif.Spec.Full
/-! Lemmas for a cache with a size limit that is only filled: live items are first, dead ones last. -/
namespace Hoard
open Spec
variable {K V E : Type}

theorem swept_split {now : Time} {a b l1 : List (Item K V)} (ha : ∀ x ∈ a, x.live now = true) (hb : ∀ x ∈ b, x.live now = false)
    (hs : Swept now (a ++ b) l1) : ∃ b1, l1 = a ++ b1 ∧ b1.Sublist b := by
  obtain ⟨x, y, rfl, hx, hy⟩ := List.sublist_append_iff.1 hs.1
  refine ⟨y, ?_, hy⟩
  have h := hs.2
  rw [List.filter_append, List.filter_append, List.filter_eq_self.2 (fun z hz => ha z (hx.subset hz)), List.filter_eq_self.2 ha,
    List.filter_eq_nil_iff.2 (fun z hz => by simp [hb z (hy.subset hz)]), List.filter_eq_nil_iff.2 (fun z hz => by simp [hb z hz]), List.append_nil, List.append_nil] at h
  rw [h]

theorem insertMid_split (it : Item K V) (a b : List (Item K V)) (h : b ≠ [] → (a.length + b.length + 1) / 2 ≤ a.length) :
    ∃ a2, insertMid it (a ++ b) = a2 ++ b ∧ a2.Perm (it :: a) := by
  have hp : ((a ++ b).length + 1) / 2 ≤ a.length := by
    rw [List.length_append]
    by_cases hb : b = []
    · subst hb; simp only [List.length_nil, Nat.add_zero]; omega
    · exact h hb
  refine ⟨a.take (((a ++ b).length + 1) / 2) ++ it :: a.drop (((a ++ b).length + 1) / 2), ?_, ?_⟩
  · unfold insertMid
    rw [List.take_append_of_le_length hp, List.drop_append_of_le_length hp]
    simp
  · refine List.perm_middle.trans (List.Perm.cons _ ?_)
    rw [List.take_append_drop]

theorem trim_split (N : Nat) (a b : List (Item K V)) (hb : ∀ x ∈ b, x.2 = none) (hN : b ≠ [] → N ≤ a.length) (hl : a.length + b.length ≤ 2 * N) :
    ∃ a3 b3, trim N (a ++ b) = a3 ++ b3 ∧ a3.Sublist a ∧ (∀ x ∈ b3, x.2 = none) ∧ (a.length ≤ N → a3 = a) ∧ (N ≤ a.length → a3.length = N) ∧ (b3 ≠ [] → N ≤ a3.length) := by
  have he : (a ++ b).length - excess N (a ++ b).length = min (a.length + b.length) N := by
    unfold excess
    rw [List.length_append]; omega
  have hle : min (a.length + b.length) N ≤ a.length := by
    by_cases h : b = []
    · subst h; simp only [List.length_nil, Nat.add_zero]; omega
    · have := hN h; omega
  refine ⟨a.take (min (a.length + b.length) N), ((a ++ b).drop (min (a.length + b.length) N)).map (fun it => (it.1, none)), ?_, List.take_sublist _ _, ?_, ?_, ?_, ?_⟩
  · unfold trim
    rw [he, List.take_append_of_le_length hle]
  · intro x hx
    obtain ⟨y, _, rfl⟩ := List.mem_map.1 hx
    rfl
  · intro h
    apply List.take_of_length_le
    by_cases hb' : b = []
    · subst hb'; simp only [List.length_nil, Nat.add_zero]; omega
    · have := hN hb'; omega
  · intro h; rw [List.length_take]; omega
  · intro h
    rw [List.length_take]
    have : (a ++ b).drop (min (a.length + b.length) N) ≠ [] := by intro h'; exact h (by rw [h']; rfl)
    have : min (a.length + b.length) N < (a ++ b).length := by
      refine Nat.lt_of_not_le fun h' => this (List.drop_eq_nil_of_le h')
    rw [List.length_append] at this
    omega

theorem touch_split {eqv : K → K → Bool} {now : Time} {k : K} (a b : List (Item K V)) (hb : ∀ x ∈ b, x.live now = false) :
    ∃ a2, touch eqv now k (a ++ b) = a2 ++ b ∧ a2.Perm a := by
  have hbn : b.find? (Item.answers eqv now k) = none := List.find?_eq_none.2 (fun x hx => by simp [Item.answers, hb x hx])
  unfold touch
  rw [List.find?_append, hbn, Option.or_none]
  cases hf : a.find? (Item.answers eqv now k) with
  | none => exact ⟨a, rfl, List.Perm.refl _⟩
  | some it =>
    have hm := List.mem_of_find?_eq_some hf
    have hp := List.find?_some hf
    refine ⟨it :: a.eraseP (Item.answers eqv now k), ?_, ?_⟩
    · show it :: (a ++ b).eraseP _ = _
      rw [List.eraseP_append_left hp b hm]; rfl
    · obtain ⟨x, l1, l2, h1, h2, h3, h4⟩ := List.exists_of_eraseP hm hp
      rw [h4, h3]
      have : x = it := by
        rw [h3, List.find?_append, List.find?_eq_none.2 (fun y hy => h1 y hy), List.find?_cons_of_pos h2] at hf
        simpa using hf
      subst this
      exact List.perm_middle.symm

/-- The live items are first, the dead ones last; there are dead ones only if the live ones are at least `N`; and if there are fewer, all keys of `S` are among them. -/
def Packed (eqv : K → K → Bool) (N : Nat) (S : K → Prop) (l : List (Item K V)) : Prop :=
  ∃ a b, l = a ++ b ∧ (∀ x ∈ a, ∃ v, x.2 = some (v, none)) ∧ (∀ x ∈ b, x.2 = none) ∧ (b ≠ [] → N ≤ a.length) ∧
    (N ≤ a.length ∨ ∀ k, S k → ∃ x ∈ a, eqv x.1 k = true)

theorem item_live {now : Time} {x : Item K V} (h : ∃ v, x.2 = some (v, none)) : x.live now = true := by
  obtain ⟨v, h⟩ := h; simp [Item.live, h]
theorem item_dead {now : Time} {x : Item K V} (h : x.2 = none) : x.live now = false := by simp [Item.live, h]

/-- Of distinct keys at most one is equal to a given one. -/
theorem without_length {eqv : K → K → Bool} (hs : ∀ a b, eqv a b = true → eqv b a = true) (ht : ∀ a b c, eqv a b = true → eqv b c = true → eqv a c = true)
    (k : K) : ∀ (a : List (Item K V)), Distinct eqv a → a.length ≤ (without eqv k a).length + 1
  | [], _ => by simp
  | x :: a, hd => by
    unfold Distinct at hd
    rw [List.pairwise_cons] at hd
    unfold without
    cases hx : eqv x.1 k with
    | false =>
      have := without_length hs ht k a hd.2
      unfold without at this
      simp [hx] at this ⊢; omega
    | true =>
      have : a.filter (fun it => !eqv it.1 k) = a := by
        rw [List.filter_eq_self]
        intro y hy
        cases hyk : eqv y.1 k with
        | false => rfl
        | true =>
          have := (hd.1 y hy).1
          rw [ht _ _ _ hx (hs _ _ hyk)] at this; cases this
      simp [hx, this]

theorem without_none {eqv : K → K → Bool} {now : Time} {k : K} {a b : List (Item K V)} (ha : ∀ x ∈ a, x.live now = true) (hv : ∀ x ∈ a, ∃ v, x.2 = some (v, none))
    (h : look eqv now k (a ++ b) = none) : without eqv k a = a := by
  unfold without
  rw [List.filter_eq_self]
  intro x hx
  cases hk : eqv x.1 k with
  | false => rfl
  | true =>
    exfalso
    unfold look at h
    rw [List.find?_append] at h
    cases hf : a.find? (Item.answers eqv now k) with
    | none =>
      have := List.find?_eq_none.1 hf x hx
      simp [Item.answers, hk, ha x hx] at this
    | some y =>
      obtain ⟨v, hy⟩ := hv y (List.mem_of_find?_eq_some hf)
      simp [hf, hy] at h

theorem look_in {eqv : K → K → Bool} {now : Time} {k : K} {a b : List (Item K V)} {v : V} (hb : ∀ x ∈ b, x.live now = false)
    (h : look eqv now k (a ++ b) = some v) : ∃ x ∈ a, eqv x.1 k = true := by
  unfold look at h
  rw [List.find?_append, List.find?_eq_none.2 (fun x hx => by simp [Item.answers, hb x hx] : ∀ x ∈ b, ¬ Item.answers eqv now k x = true), Option.or_none] at h
  cases hf : a.find? (Item.answers eqv now k) with
  | none => rw [hf] at h; cases h
  | some y =>
    have := List.find?_some hf
    simp only [Item.answers, Bool.and_eq_true] at this
    exact ⟨y, List.mem_of_find?_eq_some hf, this.1⟩

section
variable {eqv : K → K → Bool} {N : Nat} {memo : Bool} {now : Time} {S : K → Prop}

/-- A value enters. -/
theorem packed_insert {a b1 : List (Item K V)} {k : K} {v : V} (ha : ∀ x ∈ a, ∃ v, x.2 = some (v, none)) (hb : ∀ x ∈ b1, x.2 = none)
    (hN : b1 ≠ [] → N ≤ a.length + 1) (hroom : a.length + b1.length + 1 < 2 * N)
    (hS : N ≤ a.length + 1 ∨ ∀ c, S c → (∃ x ∈ a, eqv x.1 c = true) ∨ eqv k c = true) :
    Packed eqv N S (insertMid (fresh none now k v) (a ++ b1)) ∧ Packed eqv N S (trim N (insertMid (fresh none now k v) (a ++ b1))) := by
  obtain ⟨a2, e2, p2⟩ := insertMid_split (fresh none now k v) a b1 (by intro h; have := hN h; omega)
  have hlen : a2.length = a.length + 1 := by rw [p2.length_eq]; rfl
  have ha2 : ∀ x ∈ a2, ∃ v, x.2 = some (v, none) := by
    intro x hx
    rcases List.mem_cons.1 (p2.mem_iff.1 hx) with rfl | hx
    · exact ⟨v, rfl⟩
    · exact ha x hx
  have hS2 : N ≤ a2.length ∨ ∀ c, S c → ∃ x ∈ a2, eqv x.1 c = true := by
    rw [hlen]
    refine hS.imp id fun h c hc => ?_
    rcases h c hc with ⟨x, hx, hxc⟩ | hkc
    · exact ⟨x, p2.mem_iff.2 (List.mem_cons_of_mem _ hx), hxc⟩
    · exact ⟨fresh none now k v, p2.mem_iff.2 List.mem_cons_self, hkc⟩
  have hN2 : b1 ≠ [] → N ≤ a2.length := by rw [hlen]; exact hN
  rw [e2]
  refine ⟨⟨a2, b1, rfl, ha2, hb, hN2, hS2⟩, ?_⟩
  obtain ⟨a3, b3, e3, s3, hb3, h4, h5, h6⟩ := trim_split N a2 b1 hb hN2 (by omega)
  refine ⟨a3, b3, e3, fun x hx => ha2 x (s3.subset hx), hb3, h6, ?_⟩
  by_cases hle : N ≤ a2.length
  · exact .inl (by rw [h5 hle]; exact Nat.le_refl _)
  · rw [h4 (by omega)]; exact hS2

/-- A call that only fills keeps the live items first. -/
theorem Spec.LruStep.packed (hr : ∀ k, eqv k k = true) (hs : ∀ a b, eqv a b = true → eqv b a = true)
    (ht : ∀ a b c, eqv a b = true → eqv b c = true → eqv a c = true)
    {l l' : List (Item K V)} {o : MapOp K V E} {out} (h : LruStep eqv N none memo now l o out l') (hf : fills o = true)
    (hroom : l'.length < 2 * N) (d : Distinct eqv l) (P : Packed eqv N S l) : Packed eqv N (fun k => S k ∨ stores memo o = some k) l' := by
  obtain ⟨a, b, rfl, ha, hb, hN, hS⟩ := P
  have hal : ∀ x ∈ a, x.live now = true := fun x hx => item_live (ha x hx)
  have hbd : ∀ x ∈ b, x.live now = false := fun x hx => item_dead (hb x hx)
  have hda : Distinct eqv a := by unfold Distinct at d; rw [List.pairwise_append] at d; exact d.1
  -- the items of other keys, swept
  have wo : ∀ {k : K} {l1 : List (Item K V)}, Swept now (without eqv k (a ++ b)) l1 → ∃ b1, l1 = without eqv k a ++ b1 ∧ b1.Sublist b := by
    intro k l1 h
    have e : without eqv k (a ++ b) = without eqv k a ++ without eqv k b := by simp [without]
    rw [e] at h
    obtain ⟨b1, h1, h2⟩ := swept_split (fun x hx => hal x (List.mem_filter.1 hx).1) (fun x hx => hbd x (List.mem_filter.1 hx).1) h
    exact ⟨b1, h1, h2.trans List.filter_sublist⟩
  have nb : ∀ {b1 : List (Item K V)}, b1.Sublist b → b1 ≠ [] → N ≤ a.length := by
    intro b1 h1 h2
    refine hN fun h => h2 ?_
    rw [h] at h1; exact List.sublist_nil.1 h1
  -- a value enters in place of those with its key
  have ins : ∀ {k : K} {v : V} {l1 : List (Item K V)}, Swept now (without eqv k (a ++ b)) l1 → l1.length + 1 < 2 * N →
      Packed eqv N (fun c => S c ∨ some k = some c) (insertMid (fresh none now k v) l1) ∧ Packed eqv N (fun c => S c ∨ some k = some c) (trim N (insertMid (fresh none now k v) l1)) := by
    intro k v l1 h hl
    obtain ⟨b1, rfl, hb1⟩ := wo h
    have hlen := without_length hs ht k a hda
    rw [List.length_append] at hl
    refine packed_insert (fun x hx => ha x (List.mem_filter.1 hx).1) (fun x hx => hb x (hb1.subset hx)) (fun h => by have := nb hb1 h; omega) hl ?_
    rcases hS with hS | hS
    · exact .inl (by omega)
    · refine .inr fun c hc => ?_
      rcases hc with hc | hc
      · obtain ⟨x, hx, hxc⟩ := hS c hc
        cases hk : eqv x.1 k with
        | false => exact .inl ⟨x, List.mem_filter.2 ⟨hx, by simp [hk]⟩, hxc⟩
        | true => exact .inr (ht _ _ _ (hs _ _ hk) hxc)
      · cases hc; exact .inr (hr k)
  have key : ∀ {k : K} {v : V}, look eqv now k (a ++ b) = some v → (N ≤ a.length ∨ ∀ c, S c ∨ some k = some c → ∃ x ∈ a, eqv x.1 c = true) := by
    intro k v h
    refine hS.imp id fun hS c hc => ?_
    rcases hc with hc | hc
    · exact hS c hc
    · cases hc; exact look_in hbd h
  have weak : ∀ {S' S'' : K → Prop} {l : List (Item K V)}, (∀ c, S'' c → S' c) → Packed eqv N S' l → Packed eqv N S'' l := by
    rintro S' S'' l hi ⟨a, b, h1, h2, h3, h4, h5⟩
    exact ⟨a, b, h1, h2, h3, h4, h5.imp id fun h c hc => h c (hi c hc)⟩
  -- the value found moves to the front
  have tch : ∀ {k : K} {v : V} {l1 : List (Item K V)}, look eqv now k (a ++ b) = some v → Swept now (a ++ b) l1 →
      ∃ a2 b1, touch eqv now k l1 = a2 ++ b1 ∧ a2.Perm a ∧ b1.Sublist b := by
    intro k v l1 _ h2
    obtain ⟨b1, rfl, hb1⟩ := swept_split hal hbd h2
    obtain ⟨a2, e2, p2⟩ := touch_split (eqv := eqv) (k := k) a b1 (fun x hx => hbd x (hb1.subset hx))
    exact ⟨a2, b1, e2, p2, hb1⟩
  cases h with
  | peek => exact ⟨a, b, rfl, ha, hb, hN, hS.imp id fun h c hc => h c (hc.resolve_right (by simp [stores]))⟩
  | emplace h1 =>
    rw [trim_length, insertMid_length] at hroom
    exact (ins h1 hroom).2
  | make h1 h2 =>
    rw [trim_length, insertMid_length] at hroom
    exact (ins h2 hroom).2
  | resolve h1 h2 h3 =>
    rw [insertMid_length] at hroom
    refine weak ?_ (ins h3 hroom).1
    intro c hc; simpa [stores, h2] using hc
  | hit h1 h2 =>
    obtain ⟨a2, b1, e2, p2, hb1⟩ := tch h1 h2
    refine ⟨a2, b1, e2, fun x hx => ha x (p2.mem_iff.1 hx), fun x hx => hb x (hb1.subset hx), fun h => by rw [p2.length_eq]; exact nb hb1 h, ?_⟩
    rw [p2.length_eq]
    refine (key h1).imp id fun h c hc => ?_
    obtain ⟨x, hx, hxc⟩ := h c (hc.imp id fun q => by simp only [stores] at q; split at q <;> simp_all)
    exact ⟨x, p2.mem_iff.2 hx, hxc⟩
  | have_ h1 h2 =>
    obtain ⟨a2, b1, e2, p2, hb1⟩ := tch h1 h2
    rw [trim_length, e2, List.length_append] at hroom
    rw [e2]
    have hN2 : b1 ≠ [] → N ≤ a2.length := fun h => by rw [p2.length_eq]; exact nb hb1 h
    obtain ⟨a3, b3, e3, s3, hb3, h4, h5, h6⟩ := trim_split N a2 b1 (fun x hx => hb x (hb1.subset hx)) hN2 (by omega)
    refine ⟨a3, b3, e3, fun x hx => ha x (p2.mem_iff.1 (s3.subset hx)), hb3, h6, ?_⟩
    by_cases hle : N ≤ a2.length
    · exact .inl (by rw [h5 hle]; exact Nat.le_refl _)
    · rw [h4 (by omega), p2.length_eq]
      refine (key h1).imp id fun h c hc => ?_
      obtain ⟨x, hx, hxc⟩ := h c hc
      exact ⟨x, p2.mem_iff.2 hx, hxc⟩
  | miss h1 h2 h3 =>
    obtain ⟨b1, rfl, hb1⟩ := wo h3
    rw [without_none hal ha h1]
    exact ⟨a, b1, rfl, ha, fun x hx => hb x (hb1.subset hx), nb hb1, hS.imp id fun h c hc => h c (hc.resolve_right (by simp [stores, h2]))⟩
  | fail => cases hf
  | erase => cases hf
  | clear => cases hf

/-- The keys in the list are keys for which a value was stored. -/
theorem Spec.LruStep.keys {age : Option (Int × Bool)} {l l' : List (Item K V)} {o : MapOp K V E} {out} (h : LruStep eqv N age memo now l o out l')
    (hf : fills o = true) (hS : ∀ x ∈ l, S x.1) : ∀ x ∈ l', S x.1 ∨ stores memo o = some x.1 := by
  have sub : ∀ {l1 : List (Item K V)}, l1.Sublist l → ∀ x ∈ l1, S x.1 := fun h x hx => hS x (h.subset hx)
  have ins : ∀ {l1 : List (Item K V)} {it : Item K V} {x : Item K V}, x ∈ insertMid it l1 → x = it ∨ x ∈ l1 := by
    intro l1 it x hx
    rcases List.mem_append.1 hx with hx | hx
    · exact .inr (List.mem_of_mem_take hx)
    · rcases List.mem_cons.1 hx with rfl | hx
      · exact .inl rfl
      · exact .inr (List.mem_of_mem_drop hx)
  have trm : ∀ {l1 : List (Item K V)} {x : Item K V}, x ∈ trim N l1 → ∃ y ∈ l1, y.1 = x.1 := by
    intro l1 x hx
    rcases List.mem_append.1 hx with hx | hx
    · exact ⟨x, List.mem_of_mem_take hx, rfl⟩
    · obtain ⟨y, hy, rfl⟩ := List.mem_map.1 hx
      exact ⟨y, List.mem_of_mem_drop hy, rfl⟩
  have tch : ∀ {l1 : List (Item K V)} {k : K} {x : Item K V}, x ∈ touch eqv now k l1 → x ∈ l1 := by
    intro l1 k x hx
    unfold touch at hx
    split at hx
    · rename_i it hit
      rcases List.mem_cons.1 hx with rfl | hx
      · exact List.mem_of_find?_eq_some hit
      · exact List.mem_of_mem_eraseP hx
    · exact hx
  have wo : ∀ {l1 : List (Item K V)} {k : K}, Swept now (without eqv k l) l1 → l1.Sublist l := fun h => h.1.trans List.filter_sublist
  intro x hx
  cases h with
  | peek => exact .inl (hS x hx)
  | emplace h1 =>
    obtain ⟨y, hy, e⟩ := trm hx
    rw [← e]
    rcases ins hy with rfl | hy
    · exact .inr rfl
    · exact .inl (sub (wo h1) y hy)
  | make h1 h2 =>
    obtain ⟨y, hy, e⟩ := trm hx
    rw [← e]
    rcases ins hy with rfl | hy
    · exact .inr rfl
    · exact .inl (sub (wo h2) y hy)
  | resolve h1 h2 h3 =>
    rcases ins hx with rfl | hx
    · exact .inr (by simp [stores, h2, fresh])
    · exact .inl (sub (wo h3) x hx)
  | hit h1 h2 => exact .inl (sub h2.1 x (tch hx))
  | have_ h1 h2 =>
    obtain ⟨y, hy, e⟩ := trm hx
    rw [← e]
    exact .inl (sub h2.1 y (tch hy))
  | miss h1 h2 h3 => exact .inl (sub (wo h3) x hx)
  | fail => cases hf
  | erase => cases hf
  | clear => cases hf
end

/-- Different keys that are equal to keys of a list are not more than these. -/
theorem distinct_le {eqv : K → K → Bool} (hs : ∀ a b, eqv a b = true → eqv b a = true) (ht : ∀ a b c, eqv a b = true → eqv b c = true → eqv a c = true) :
    ∀ (l1 l2 : List K), l1.Pairwise (fun a b => eqv a b = false) → (∀ x ∈ l1, ∃ y ∈ l2, eqv x y = true) → l1.length ≤ l2.length
  | [], _, _, _ => by simp
  | x :: l1, l2, hd, h => by
    rw [List.pairwise_cons] at hd
    obtain ⟨y, hy, hxy⟩ := h x (by simp)
    obtain ⟨s, t, rfl⟩ := List.append_of_mem hy
    have := distinct_le hs ht l1 (s ++ t) hd.2 (by
      intro z hz
      obtain ⟨w, hw, hzw⟩ := h z (by simp [hz])
      rcases List.mem_append.1 hw with hw | hw
      · exact ⟨w, by simp [hw], hzw⟩
      · rcases List.mem_cons.1 hw with rfl | hw
        · have := hd.1 z hz
          rw [ht _ _ _ hxy (hs _ _ hzw)] at this; cases this
        · exact ⟨w, by simp [hw], hzw⟩)
    simp only [List.length_append, List.length_cons] at this ⊢
    omega
end Hoard
