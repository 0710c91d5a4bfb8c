import Verif.Spec.Owners
/-! # Lemmas about counted pointers -/
namespace Hoard.Refcount

/-- 1 for the object pointed to. -/
def ind (p : Option Nat) (o : Nat) : Nat := if p = some o then 1 else 0

/-- The counters hold `f`, and exactly the objects with a positive number exist. -/
structure InvE (f : Nat → Nat) (s : St) : Prop where
  pos : ∀ o, s.alive o = true ↔ 0 < f o
  cnt : ∀ o, s.alive o = true → s.cnt o = f o
  lt : ∀ o, s.alive o = true → o < s.next
  kn : s.killed.Nodup
  km : ∀ o, o ∈ s.killed ↔ o < s.next ∧ s.alive o = false

/-- The invariant: the counters hold the numbers of owners. -/
structure Inv (s : St) : Prop where
  nd : (s.vars.map (·.1)).Nodup
  e : InvE (owners s) s

theorem InvE.congr {f g : Nat → Nat} {s t : St} (h : InvE f s) (hc : t.cnt = s.cnt) (ha : t.alive = s.alive) (hn : t.next = s.next) (hk : t.killed = s.killed) (hf : ∀ o, f o = g o) : InvE g t := by
  obtain rfl : f = g := funext hf
  exact ⟨by rw [ha]; exact h.pos, by rw [hc, ha]; exact h.cnt, by rw [ha, hn]; exact h.lt, by rw [hk]; exact h.kn, by rw [ha, hn, hk]; exact h.km⟩

theorem InvE.fresh {f : Nat → Nat} {s : St} (h : InvE f s) : f s.next = 0 := by
  rcases Nat.eq_zero_or_pos (f s.next) with q | q
  · exact q
  · exact absurd (h.lt _ ((h.pos _).2 q)) (Nat.lt_irrefl _)

theorem inc_ok {f : Nat → Nat} {s : St} (h : InvE f s) (p : Option Nat) (hp : ∀ o, p = some o → 0 < f o) :
    ∃ s', s.inc p = some s' ∧ InvE (fun o => f o + ind p o) s' ∧ s'.vars = s.vars ∧ s'.raw = s.raw ∧ s'.next = s.next ∧ s'.killed = s.killed := by
  cases p with
  | none => exact ⟨s, rfl, h.congr rfl rfl rfl rfl (by simp [ind]), rfl, rfl, rfl, rfl⟩
  | some o =>
    have hal := (h.pos o).2 (hp o rfl)
    refine ⟨{ s with cnt := fun a => if a = o then s.cnt o + 1 else s.cnt a }, by simp [St.inc, hal], ⟨?_, ?_, h.lt, h.kn, h.km⟩, rfl, rfl, rfl, rfl⟩
    · intro a
      simp only [ind, Option.some.injEq]
      by_cases ha : o = a
      · subst ha; simp [hal]
      · simp [ha, h.pos a]
    · intro a hha
      have := h.cnt a hha
      simp only [ind, Option.some.injEq]
      by_cases ha : a = o
      · subst ha; rw [if_pos rfl, if_pos rfl, this]
      · rw [if_neg ha, if_neg (Ne.symm ha), this]; rfl

theorem unref_ok {f : Nat → Nat} {s : St} (h : InvE f s) (p : Option Nat) (hp : ∀ o, p = some o → 0 < f o) :
    ∃ s', s.unref p = some s' ∧ InvE (fun o => f o - ind p o) s' ∧ s'.vars = s.vars ∧ s'.raw = s.raw ∧ s'.next = s.next ∧ s.killed <+: s'.killed := by
  cases p with
  | none => exact ⟨s, rfl, h.congr rfl rfl rfl rfl (by simp [ind]), rfl, rfl, rfl, List.prefix_refl _⟩
  | some o =>
    have hal := (h.pos o).2 (hp o rfl)
    have hc := h.cnt o hal
    have hpo := hp o rfl
    by_cases h1 : f o = 1
    · have hc1 : s.cnt o = 1 := by rw [hc, h1]
      refine ⟨{ s with cnt := fun a => if a = o then s.cnt o - 1 else s.cnt a, alive := fun a => if a = o then false else s.alive a, killed := s.killed ++ [o] }, by simp [St.unref, St.dec, hal, hc1, St.kill], ⟨?_, ?_, ?_, ?_, ?_⟩, rfl, rfl, rfl, List.prefix_append _ _⟩
      · intro a
        simp only [ind, Option.some.injEq]
        by_cases ha : o = a
        · subst ha; simp [h1]
        · simp [ha, Ne.symm ha, h.pos a]
      · intro a hha
        simp only [ind, Option.some.injEq] at hha ⊢
        by_cases ha : a = o
        · subst ha; simp at hha
        · simp only [ha, if_false] at hha; simp [ha, Ne.symm ha, h.cnt a hha]
      · intro a hha
        simp only at hha
        by_cases ha : a = o
        · subst ha; simp at hha
        · simp only [ha, if_false] at hha; exact h.lt a hha
      · simp only
        rw [List.nodup_append]
        refine ⟨h.kn, by simp, ?_⟩
        intro a ha b hb
        rw [List.mem_singleton] at hb
        subst hb
        rintro rfl
        have := ((h.km a).1 ha).2
        rw [hal] at this; cases this
      · intro a
        simp only [List.mem_append, List.mem_singleton, h.km]
        by_cases ha : a = o
        · subst ha; simp [h.lt a hal]
        · simp [ha]
    · have hne : (s.cnt o == 1) = false := by simp [hc, h1]
      refine ⟨{ s with cnt := fun a => if a = o then s.cnt o - 1 else s.cnt a }, by simp [St.unref, St.dec, hal, hne], ⟨?_, ?_, h.lt, h.kn, h.km⟩, rfl, rfl, rfl, List.prefix_refl _⟩
      · intro a
        simp only [ind, Option.some.injEq]
        by_cases ha : o = a
        · subst ha; simp [hal]; omega
        · simp [ha, h.pos a]
      · intro a hha
        have := h.cnt a hha
        simp only [ind, Option.some.injEq]
        by_cases ha : a = o
        · subst ha; rw [if_pos rfl, if_pos rfl, this]
        · rw [if_neg ha, if_neg (Ne.symm ha), this]; rfl

theorem kill_ok {f : Nat → Nat} {s : St} (h : InvE f s) {o : Nat} (hp : 0 < f o) :
    ∃ s', s.kill o = some s' ∧ InvE (fun a => if a = o then 0 else f a) s' ∧ s'.vars = s.vars ∧ s'.raw = s.raw ∧ s'.next = s.next ∧ s.killed <+: s'.killed := by
  have hal := (h.pos o).2 hp
  refine ⟨{ s with alive := fun a => if a = o then false else s.alive a, killed := s.killed ++ [o] }, by simp [hal, St.kill], ⟨?_, ?_, ?_, ?_, ?_⟩, rfl, rfl, rfl, List.prefix_append _ _⟩
  · intro a
    by_cases ha : a = o
    · subst ha; simp
    · simp [ha, h.pos a]
  · intro a hha
    simp only at hha ⊢
    by_cases ha : a = o
    · subst ha; simp at hha
    · simp only [ha, if_false] at hha; simp [ha, h.cnt a hha]
  · intro a hha
    simp only at hha
    by_cases ha : a = o
    · subst ha; simp at hha
    · simp only [ha, if_false] at hha; exact h.lt a hha
  · simp only
    rw [List.nodup_append]
    refine ⟨h.kn, by simp, ?_⟩
    intro a ha b hb
    rw [List.mem_singleton] at hb
    subst hb
    rintro rfl
    have := ((h.km a).1 ha).2
    rw [hal] at this; cases this
  · intro a
    simp only [List.mem_append, List.mem_singleton, h.km]
    by_cases ha : a = o
    · subst ha; simp [h.lt a hal]
    · simp [ha]

/-! ### Counting owners -/

/-- Number of variables pointing to `o`. -/
def vown (l : List (Nat × Option Nat)) (o : Nat) : Nat := (l.filter (fun v => v.2 == some o)).length

theorem vown_cons (x : Nat) (p : Option Nat) (l) (o : Nat) : vown ((x, p) :: l) o = vown l o + ind p o := by
  simp only [vown, List.filter_cons, ind, beq_iff_eq]
  split <;> simp

theorem vown_ind {l : List (Nat × Option Nat)} {x : Nat} {q : Option Nat} (h : (x, q) ∈ l) (o : Nat) : ind q o ≤ vown l o := by
  induction l with
  | nil => cases h
  | cons a l ih =>
    obtain ⟨y, p⟩ := a
    rw [vown_cons]
    rcases List.mem_cons.1 h with e | e
    · cases e; omega
    · have := ih e; omega

theorem map_not_mem {l : List (Nat × Option Nat)} {x : Nat} {p : Option Nat} (h : ∀ q, (x, q) ∉ l) : l.map (fun v => if v.1 = x then (x, p) else v) = l := by
  induction l with
  | nil => rfl
  | cons a l ih =>
    rw [List.map_cons, ih (fun q hq => h q (List.mem_cons_of_mem _ hq)), if_neg]
    intro e
    exact h a.2 (by rw [← e]; exact List.mem_cons_self)

theorem not_mem_keys {l : List (Nat × Option Nat)} {x : Nat} (h : x ∉ l.map (·.1)) (q) : (x, q) ∉ l := fun hq => h (List.mem_map.2 ⟨_, hq, rfl⟩)

theorem vown_set {l : List (Nat × Option Nat)} (hn : (l.map (·.1)).Nodup) {x : Nat} {q : Option Nat} (h : (x, q) ∈ l) (p : Option Nat) (o : Nat) :
    vown (l.map (fun v => if v.1 = x then (x, p) else v)) o + ind q o = vown l o + ind p o := by
  induction l with
  | nil => cases h
  | cons a l ih =>
    obtain ⟨y, r⟩ := a
    rw [List.map_cons, List.nodup_cons] at hn
    rw [List.map_cons]
    rcases List.mem_cons.1 h with e | e
    · cases e
      rw [map_not_mem (fun q => not_mem_keys hn.1 q)]
      simp only [if_true, vown_cons]
      omega
    · have hyx : ¬ y = x := by rintro rfl; exact not_mem_keys hn.1 q e
      simp only [hyx, if_false, vown_cons]
      have := ih hn.2 e
      omega

theorem vown_undecl {l : List (Nat × Option Nat)} (hn : (l.map (·.1)).Nodup) {x : Nat} {q : Option Nat} (h : (x, q) ∈ l) (o : Nat) :
    vown (l.filter (fun v => v.1 ≠ x)) o + ind q o = vown l o := by
  induction l with
  | nil => cases h
  | cons a l ih =>
    obtain ⟨y, r⟩ := a
    rw [List.map_cons, List.nodup_cons] at hn
    rcases List.mem_cons.1 h with e | e
    · cases e
      have : l.filter (fun v => v.1 ≠ x) = l := by
        rw [List.filter_eq_self]
        intro a ha
        have : a.1 ≠ x := by rintro rfl; exact hn.1 (List.mem_map.2 ⟨a, ha, rfl⟩)
        simpa using this
      rw [List.filter_cons]
      simp only [ne_eq, not_true, decide_false, Bool.false_eq_true, if_false, vown_cons]
      simp only [ne_eq] at this
      rw [this]
    · have hyx : y ≠ x := by rintro rfl; exact not_mem_keys hn.1 q e
      rw [List.filter_cons]
      simp only [hyx, ne_eq, not_false_eq_true, decide_true, if_true, vown_cons]
      have := ih hn.2 e
      simp only [ne_eq] at this
      omega

/-- Number of released references to `o`. -/
def rown (l : List Nat) (o : Nat) : Nat := (l.filter (fun r => r == o)).length

theorem rown_cons (a : Nat) (l : List Nat) (o : Nat) : rown (a :: l) o = rown l o + ind (some a) o := by
  simp only [rown, List.filter_cons, ind, beq_iff_eq, Option.some.injEq]
  split <;> simp

theorem rown_erase {l : List Nat} {a : Nat} (h : a ∈ l) (o : Nat) : rown (l.erase a) o + ind (some a) o = rown l o := by
  have hp := List.perm_cons_erase h
  have := (hp.filter (fun r => r == o)).length_eq
  have h2 := rown_cons a (l.erase a) o
  unfold rown at *
  omega

theorem owners_eq (s : St) (o : Nat) : owners s o = vown s.vars o + rown s.raw o := rfl

theorem get_mem {s : St} {x : Nat} {p : Option Nat} (h : s.get x = some p) : (x, p) ∈ s.vars := by
  unfold St.get at h
  cases hf : s.vars.find? (fun p => p.1 == x) with
  | none => rw [hf] at h; cases h
  | some v =>
    rw [hf] at h
    simp only [Option.map_some, Option.some.injEq] at h
    have h1 := List.find?_some hf
    have h2 := List.mem_of_find?_eq_some hf
    simp only [beq_iff_eq] at h1
    rw [← h, ← h1]; exact h2

theorem mem_get {s : St} (hn : (s.vars.map (·.1)).Nodup) {x : Nat} {p : Option Nat} (h : (x, p) ∈ s.vars) : s.get x = some p := by
  unfold St.get
  generalize s.vars = l at *
  induction l with
  | nil => cases h
  | cons b l ih =>
    rw [List.map_cons, List.nodup_cons] at hn
    rcases List.mem_cons.1 h with e | e
    · subst e; simp
    · have : b.1 ≠ x := by rintro rfl; exact not_mem_keys hn.1 p e
      rw [List.find?_cons]
      have hb : (b.1 == x) = false := by simpa using this
      rw [hb]
      exact ih hn.2 e

theorem keys_set (l : List (Nat × Option Nat)) (x : Nat) (p : Option Nat) : (l.map (fun v => if v.1 = x then (x, p) else v)).map (·.1) = l.map (·.1) := by
  rw [List.map_map]
  apply List.map_congr_left
  intro v _
  simp only [Function.comp]
  split
  · rename_i h; exact h.symm
  · rfl

theorem mem_set {l : List (Nat × Option Nat)} {x y : Nat} {p q : Option Nat} (h : (y, q) ∈ l) (hy : y ≠ x) : (y, q) ∈ l.map (fun v => if v.1 = x then (x, p) else v) := by
  rw [List.mem_map]
  exact ⟨(y, q), h, by simp [hy]⟩

theorem mem_set_self {l : List (Nat × Option Nat)} {x : Nat} {p q : Option Nat} (h : (x, q) ∈ l) : (x, p) ∈ l.map (fun v => if v.1 = x then (x, p) else v) := by
  rw [List.mem_map]
  exact ⟨(x, q), h, by simp⟩

/-- Correct use preserves the invariant and is never undefined. -/
theorem step_ok {s : St} (h : Inv s) {op : Op} (ho : Op.ok s op) :
    ∃ s', step s op = some s' ∧ Inv s' ∧ s.next ≤ s'.next ∧ s.killed <+: s'.killed := by
  obtain ⟨hn, he⟩ := h
  have hind : ∀ {x q}, (x, q) ∈ s.vars → ∀ o, q = some o → 0 < owners s o := by
    intro x q hx o hq
    have := vown_ind hx o
    rw [owners_eq]; simp only [ind, hq, if_true] at this; omega
  cases op with
  | alloc x =>
    refine ⟨_, rfl, ⟨?_, ⟨?_, ?_, ?_, he.kn, ?_⟩⟩, Nat.le_succ _, List.prefix_refl _⟩
    · simp only [St.decl, List.map_cons, List.nodup_cons]
      exact ⟨fun hm => by obtain ⟨v, hv, e⟩ := List.mem_map.1 hm; exact ho v.2 (by rw [← e]; exact hv), hn⟩
    all_goals have hfr := he.fresh
    all_goals rw [owners_eq] at hfr
    · intro o
      have := he.pos o
      rw [owners_eq] at this ⊢
      simp only [St.decl, vown_cons, ind, Option.some.injEq] at this ⊢
      by_cases e : o = s.next
      · subst e; simp; omega
      · simp [e, Ne.symm e, this]
    · intro o hal
      rw [owners_eq]
      simp only [St.decl, vown_cons, ind, Option.some.injEq] at hal ⊢
      by_cases e : o = s.next
      · subst e; simp; omega
      · simp only [e, if_false] at hal
        have := he.cnt o hal
        rw [owners_eq] at this
        simp [e, Ne.symm e, this]
    · intro o hal
      simp only at hal ⊢
      by_cases e : o = s.next
      · omega
      · simp only [e, if_false] at hal; have := he.lt o hal; omega
    · intro o
      simp only [St.decl, he.km]
      by_cases e : o = s.next
      · subst e; simp
      · simp only [e, if_false]; constructor <;> rintro ⟨h1, h2⟩ <;> exact ⟨by omega, h2⟩
  | copy x y =>
    obtain ⟨hf, p, hp⟩ := ho
    obtain ⟨s', q1, q2, q3, q4, q5, q6⟩ := inc_ok (s := s.decl x p) (he.congr rfl rfl rfl rfl fun _ => rfl) p (hind hp)
    refine ⟨s', by simp only [step, mem_get hn hp, bind, Option.bind]; exact q1, ⟨?_, q2.congr rfl rfl rfl rfl ?_⟩, by rw [q5]; exact Nat.le_refl _, by rw [q6]; exact List.prefix_refl _⟩
    · rw [q3]
      simp only [St.decl, List.map_cons, List.nodup_cons]
      exact ⟨fun hm => by obtain ⟨v, hv, e⟩ := List.mem_map.1 hm; exact hf v.2 (by rw [← e]; exact hv), hn⟩
    · intro o
      rw [owners_eq, owners_eq, q3, q4]
      simp only [St.decl, vown_cons]; omega
  | move x y =>
    obtain ⟨hf, p, hp⟩ := ho
    refine ⟨(s.set y none).decl x p, by simp only [step, mem_get hn hp, bind, Option.bind], ⟨?_, he.congr rfl rfl rfl rfl ?_⟩, Nat.le_refl _, List.prefix_refl _⟩
    · simp only [St.decl, St.set, List.map_cons, List.nodup_cons, keys_set]
      exact ⟨fun hm => by obtain ⟨v, hv, e⟩ := List.mem_map.1 hm; exact hf v.2 (by rw [← e]; exact hv), hn⟩
    · intro o
      have := vown_set hn hp none o
      rw [owners_eq, owners_eq]
      simp only [St.decl, St.set, vown_cons]
      simp only [ind, reduceCtorEq, if_false] at this ⊢; omega
  | dtor x =>
    obtain ⟨p, hp⟩ := ho
    obtain ⟨s', q1, q2, q3, q4, q5, q6⟩ := unref_ok (s := s.undecl x) (he.congr rfl rfl rfl rfl fun _ => rfl) p (hind hp)
    refine ⟨s', by simp only [step, mem_get hn hp, bind, Option.bind]; exact q1, ⟨?_, q2.congr rfl rfl rfl rfl ?_⟩, by rw [q5]; exact Nat.le_refl _, q6⟩
    · rw [q3]
      exact hn.sublist ((List.filter_sublist).map _)
    · intro o
      have := vown_undecl hn hp o
      rw [owners_eq, owners_eq, q3, q4]
      simp only [St.undecl]; omega
  | copyAssign x y =>
    obtain ⟨⟨orig, hx⟩, p, hy⟩ := ho
    by_cases hxy : x = y
    · refine ⟨s, ?_, ⟨hn, he⟩, Nat.le_refl _, List.prefix_refl _⟩
      simp only [step, mem_get hn hx, mem_get hn hy, bind, Option.bind, hxy, if_true]
    · obtain ⟨s1, q1, q2, q3, q4, q5, q6⟩ := inc_ok (s := s.set x p) (he.congr rfl rfl rfl rfl fun _ => rfl) p (hind hy)
      obtain ⟨s', r1, r2, r3, r4, r5, r6⟩ := unref_ok q2 orig (fun o e => by have := hind hx o e; omega)
      refine ⟨s', by simp only [step, mem_get hn hx, mem_get hn hy, bind, Option.bind, hxy, if_false, q1]; exact r1, ⟨?_, r2.congr rfl rfl rfl rfl ?_⟩,
        by rw [r5, q5]; exact Nat.le_refl _, by rw [q6] at r6; exact r6⟩
      · rw [r3, q3]; simp only [St.set, keys_set]; exact hn
      · intro o
        have := vown_set hn hx p o
        rw [owners_eq, owners_eq, r3, r4, q3, q4]
        simp only [St.set]
        omega
  | moveAssign x y =>
    obtain ⟨⟨orig, hx⟩, p, hy⟩ := ho
    by_cases hxy : x = y
    · refine ⟨s, ?_, ⟨hn, he⟩, Nat.le_refl _, List.prefix_refl _⟩
      simp only [step, mem_get hn hx, mem_get hn hy, bind, Option.bind, hxy, if_true]
    · obtain ⟨s', r1, r2, r3, r4, r5, r6⟩ := unref_ok (s := (s.set x p).set y none) (he.congr rfl rfl rfl rfl fun _ => rfl) orig (hind hx)
      refine ⟨s', by simp only [step, mem_get hn hx, mem_get hn hy, bind, Option.bind, hxy, if_false]; exact r1, ⟨?_, r2.congr rfl rfl rfl rfl ?_⟩,
        by rw [r5]; exact Nat.le_refl _, r6⟩
      · rw [r3]; simp only [St.set, keys_set]; exact hn
      · intro o
        have h1 := vown_set hn hx p o
        have h2 := vown_set (l := s.vars.map (fun v => if v.1 = x then (x, p) else v)) (by rw [keys_set]; exact hn) (mem_set hy (Ne.symm hxy)) none o
        rw [owners_eq, owners_eq, r3, r4]
        simp only [St.set]
        simp only [ind, reduceCtorEq, if_false] at *
        omega
  | adopt x o =>
    obtain ⟨⟨orig, hx⟩, hr⟩ := ho
    obtain ⟨s', r1, r2, r3, r4, r5, r6⟩ := unref_ok (s := { s.set x (some o) with raw := s.raw.erase o }) (he.congr rfl rfl rfl rfl fun _ => rfl) orig (hind hx)
    refine ⟨s', by simp only [step, mem_get hn hx, bind, Option.bind]; exact r1, ⟨?_, r2.congr rfl rfl rfl rfl ?_⟩, by rw [r5]; exact Nat.le_refl _, r6⟩
    · rw [r3]; simp only [St.set, keys_set]; exact hn
    · intro a
      have h1 := vown_set hn hx (some o) a
      have h2 := rown_erase hr a
      rw [owners_eq, owners_eq, r3, r4]
      simp only [St.set]
      omega
  | release x =>
    obtain ⟨p, hp⟩ := ho
    cases p with
    | none => exact ⟨s, by simp only [step, mem_get hn hp, bind, Option.bind], ⟨hn, he⟩, Nat.le_refl _, List.prefix_refl _⟩
    | some o =>
      refine ⟨{ s.set x none with raw := o :: s.raw }, by simp only [step, mem_get hn hp, bind, Option.bind], ⟨?_, he.congr rfl rfl rfl rfl ?_⟩, Nat.le_refl _, List.prefix_refl _⟩
      · simp only [St.set, keys_set]; exact hn
      · intro a
        have h1 := vown_set hn hp none a
        rw [owners_eq, owners_eq]
        simp only [St.set, rown_cons]
        simp only [ind, reduceCtorEq, if_false] at *
        omega
  | reset x =>
    rcases ho with hp | ⟨o, hp, h1⟩
    · exact ⟨s, by simp only [step, mem_get hn hp, bind, Option.bind], ⟨hn, he⟩, Nat.le_refl _, List.prefix_refl _⟩
    · obtain ⟨s', r1, r2, r3, r4, r5, r6⟩ := unref_ok (s := s.set x none) (he.congr rfl rfl rfl rfl fun _ => rfl) (some o) (hind hp)
      have hal := (he.pos o).2 (by omega)
      have hc1 : s.cnt o = 1 := by rw [he.cnt o hal, h1]
      refine ⟨s', ?_, ⟨?_, r2.congr rfl rfl rfl rfl ?_⟩, by rw [r5]; exact Nat.le_refl _, r6⟩
      · rw [← r1]
        simp [step, mem_get hn hp, bind, Option.bind, St.unref, St.dec, hal, hc1, St.set, St.kill]
      · rw [r3]; simp only [St.set, keys_set]; exact hn
      · intro a
        have h1 := vown_set hn hp none a
        rw [owners_eq, owners_eq, r3, r4]
        simp only [St.set]
        simp only [ind, reduceCtorEq, if_false] at *
        omega
  | resetPtr x p =>
    obtain ⟨hx | ⟨old, hx, h1, hne⟩, hp⟩ := ho
    · obtain ⟨s1, q1, q2, q3, q4, q5, q6⟩ := inc_ok he p hp
      refine ⟨s1.set x p, by simp only [step, mem_get hn hx, bind, Option.bind, q1], ⟨?_, q2.congr rfl rfl rfl rfl ?_⟩, by show _ ≤ s1.next; rw [q5]; exact Nat.le_refl _, by show _ <+: s1.killed; rw [q6]; exact List.prefix_refl _⟩
      · simp only [St.set, keys_set, q3]; exact hn
      · intro a
        have h1 := vown_set hn hx p a
        rw [owners_eq, owners_eq]
        simp only [St.set, q3, q4]
        simp only [ind, reduceCtorEq, if_false] at *
        omega
    · obtain ⟨s1, q1, q2, q3, q4, q5, q6⟩ := inc_ok he p hp
      have hio : ind p old = 0 := by simp [ind, hne]
      obtain ⟨s', r1, r2, r3, r4, r5, r6⟩ := kill_ok (s := s1.set x p) (q2.congr rfl rfl rfl rfl fun _ => rfl) (o := old) (by omega)
      refine ⟨s', by simp only [step, mem_get hn hx, bind, Option.bind, q1]; exact r1, ⟨?_, r2.congr rfl rfl rfl rfl ?_⟩, by rw [r5]; show _ ≤ s1.next; rw [q5]; exact Nat.le_refl _,
        by have : (s1.set x p).killed = s.killed := q6
           rw [this] at r6; exact r6⟩
      · simp only [r3, St.set, keys_set, q3]; exact hn
      · intro a
        have h2 := vown_set hn hx p a
        rw [owners_eq] at h1
        rw [owners_eq, owners_eq]
        simp only [r3, r4, St.set, q3, q4]
        by_cases ha : a = old
        · subst ha
          simp only [if_true]
          have : ind (some a) a = 1 := by simp [ind]
          omega
        · have : ind (some old) a = 0 := by simp [ind, Ne.symm ha]
          simp only [ha, if_false]
          omega
  | dispose o =>
    have hpos : 0 < owners s o := by
      have := rown_erase ho o
      rw [owners_eq]; simp only [ind, if_true] at this; omega
    obtain ⟨s', r1, r2, r3, r4, r5, r6⟩ := unref_ok (s := { s with raw := s.raw.erase o }) (he.congr rfl rfl rfl rfl fun _ => rfl) (some o) (fun a e => by cases e; exact hpos)
    refine ⟨s', r1, ⟨by rw [r3]; exact hn, r2.congr rfl rfl rfl rfl ?_⟩, by rw [r5]; exact Nat.le_refl _, r6⟩
    intro a
    have h2 := rown_erase ho a
    rw [owners_eq, owners_eq, r3, r4]
    simp only
    omega

theorem run_ok : ∀ (os : List Op) {s : St}, Inv s → Prog.ok s os → ∃ s', run s os = some s' ∧ Inv s' ∧ s.next ≤ s'.next ∧ s.killed <+: s'.killed := by
  intro os
  induction os with
  | nil => intro s h _; exact ⟨s, rfl, h, Nat.le_refl _, List.prefix_refl _⟩
  | cons o os ih =>
    intro s h ho
    obtain ⟨s1, h1, h2, h3, h4⟩ := step_ok h ho.1
    obtain ⟨s2, g1, g2, g3, g4⟩ := ih h2 (ho.2 s1 h1)
    refine ⟨s2, by simp only [run, h1, bind, Option.bind]; exact g1, g2, Nat.le_trans h3 g3, h4.trans g4⟩

theorem init_inv : Inv {} := ⟨by simp, ⟨by simp [owners], by simp, by simp, by simp, by simp⟩⟩

end Hoard.Refcount
