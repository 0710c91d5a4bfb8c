import Verif.Spec.Project
import Verif.RefLemmas
/-! Other keys can be left out, on the small cache. -/
namespace Hoard
open Spec
variable {K V E : Type} {cfg : Cfg K} {R R' : Ref K V} {ρ : List (Nat × Nat)} {a : K}

theorem waiting_settle (t s : Nat) (x : Option (Slot V)) : (R.settle t x).waiting s = if s = t then none else R.waiting s := by
  unfold Ref.waiting Ref.settle
  simp only [List.find?_filter]
  split
  · rename_i h; subst h
    rw [List.find?_eq_none.2]
    · rfl
    · intro p _; simp
  · rename_i h
    congr 2
    funext p
    by_cases hp : p.1 = s
    · simp [hp, h]
    · simp [hp]

theorem waiting_join (t s w : Nat) : (R.join t w).waiting s = (R.waiting s).map (fun ws => if s = t then ws ++ [w] else ws) := by
  unfold Ref.waiting Ref.join
  simp only
  induction R.opens with
  | nil => rfl
  | cons p l ih =>
    simp only [List.map_cons, List.find?_cons]
    by_cases hp : p.1 = t
    · simp only [hp, if_true]
      by_cases hs : t = s
      · simp [hs]
      · simp only [beq_eq_false_iff_ne.2 hs]
        simpa only [hp] using ih
    · simp only [hp, if_false]
      by_cases hs : p.1 = s
      · have : s ≠ t := hs ▸ hp
        simp [hs, this]
      · simp only [beq_eq_false_iff_ne.2 hs]
        exact ih

theorem waiting_snoc {l : List (Nat × List Nat)} {n w s : Nat} (h : n ∉ l.map (·.1)) :
    ((l ++ [(n, [w])]).find? (fun p => p.1 == s)).map (·.2) = if s = n then some [w] else (l.find? (fun p => p.1 == s)).map (·.2) := by
  rw [List.find?_append]
  by_cases hs : s = n
  · subst hs
    rw [List.find?_eq_none.2]
    · simp
    · intro p hp; simp only [beq_iff_eq]; intro e; exact h (e ▸ List.mem_map_of_mem (f := (·.1)) hp)
  · have : (n == s) = false := by simp [Ne.symm hs]
    simp [hs, this, Option.or]
    cases List.find? (fun p => p.1 == s) l <;> rfl

/-- Slots with lookups that have corresponding numbers. -/
def SlotRel (ρ : List (Nat × Nat)) : Option (Slot V) → Option (Slot V) → Prop
  | none, none => True
  | some (.value v t), some (.value v' t') => v = v' ∧ t = t'
  | some (.lookup t), some (.lookup t') => ρ.lookup t = some t'
  | _, _ => False

/-- The small cache with and without the other keys. -/
structure ProjTo (cfg : Cfg K) (a : K) (ρ : List (Nat × Nat)) (R R' : Ref K V) : Prop where
  lt : ∀ t t', ρ.lookup t = some t' → t < R.next ∧ t' < R'.next
  inj : ∀ s t t', ρ.lookup s = some t' → ρ.lookup t = some t' → s = t
  one : OneEach cfg R
  one' : OneEach cfg R'
  sl : ∀ k, cfg.eqv a k = true → SlotRel ρ (R.find cfg.eqv k) (R'.find cfg.eqv k)
  ot : ∀ k, cfg.eqv a k = false → ∀ t, R.find cfg.eqv k = some (.lookup t) → ρ.lookup t = none
  wt : ∀ t t', ρ.lookup t = some t' → R.waiting t = R'.waiting t'
  sn : ∀ k t, R.find cfg.eqv k = some (.lookup t) → t < R.next
  op : ∀ t ∈ R.opens.map (·.1), t < R.next
  op' : ∀ t ∈ R'.opens.map (·.1), t < R'.next
  d : R.destroyed = false
  d' : R'.destroyed = false

theorem SlotRel.found {now : Time} {x y : Option (Slot V)} (h : SlotRel ρ x y) :
    match Slot.found cfg now x with
    | .value v => Slot.found cfg now y = .value v
    | .lookup t => ∃ t', Slot.found cfg now y = .lookup t' ∧ ρ.lookup t = some t'
    | .nothing => Slot.found cfg now y = .nothing := by
  match x, y, h with
  | none, none, _ => rfl
  | some (.value v t), some (.value _ _), ⟨rfl, rfl⟩ =>
    simp only [Slot.found]
    cases isYoung cfg now t <;> rfl
  | some (.lookup t), some (.lookup t'), h => exact ⟨t', rfl, h⟩

theorem SlotRel.settled {x y : Option (Slot V)} {z : Option V} {now : Time} {t t' : Nat} (inj : ∀ s t t', ρ.lookup s = some t' → ρ.lookup t = some t' → s = t)
    (ht : ρ.lookup t = some t') (h : SlotRel ρ x y) :
    SlotRel ρ (x.bind (settled t (z.map (fun v => .value v now)))) (y.bind (settled t' (z.map (fun v => .value v now)))) := by
  match x, y, h with
  | none, none, _ => trivial
  | some (.value v t), some (.value _ _), ⟨rfl, rfl⟩ => exact ⟨rfl, rfl⟩
  | some (.lookup s), some (.lookup s'), h =>
    simp only [SlotRel] at h
    by_cases hs : s = t
    · subst hs
      rw [h] at ht; cases ht
      simp only [Option.bind_some, Hoard.settled, if_true]
      cases z
      · trivial
      · exact ⟨rfl, rfl⟩
    · have : s' ≠ t' := fun e => hs (inj s t t' (e ▸ h) ht)
      simp only [Option.bind_some, Hoard.settled, if_neg hs, if_neg this]
      exact h

theorem SlotRel.other {x y : Option (Slot V)} {z : Option (Slot V)} {t : Nat} (ht : ρ.lookup t = none) (h : SlotRel ρ x y) :
    SlotRel ρ (x.bind (Hoard.settled t z)) y := by
  match x, y, h with
  | none, none, _ => trivial
  | some (.value v t), some (.value _ _), ⟨rfl, rfl⟩ => exact ⟨rfl, rfl⟩
  | some (.lookup s), some (.lookup s'), h =>
    simp only [SlotRel] at h
    have : s ≠ t := fun e => by rw [e, ht] at h; cases h
    simp only [Option.bind_some, Hoard.settled, if_neg this]
    exact h

theorem lookup_lt {n m : Nat} (lt : ∀ t t', ρ.lookup t = some t' → t < n ∧ t' < m) : ρ.lookup n = none := by
  cases h : ρ.lookup n with
  | none => rfl
  | some t' => have := (lt n t' h).1; omega

theorem lookup_new {n m : Nat} (t : Nat) : ((n, m) :: ρ).lookup t = if t = n then some m else ρ.lookup t := by
  rw [List.lookup_cons]
  by_cases h : t = n
  · simp [h]
  · simp [beq_eq_false_iff_ne.2 h, h]

theorem SlotRel.more {n m : Nat} (hn : ρ.lookup n = none) {x y : Option (Slot V)} (h : SlotRel ρ x y) : SlotRel ((n, m) :: ρ) x y := by
  match x, y, h with
  | none, none, _ => trivial
  | some (.value v t), some (.value _ _), h => exact h
  | some (.lookup s), some (.lookup s'), h =>
    simp only [SlotRel] at h ⊢
    rw [lookup_new, if_neg (fun e => by rw [e, hn] at h; cases h)]; exact h


theorem waiting_lt {t n : Nat} (h : ∀ t ∈ R.opens.map (·.1), t < n) (ht : n ≤ t) : R.waiting t = none := by
  cases hw : R.waiting t with
  | none => rfl
  | some ws => have := h t (List.mem_map_of_mem (f := (·.1)) (waiting_some hw)); omega

namespace ProjTo

/-- Both give out a number. -/
theorem bump (p : ProjTo cfg a ρ R R') : ProjTo cfg a ((R.next, R'.next) :: ρ) { R with next := R.next + 1 } { R' with next := R'.next + 1 } := by
  have hn := lookup_lt p.lt
  refine ⟨fun t t' h => ?_, fun s t t' h1 h2 => ?_, p.one, p.one', fun k hk => (p.sl k hk).more hn, fun k hk t ht => ?_, fun t t' h => ?_,
    fun k t ht => Nat.lt_succ_of_lt (p.sn k t ht), fun t ht => Nat.lt_succ_of_lt (p.op t ht), fun t ht => Nat.lt_succ_of_lt (p.op' t ht), p.d, p.d'⟩
  · rw [lookup_new] at h
    split at h
    · cases h; subst t; exact ⟨Nat.lt_succ_self _, Nat.lt_succ_self _⟩
    · have := p.lt t t' h; exact ⟨Nat.lt_succ_of_lt this.1, Nat.lt_succ_of_lt this.2⟩
  · rw [lookup_new] at h1 h2
    split at h1 <;> split at h2
    · omega
    · cases h1; have := (p.lt _ _ h2).2; omega
    · cases h2; have := (p.lt _ _ h1).2; omega
    · exact p.inj s t t' h1 h2
  · have := p.ot k hk t ht
    rw [lookup_new, if_neg]
    · exact this
    · intro e
      have := p.sn k t ht
      omega
  · rw [lookup_new] at h
    split at h
    · cases h; subst t
      exact (waiting_lt p.op (Nat.le_refl _)).trans (waiting_lt p.op' (Nat.le_refl _)).symm
    · exact p.wt t t' h

/-- Only the one with all keys gives out a number. -/
theorem bumpL (p : ProjTo cfg a ρ R R') : ProjTo cfg a ρ { R with next := R.next + 1 } R' :=
  ⟨fun t t' h => ⟨Nat.lt_succ_of_lt (p.lt t t' h).1, (p.lt t t' h).2⟩, p.inj, p.one, p.one', p.sl, p.ot, p.wt, fun k t ht => Nat.lt_succ_of_lt (p.sn k t ht),
    fun t ht => Nat.lt_succ_of_lt (p.op t ht), p.op', p.d, p.d'⟩

/-- The list of those whose lookup was dropped does not matter. -/
theorem stray (p : ProjTo cfg a ρ R R') (l l' : List Nat) : ProjTo cfg a ρ { R with strays := l } { R' with strays := l' } :=
  ⟨p.lt, p.inj, p.one, p.one', p.sl, p.ot, p.wt, p.sn, p.op, p.op', p.d, p.d'⟩

variable (hc : cfg.Ok)
include hc

theorem eqv_ne {k b : K} (hk : cfg.eqv a k = true) (hb : cfg.eqv a b = false) : cfg.eqv b k = false := by
  cases h : cfg.eqv b k
  · rfl
  · rw [hc.trans _ _ _ hk (hc.symm _ _ h)] at hb; cases hb

theorem eqv_ne' {k b : K} (hk : cfg.eqv a k = false) (hb : cfg.eqv a b = true) : cfg.eqv b k = false := by
  cases h : cfg.eqv b k
  · rfl
  · rw [hc.trans _ _ _ hb h] at hk; cases hk

theorem put (p : ProjTo cfg a ρ R R') {k : K} (hk : cfg.eqv a k = true) {x y : Slot V} (h : SlotRel ρ (some x) (some y)) :
    ProjTo cfg a ρ (R.put cfg.eqv k x) (R'.put cfg.eqv k y) := by
  refine ⟨p.lt, p.inj, p.one.put hc k x, p.one'.put hc k y, fun b hb => ?_, fun b hb t ht => ?_, p.wt, fun b t ht => ?_, p.op, p.op', p.d, p.d'⟩
  · rw [find_put hc, find_put hc]
    split
    · exact h
    · exact p.sl b hb
  · rw [find_put hc, eqv_ne hc hk hb] at ht
    exact p.ot b hb t ht
  · rw [find_put hc] at ht
    split at ht
    · cases ht
      cases y with
      | value v t => cases h
      | lookup t' => exact (p.lt t t' h).1
    · exact p.sn b t ht

theorem remove (p : ProjTo cfg a ρ R R') {k : K} (hk : cfg.eqv a k = true) : ProjTo cfg a ρ (R.remove cfg.eqv k) (R'.remove cfg.eqv k) := by
  refine ⟨p.lt, p.inj, p.one.remove k, p.one'.remove k, fun b hb => ?_, fun b hb t ht => ?_, p.wt, fun b t ht => ?_, p.op, p.op', p.d, p.d'⟩
  · rw [find_remove hc, find_remove hc]
    split
    · trivial
    · exact p.sl b hb
  · rw [find_remove hc, eqv_ne hc hk hb] at ht
    exact p.ot b hb t ht
  · rw [find_remove hc] at ht
    split at ht
    · cases ht
    · exact p.sn b t ht

theorem store (p : ProjTo cfg a ρ R R') {k : K} (hk : cfg.eqv a k = true) (now : Time) (r : Res V E) :
    ProjTo cfg a ρ (R.store cfg.eqv now k r) (R'.store cfg.eqv now k r) := by
  cases r
  · exact p.put hc hk ⟨rfl, rfl⟩
  · exact p.remove hc hk

theorem putL (p : ProjTo cfg a ρ R R') {k : K} (hk : cfg.eqv a k = false) {x : Slot V} (h : ∀ t, x = .lookup t → ρ.lookup t = none ∧ t < R.next) :
    ProjTo cfg a ρ (R.put cfg.eqv k x) R' := by
  refine ⟨p.lt, p.inj, p.one.put hc k x, p.one', fun b hb => ?_, fun b hb t ht => ?_, p.wt, fun b t ht => ?_, p.op, p.op', p.d, p.d'⟩
  · rw [find_put hc, eqv_ne' hc hk hb]
    exact p.sl b hb
  · rw [find_put hc] at ht
    split at ht
    · cases ht; exact (h t rfl).1
    · exact p.ot b hb t ht
  · rw [find_put hc] at ht
    split at ht
    · cases ht; exact (h t rfl).2
    · exact p.sn b t ht

theorem removeL (p : ProjTo cfg a ρ R R') {k : K} (hk : cfg.eqv a k = false) : ProjTo cfg a ρ (R.remove cfg.eqv k) R' := by
  refine ⟨p.lt, p.inj, p.one.remove k, p.one', fun b hb => ?_, fun b hb t ht => ?_, p.wt, fun b t ht => ?_, p.op, p.op', p.d, p.d'⟩
  · rw [find_remove hc, eqv_ne' hc hk hb]
    exact p.sl b hb
  · rw [find_remove hc] at ht
    split at ht
    · cases ht
    · exact p.ot b hb t ht
  · rw [find_remove hc] at ht
    split at ht
    · cases ht
    · exact p.sn b t ht

theorem storeL (p : ProjTo cfg a ρ R R') {k : K} (hk : cfg.eqv a k = false) (now : Time) (r : Res V E) :
    ProjTo cfg a ρ (R.store cfg.eqv now k r) R' := by
  cases r
  · exact p.putL hc hk (fun t h => by cases h)
  · exact p.removeL hc hk

omit hc in
theorem join_fst {t w : Nat} : (R.join t w).opens.map (·.1) = R.opens.map (·.1) := by
  simp only [Ref.join, List.map_map]
  apply List.map_congr_left
  intro p _
  simp only [Function.comp]
  split <;> rfl

omit hc in
theorem join (p : ProjTo cfg a ρ R R') {t t' : Nat} (h : ρ.lookup t = some t') (w : Nat) : ProjTo cfg a ρ (R.join t w) (R'.join t' w) := by
  refine ⟨p.lt, p.inj, p.one, p.one', p.sl, p.ot, fun s s' hs => ?_, p.sn, ?_, ?_, p.d, p.d'⟩
  · rw [waiting_join, waiting_join, p.wt s s' hs]
    have : s = t ↔ s' = t' := ⟨fun e => by rw [e, h] at hs; exact (Option.some.inj hs).symm, fun e => p.inj s t t' (e ▸ hs) h⟩
    by_cases e : s = t
    · simp only [e, this.1 e]
    · have e' : s' ≠ t' := fun h => e (this.2 h)
      simp only [e, e']
  · rw [join_fst]; exact p.op
  · rw [join_fst]; exact p.op'

omit hc in
theorem joinL (p : ProjTo cfg a ρ R R') {t : Nat} (h : ρ.lookup t = none) (w : Nat) : ProjTo cfg a ρ (R.join t w) R' := by
  refine ⟨p.lt, p.inj, p.one, p.one', p.sl, p.ot, fun s s' hs => ?_, p.sn, ?_, p.op', p.d, p.d'⟩
  · rw [waiting_join, p.wt s s' hs]
    have : s ≠ t := fun e => by rw [e, h] at hs; cases hs
    simp only [this, if_false]
    cases R'.waiting s' <;> rfl
  · rw [join_fst]; exact p.op

omit hc in
/-- A lookup is opened in both. -/
theorem opened (p : ProjTo cfg a ρ R R') {n m : Nat} (h : ρ.lookup n = some m) (hn : n ∉ R.opens.map (·.1)) (hm : m ∉ R'.opens.map (·.1)) (w : Nat) :
    ProjTo cfg a ρ { R with opens := R.opens ++ [(n, [w])] } { R' with opens := R'.opens ++ [(m, [w])] } := by
  refine ⟨p.lt, p.inj, p.one, p.one', p.sl, p.ot, fun s s' hs => ?_, p.sn, fun t ht => ?_, fun t ht => ?_, p.d, p.d'⟩
  · unfold Ref.waiting
    simp only
    rw [waiting_snoc hn, waiting_snoc hm]
    have : s = n ↔ s' = m := ⟨fun e => by rw [e, h] at hs; exact (Option.some.inj hs).symm, fun e => p.inj s n m (e ▸ hs) h⟩
    have hw := p.wt s s' hs
    unfold Ref.waiting at hw
    by_cases e : s = n
    · rw [if_pos e, if_pos (this.1 e)]
    · rw [if_neg e, if_neg (fun h => e (this.2 h)), hw]
  · simp only [List.map_append, List.mem_append, List.map_cons, List.map_nil, List.mem_singleton] at ht
    rcases ht with ht | rfl
    · exact p.op t ht
    · exact (p.lt _ _ h).1
  · simp only [List.map_append, List.mem_append, List.map_cons, List.map_nil, List.mem_singleton] at ht
    rcases ht with ht | rfl
    · exact p.op' t ht
    · exact (p.lt _ _ h).2

omit hc in
theorem openedL (p : ProjTo cfg a ρ R R') {n : Nat} (h : ρ.lookup n = none) (hl : n < R.next) (hn : n ∉ R.opens.map (·.1)) (w : Nat) :
    ProjTo cfg a ρ { R with opens := R.opens ++ [(n, [w])] } R' := by
  refine ⟨p.lt, p.inj, p.one, p.one', p.sl, p.ot, fun s s' hs => ?_, p.sn, fun t ht => ?_, p.op', p.d, p.d'⟩
  · unfold Ref.waiting
    simp only
    rw [waiting_snoc hn]
    have hw := p.wt s s' hs
    unfold Ref.waiting at hw
    rw [if_neg (fun e => by rw [e, h] at hs; cases hs), hw]
  · simp only [List.map_append, List.mem_append, List.map_cons, List.map_nil, List.mem_singleton] at ht
    rcases ht with ht | rfl
    · exact p.op t ht
    · exact hl

omit hc in
theorem settle_mem {t s : Nat} {x : Option (Slot V)} (h : s ∈ (R.settle t x).opens.map (·.1)) : s ∈ R.opens.map (·.1) := by
  obtain ⟨q, hq, rfl⟩ := List.mem_map.1 h
  exact List.mem_map_of_mem (List.mem_filter.1 hq).1

theorem find_settle_lookup {t s : Nat} {z : Option V} {now : Time} {k : K} (h1 : OneEach cfg R) (h : (R.settle t (z.map (fun v => .value v now))).find cfg.eqv k = some (.lookup s)) :
    R.find cfg.eqv k = some (.lookup s) := by
  rw [find_settle hc h1] at h
  cases hf : R.find cfg.eqv k with
  | none => rw [hf] at h; cases h
  | some x =>
    rw [hf] at h
    cases x with
    | value v t => exact h
    | lookup u =>
      simp only [Option.bind_some, settled] at h
      split at h
      · cases z <;> cases h
      · exact h

theorem settle (p : ProjTo cfg a ρ R R') {t t' : Nat} (h : ρ.lookup t = some t') (z : Option V) (now : Time) :
    ProjTo cfg a ρ (R.settle t (z.map (fun v => .value v now))) (R'.settle t' (z.map (fun v => .value v now))) := by
  refine ⟨p.lt, p.inj, p.one.settle _ _, p.one'.settle _ _, fun k hk => ?_, fun k hk s hs => p.ot k hk s (find_settle_lookup hc p.one hs), fun s s' hs => ?_,
    fun k s hs => p.sn k s (find_settle_lookup hc p.one hs), fun s hs => p.op s (settle_mem hs), fun s hs => p.op' s (settle_mem hs), p.d, p.d'⟩
  · rw [find_settle hc p.one, find_settle hc p.one']
    exact (p.sl k hk).settled p.inj h
  · rw [waiting_settle, waiting_settle, p.wt s s' hs]
    have : s = t ↔ s' = t' := ⟨fun e => by rw [e, h] at hs; exact (Option.some.inj hs).symm, fun e => p.inj s t t' (e ▸ hs) h⟩
    by_cases e : s = t
    · rw [if_pos e, if_pos (this.1 e)]
    · rw [if_neg e, if_neg (fun h => e (this.2 h))]

theorem settleL (p : ProjTo cfg a ρ R R') {t : Nat} (h : ρ.lookup t = none) (z : Option V) (now : Time) :
    ProjTo cfg a ρ (R.settle t (z.map (fun v => .value v now))) R' := by
  refine ⟨p.lt, p.inj, p.one.settle _ _, p.one', fun k hk => ?_, fun k hk s hs => p.ot k hk s (find_settle_lookup hc p.one hs), fun s s' hs => ?_,
    fun k s hs => p.sn k s (find_settle_lookup hc p.one hs), fun s hs => p.op s (settle_mem hs), p.op', p.d, p.d'⟩
  · rw [find_settle hc p.one]
    exact (p.sl k hk).other h
  · rw [waiting_settle, p.wt s s' hs, if_neg (fun e => by rw [e, h] at hs; cases hs)]

omit hc in
theorem cleared (p : ProjTo cfg a ρ R R') : ProjTo cfg a ρ ({ R with slots := [] } : Ref K V) ({ R' with slots := [] } : Ref K V) :=
  ⟨p.lt, p.inj, .nil, .nil, fun _ _ => trivial, (fun _ _ _ h => by cases h), p.wt, (fun _ _ h => by cases h), p.op, p.op', p.d, p.d'⟩

end ProjTo

/-- Two corresponding calls: same outcome up to the number of the lookup, and still related. -/
def ProjPair (cfg : Cfg K) (a : K) (ρ : List (Nat × Nat)) (n m : Nat) (p q : Ref K V × Out K V E) : Prop :=
  q.2 = { p.2 with calls := p.2.calls.map (fun q => (q.1, m)) } ∧ ProjTo cfg a (if numbered p.2 then (n, m) :: ρ else ρ) p.1 q.1

/-- One step with all keys and the corresponding one without the others. -/
def ProjStep (cfg : Cfg K) (a : K) (ρ : List (Nat × Nat)) (n m : Nat) (o' : Option (Op K V E)) (now : Time) (R' : Ref K V) (p : Ref K V × Out K V E) : Prop :=
  match o' with
  | none => ProjTo cfg a ρ p.1 R'
  | some o' => ProjPair cfg a ρ n m p (refStep cfg now R' o')

theorem proj_step (hc : cfg.Ok) (p : ProjTo cfg a ρ R R') (now : Time) (o : Op K V E) (hx : o ≠ .destroy) :
    ProjStep cfg a ρ R.next R'.next (onlyAbout cfg.eqv a ρ o) now R' (refStep cfg now R o) := by
  have hnR : R.next ∉ R.opens.map (·.1) := fun h => absurd (p.op _ h) (by omega)
  have hnR' : R'.next ∉ R'.opens.map (·.1) := fun h => absurd (p.op' _ h) (by omega)
  have nx : ((R.next, R'.next) :: ρ).lookup R.next = some R'.next := by rw [lookup_new, if_pos rfl]
  have nl := lookup_lt p.lt
  cases o with
  | getIfExists k =>
    simp only [onlyAbout]
    cases hk : cfg.eqv a k
    · simp only [Bool.false_eq_true, if_false, ProjStep, refStep]; split <;> exact p
    · have hf := (p.sl k hk).found (cfg := cfg) (now := now)
      simp only [if_true, ProjStep, refStep]
      cases hF : Slot.found cfg now (R.find cfg.eqv k) <;> rw [hF] at hf <;> simp only at hf
      · rw [hf]; exact ⟨rfl, p⟩
      · obtain ⟨t', hf, -⟩ := hf
        rw [hf]; exact ⟨rfl, p⟩
      · rw [hf]; exact ⟨rfl, p⟩
  | get k r =>
    simp only [onlyAbout]
    cases hk : cfg.eqv a k
    · simp only [Bool.false_eq_true, if_false, ProjStep, refStep]
      repeat' split
      · exact p
      · cases r with
        | ok v => exact p.bumpL.storeL hc hk now (.ok v : Res V E)
        | err e => exact p.bumpL.storeL hc hk now (.err e : Res V E)
      · exact p
    · have hf := (p.sl k hk).found (cfg := cfg) (now := now)
      simp only [if_true, ProjStep, refStep]
      cases hF : Slot.found cfg now (R.find cfg.eqv k) <;> rw [hF] at hf <;> simp only at hf
      · rw [hf]; exact ⟨rfl, p⟩
      · obtain ⟨t', hf, -⟩ := hf
        rw [hf]
        simp only
        split
        · cases r with
          | ok v => exact ⟨rfl, p.bump.store hc hk now (.ok v : Res V E)⟩
          | err e => exact ⟨rfl, p.bump.store hc hk now (.err e : Res V E)⟩
        · exact ⟨rfl, p⟩
      · rw [hf]
        simp only
        split
        · cases r with
          | ok v => exact ⟨rfl, p.bump.store hc hk now (.ok v : Res V E)⟩
          | err e => exact ⟨rfl, p.bump.store hc hk now (.err e : Res V E)⟩
        · exact ⟨rfl, p⟩
  | asyncGet k w b =>
    simp only [onlyAbout]
    cases hk : cfg.eqv a k
    · simp only [Bool.false_eq_true, if_false, ProjStep, refStep]
      split
      · exact p
      · rename_i t ht
        have hs : R.find cfg.eqv k = some (.lookup t) := by
          unfold Slot.found at ht; split at ht
          · split at ht <;> cases ht
          · cases ht; assumption
          · cases ht
        exact p.joinL (p.ot k hk t hs) w
      · cases b with
        | later => exact (p.bumpL.putL hc hk (fun t h => by cases h; exact ⟨nl, Nat.lt_succ_self _⟩)).openedL nl (Nat.lt_succ_self _) hnR w
        | now r =>
          cases r with
          | ok v => exact p.bumpL.storeL hc hk now (.ok v : Res V E)
          | err e => exact p.bumpL.storeL hc hk now (.err e : Res V E)
        | drop => exact (p.bumpL.removeL hc hk).stray _ R'.strays
    · have hf := (p.sl k hk).found (cfg := cfg) (now := now)
      simp only [if_true, ProjStep, refStep]
      cases hF : Slot.found cfg now (R.find cfg.eqv k) <;> rw [hF] at hf <;> simp only at hf
      · rw [hf]; exact ⟨rfl, p⟩
      · obtain ⟨t', hf, ht⟩ := hf
        rw [hf]; exact ⟨rfl, p.join ht w⟩
      · rw [hf]
        cases b with
        | later => exact ⟨rfl, (p.bump.put hc hk (x := .lookup R.next) (y := .lookup R'.next) nx).opened nx hnR hnR' w⟩
        | now r =>
          cases r with
          | ok v => exact ⟨rfl, p.bump.store hc hk now (.ok v : Res V E)⟩
          | err e => exact ⟨rfl, p.bump.store hc hk now (.err e : Res V E)⟩
        | drop => exact ⟨rfl, (p.bump.remove hc hk).stray _ _⟩
  | emplace k v f =>
    simp only [onlyAbout]
    cases hk : cfg.eqv a k
    · cases f
      · exact p.bumpL.putL hc hk (fun t h => by cases h)
      · exact p.removeL hc hk
      · exact p.removeL hc hk
    · cases f
      · exact ⟨rfl, p.bump.put hc hk ⟨rfl, rfl⟩⟩
      · exact ⟨rfl, p.remove hc hk⟩
      · exact ⟨rfl, p.remove hc hk⟩
  | getOrEmplace k v f =>
    simp only [onlyAbout]
    cases hk : cfg.eqv a k
    · simp only [Bool.false_eq_true, if_false, ProjStep, refStep]
      split
      · exact p
      · exact p
      · cases f
        · exact p.bumpL.putL hc hk (fun t h => by cases h)
        · exact p
        · exact p
    · have hf := (p.sl k hk).found (cfg := cfg) (now := now)
      simp only [if_true, ProjStep, refStep]
      cases hF : Slot.found cfg now (R.find cfg.eqv k) <;> rw [hF] at hf <;> simp only at hf
      · rw [hf]; exact ⟨rfl, p⟩
      · obtain ⟨t', hf, -⟩ := hf
        rw [hf]; exact ⟨rfl, p⟩
      · rw [hf]
        cases f
        · exact ⟨rfl, p.bump.put hc hk ⟨rfl, rfl⟩⟩
        · exact ⟨rfl, p⟩
        · exact ⟨rfl, p⟩
  | erase k =>
    simp only [onlyAbout]
    cases hk : cfg.eqv a k
    · exact p.removeL hc hk
    · exact ⟨rfl, p.remove hc hk⟩
  | clear => exact ⟨rfl, p.cleared⟩
  | count => exact p
  | tick r b => exact p
  | destroy => exact absurd rfl hx
  | complete t r =>
    simp only [onlyAbout]
    cases ht : ρ.lookup t with
    | none =>
      simp only [Option.map_none, ProjStep, refStep, p.d]
      split
      · exact p
      · exact p.settleL hc ht (value? r) now
    | some t' =>
      simp only [Option.map_some, ProjStep, refStep, p.d, p.d', p.wt t t' ht]
      cases R'.waiting t'
      · exact ⟨rfl, p⟩
      · exact ⟨rfl, p.settle hc ht (value? r) now⟩
  | drop t =>
    simp only [onlyAbout]
    cases ht : ρ.lookup t with
    | none =>
      simp only [Option.map_none, ProjStep, refStep]
      split
      · exact p
      · exact p.settleL hc ht none now
    | some t' =>
      simp only [Option.map_some, ProjStep, refStep, p.wt t t' ht]
      cases R'.waiting t'
      · exact ⟨rfl, p⟩
      · exact ⟨rfl, p.settle hc ht none now⟩

theorem ref_next' (now : Time) (R : Ref K V) (o : Op K V E) :
    (refStep cfg now R o).1.next = if numbered (refStep cfg now R o).2 then R.next + 1 else R.next := by
  have := ref_next (cfg := cfg) now R o
  unfold RefNext at this
  rw [this]
  unfold numbered
  cases (refStep cfg now R o).2.calls.isEmpty <;> cases (refStep cfg now R o).2.made <;> rfl

theorem proj_run (hc : cfg.Ok) : ∀ (h : Hist K V E) {ρ : List (Nat × Nat)} {R R' : Ref K V}, ProjTo cfg a ρ R R' → (∀ p ∈ h, p.2 ≠ .destroy) →
    refOuts cfg R' (project cfg.eqv a R.next R'.next ρ h (refOuts cfg R h)).1 = (project cfg.eqv a R.next R'.next ρ h (refOuts cfg R h)).2
  | [], _, _, _, _, _ => rfl
  | (env, o) :: h, ρ, R, R', p, hx => by
    have hs := proj_step hc p env.now o (hx _ (List.mem_cons_self ..))
    have hx' : ∀ p ∈ h, p.2 ≠ .destroy := fun q hq => hx q (List.mem_cons_of_mem _ hq)
    have hn := ref_next' (cfg := cfg) env.now R o
    simp only [refOuts, project]
    cases ho : onlyAbout cfg.eqv a ρ o with
    | none =>
      rw [ho] at hs
      have := proj_run hc h hs hx'
      rw [hn] at this
      exact this
    | some o' =>
      rw [ho] at hs
      obtain ⟨h1, h2⟩ := hs
      have hn' := ref_next' (cfg := cfg) env.now R' o'
      have := proj_run hc h h2 hx'
      have hnum : numbered (refStep cfg env.now R' o').2 = numbered (refStep cfg env.now R o).2 := by
        rw [h1]; simp [numbered]
      rw [hn, hn', hnum] at this
      simp only [refOuts, h1]
      rw [this]

end Hoard
