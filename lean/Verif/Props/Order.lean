import Verif.OrderLemmas
/-! # C109: the memory order of the reference counts

The last pointer to an entry destroys it.  Is everything that any thread did to the entry ordered before that, in the sense of the C++ memory model? -/
namespace Hoard.Props
open Spec Order

/-- An example: thread 0 looks up an entry that is not there.  It puts a pointer into the table, and keeps another one for the callback.  The callback
assigns.  Then thread 1 erases the entry, and thread 0 destroys the callback. -/
def orderDemo : List Ev :=
  [⟨0, .inc⟩, ⟨0, .lock⟩, ⟨0, .put⟩, ⟨0, .unlock⟩, ⟨0, .lock⟩, ⟨0, .use⟩, ⟨0, .unlock⟩,
   ⟨1, .lock⟩, ⟨1, .take⟩, ⟨1, .use⟩, ⟨1, .dec⟩, ⟨1, .unlock⟩, ⟨0, .dec⟩]

/-- The same, but thread 0 destroys the callback under the lock. -/
def orderLocked : List Ev :=
  [⟨0, .inc⟩, ⟨0, .lock⟩, ⟨0, .put⟩, ⟨0, .unlock⟩, ⟨0, .use⟩,
   ⟨1, .lock⟩, ⟨1, .take⟩, ⟨1, .use⟩, ⟨1, .dec⟩, ⟨1, .unlock⟩, ⟨0, .lock⟩, ⟨0, .dec⟩, ⟨0, .unlock⟩]

/-- **C109 (no access after).**  In every execution all accesses come before the destruction, and after it threads do nothing but take and leave the
lock: in particular no pointer is copied or destroyed. -/
theorem C109_nothing_after {tr : List Ev} {s : S} (h : exec start tr = some s) {d : Nat} (hd : DestroysAt tr d) :
    (∀ i, UsesAt tr i → i < d) ∧ ∀ j e, d < j → tr[j]? = some e → e.act = .lock ∨ e.act = .unlock := by
  obtain ⟨s1, s2, t, h1, q1, hg, hn, q2⟩ := hd
  obtain ⟨hsp, hlen⟩ := split_at hg
  have h2 : exec start (tr.take d ++ [⟨t, .dec⟩]) = some s2 := by rw [exec_append, h1]; simp [exec, hn]
  have hrest : exec s2 (tr.drop (d + 1)) = some s := by
    rw [hsp, exec_append, h2] at h; simpa using h
  have hall := (dead_rest h2 q2 hrest).1
  have hafter : ∀ j e, d < j → tr[j]? = some e → e.act = .lock ∨ e.act = .unlock := by
    intro j e hj he
    refine hall e ?_
    rw [List.mem_iff_getElem?]
    refine ⟨j - (d + 1), ?_⟩
    rw [List.getElem?_drop, show d + 1 + (j - (d + 1)) = j by omega]
    exact he
  refine ⟨?_, hafter⟩
  rintro i ⟨u, hu⟩
  rcases Nat.lt_trichotomy i d with q | q | q
  · exact q
  · subst q; rw [hg] at hu; cases hu
  · rcases hafter i _ q hu with q | q <;> cases q

/-- **C109 (destroyed once, by the last pointer).**  There is at most one destruction; and the object has been destroyed exactly when no pointer is left,
neither with a thread nor in the table. -/
theorem C109_once {tr : List Ev} {s : S} (h : exec start tr = some s) :
    (∀ d d', DestroysAt tr d → DestroysAt tr d' → d = d') ∧ (s.dead = true ↔ s.held = [] ∧ s.shared = 0) := by
  constructor
  · intro d d' hd hd'
    have key : ∀ a b, DestroysAt tr a → DestroysAt tr b → ¬ a < b := by
      intro a b ha hb hab
      obtain ⟨_, _, t, _, _, hg, _, _⟩ := hb
      rcases (C109_nothing_after h ha).2 b _ hab hg with q | q <;> cases q
    have := key d d' hd hd'; have := key d' d hd' hd; omega
  · obtain ⟨h1, h2⟩ := count_eq h
    rw [h2, beq_iff_eq, ← List.length_eq_zero_iff]; omega

/-- **C109 (what would do).**  If the destruction of a pointer acquired as well as released, then in every execution every access to the object, by
whatever thread, would happen before its destruction. -/
theorem C109_ordered_if_acquire {tr : List Ev} {s : S} (h : exec start tr = some s) {d i : Nat} (hd : DestroysAt tr d) (hi : UsesAt tr i) :
    HB true tr i d := by
  have hlt := (C109_nothing_after h hd).1 i hi
  obtain ⟨s1, s2, t, h1, q1, hg, hn, q2⟩ := hd
  obtain ⟨hsp, hlen⟩ := split_at hg
  obtain ⟨hheld, hsh⟩ := destroys_last h1 q1 hn q2
  have hi' : ∃ u, (tr.take d)[i]? = some ⟨u, .use⟩ := by
    obtain ⟨u, hu⟩ := hi
    exact ⟨u, by rw [List.getElem?_take_of_lt hlt]; exact hu⟩
  have : HB true (tr.take d ++ [⟨t, .dec⟩]) i (tr.take d).length := by
    rcases somewhere (acq := true) h1 i hi' with q | ⟨u, hu, q⟩ | ⟨q, _⟩
    · exact q.last _ (fun a ha => .inr (.inr ⟨rfl, ha, rfl⟩))
    · rw [hheld, List.mem_singleton] at hu
      subst hu
      exact q.last _ (fun a ha => .inl ha)
    · omega
  rw [hlen] at this
  rw [hsp]
  exact HB_append this _

/-- **C109 (what holds, in part).**  With the order that the code asks for, which releases and does not acquire, an access happens before the destruction
if the destroying action is made under the lock, and either the access is, or all later destructions of pointers are.  Missing: all other executions, and
`C109_not_ordered` shows that it fails there. -/
theorem C109_ordered_if_locked_partial {tr : List Ev} {s : S} (h : exec start tr = some s) {d i : Nat} (hd : DestroysAt tr d) (hi : UsesAt tr i)
    (hdl : LockedAt tr d) (hl : LockedAt tr i ∨ ∀ j t, i < j → tr[j]? = some ⟨t, .dec⟩ → LockedAt tr j) : HB false tr i d := by
  have hlt := (C109_nothing_after h hd).1 i hi
  obtain ⟨s1, s2, t, h1, q1, hg, hn, q2⟩ := hd
  obtain ⟨hsp, hlen⟩ := split_at hg
  obtain ⟨hheld, hsh⟩ := destroys_last h1 q1 hn q2
  have hi' : ∃ u, (tr.take d)[i]? = some ⟨u, .use⟩ := by
    obtain ⟨u, hu⟩ := hi
    exact ⟨u, by rw [List.getElem?_take_of_lt hlt]; exact hu⟩
  have hown : s1.owner = some t := by
    obtain ⟨s3, e, p1, p2, p3⟩ := hdl
    rw [h1] at p1; cases p1
    rw [hg] at p2; cases p2
    exact p3
  have hback : ∀ j, j < d → LockedAt tr j → LockedAt (tr.take d) j := by
    rintro j hj ⟨s3, e, p1, p2, p3⟩
    refine ⟨s3, e, ?_, by rw [List.getElem?_take_of_lt hj]; exact p2, p3⟩
    rw [List.take_take, Nat.min_eq_left (Nat.le_of_lt hj)]; exact p1
  have hl' : LockedAt (tr.take d) i ∨ ∀ j t, i < j → (tr.take d)[j]? = some ⟨t, .dec⟩ → LockedAt (tr.take d) j := by
    rcases hl with q | q
    · exact .inl (hback i hlt q)
    · refine .inr fun j u hij hj => ?_
      have hjd : j < d := by have := lt_of_get hj; omega
      rw [List.getElem?_take_of_lt hjd] at hj
      exact hback j hjd (q j u hij hj)
  have : HB false (tr.take d ++ [⟨t, .dec⟩]) i (tr.take d).length := by
    have hk : Knows false (tr.take d) t i := by
      rcases somewhere_locked (acq := false) h1 i hi' hl' with q | ⟨u, hu, q⟩
      · unfold Guarded at q; simp only [hown] at q; exact q
      · rw [hheld, List.mem_singleton] at hu
        subst hu; exact q
    exact hk.last _ (fun a ha => .inl ha)
  rw [hlen] at this
  rw [hsp]
  exact HB_append this _

/-- **C109 (the code).**  With the order that the code asks for, an access need not happen before the destruction: in `orderDemo` what thread 1 did when
it erased the entry is not ordered before thread 0 destroys the entry with the callback.  By the C++ memory model that is a data race. -/
theorem C109_not_ordered : ¬ ∀ (tr : List Ev) (s : S) (d i : Nat), exec start tr = some s → DestroysAt tr d → UsesAt tr i → HB false tr i d := by
  intro H
  have hx := H orderDemo _ 12 9 rfl ⟨_, _, 0, rfl, rfl, rfl, rfl, rfl⟩ ⟨1, rfl⟩
  have key : ∀ j k, Edge false orderDemo j k → 9 ≤ j → j ≤ 11 → 9 ≤ k ∧ k ≤ 11 := by
    rintro j k ⟨hjk, a, b, ha, hb, hab⟩ h1 h2
    have hk : k < 13 := lt_of_get hb
    refine ⟨by omega, ?_⟩
    refine Nat.le_of_not_lt fun h3 => ?_
    have hk : k = 12 := by omega
    subst hk
    have : j = 9 ∨ j = 10 ∨ j = 11 := by omega
    rcases this with rfl | rfl | rfl <;> cases ha <;> cases hb <;> revert hab <;> decide
  have all : ∀ j, HB false orderDemo 9 j → 9 ≤ j ∧ j ≤ 11 := by
    intro j hj
    induction hj with
    | one h => exact key _ _ h (by omega) (by omega)
    | more _ h ih => exact key _ _ h ih.1 ih.2
  have := all 12 hx
  omega

/-- The hypotheses of `C109_nothing_after` and `C109_ordered_if_acquire` are met: by the execution that is a race in the code. -/
example : HB true orderDemo 9 12 ∧ HB true orderDemo 5 12 :=
  ⟨C109_ordered_if_acquire (s := _) rfl ⟨_, _, 0, rfl, rfl, rfl, rfl, rfl⟩ ⟨1, rfl⟩, C109_ordered_if_acquire (s := _) rfl ⟨_, _, 0, rfl, rfl, rfl, rfl, rfl⟩ ⟨0, rfl⟩⟩

/-- The hypotheses of `C109_ordered_if_locked_partial` are met: by the same, with the callback destroyed under the lock. -/
example : HB false orderLocked 7 11 :=
  C109_ordered_if_locked_partial (s := _) rfl ⟨_, _, 0, rfl, rfl, rfl, rfl, rfl⟩ ⟨1, rfl⟩ ⟨_, _, rfl, rfl, rfl⟩ (.inl ⟨_, _, rfl, rfl, rfl⟩)

example : HB false orderLocked 4 11 := by
  refine C109_ordered_if_locked_partial (s := _) rfl ⟨_, _, 0, rfl, rfl, rfl, rfl, rfl⟩ ⟨0, rfl⟩ ⟨_, _, rfl, rfl, rfl⟩ (.inr ?_)
  intro j t h hj
  have h1 : j < 13 := lt_of_get hj
  have : j = 5 ∨ j = 6 ∨ j = 7 ∨ j = 8 ∨ j = 9 ∨ j = 10 ∨ j = 11 ∨ j = 12 := by omega
  rcases this with rfl | rfl | rfl | rfl | rfl | rfl | rfl | rfl <;> cases hj
  · exact ⟨_, _, rfl, rfl, rfl⟩
  · exact ⟨_, _, rfl, rfl, rfl⟩

/-- After it the object is gone, and not before. -/
example : (exec start orderDemo).map (·.dead) = some true ∧ (exec start (orderDemo.take 12)).map (·.dead) = some false := ⟨rfl, rfl⟩

end Hoard.Props
