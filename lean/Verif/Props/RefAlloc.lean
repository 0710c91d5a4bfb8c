import Verif.RefAllocLemmas
/-! # Counted pointers whose allocators differ and fail: C117

Partial: correct use (`AOp.ok`) excludes `reset()` and `reset(ptr)` of a pointer to an object with other owners, where the code is
wrong (C30). -/
namespace Hoard.Props
open Hoard.Refcount Hoard.RefAlloc

/-- C117: in every program of counted pointers with any allocators, whichever allocator copies, allocations, constructors and allocator
assignments throw, and whichever destructors throw in `reset`, nothing undefined happens: no memory goes back through another allocator than the one it came from, no counter of a
destroyed object is touched.  At every point the memory in use is that of the objects with an owner, one block each; each block
came from the allocator that the object was made with; the counter of the object is the number of its owners; the objects destroyed
are those without owner.  The memory lost is that of the objects whose destructor threw, and no more. -/
theorem C117_memory_goes_back_partial (os : List AOp) (h : AProg.ok {} os) : ∃ t, arun {} os = some t ∧
    (∀ o, (∃ a, (o, a) ∈ t.blocks) ↔ 0 < owners t.s o) ∧
    (t.blocks.map (·.1)).Nodup ∧
    (∀ o a, (o, a) ∈ t.blocks → (makers os)[o]? = some a) ∧
    (∀ o, 0 < owners t.s o → t.s.cnt o = owners t.s o) ∧
    (∀ o, o ∈ t.s.killed ↔ o < (makers os).length ∧ owners t.s o = 0) ∧ t.s.killed.Nodup ∧
    t.leaked.map (·.1) = thrown {} os ∧ (∀ o a, (o, a) ∈ t.leaked → o ∈ t.s.killed) ∧ t.leaked.length ≤ throwing os := by
  obtain ⟨t, h1, h2, h3, h4, h5⟩ := arun_ok os [] ainit from_init h
  refine ⟨t, h1, fun o => by rw [h2.al, h2.inv.e.pos], h2.keys, h3.blk, fun o ho => h2.inv.e.cnt o ((h2.inv.e.pos o).2 ho), fun o => ?_, h2.inv.e.kn,
    by simpa using h5, fun o a w => (h3.leak o a w).2, by simpa using h4⟩
  rw [h2.inv.e.km, ← Bool.not_eq_true, h2.inv.e.pos, h3.len]
  simp

/-- C117: nothing leaks: once there is no pointer variable and no released reference left, all memory went back and every
object made was destroyed, also if operations failed on the way, provided that no destructor threw. -/
theorem C117_nothing_leaks_partial (os : List AOp) (h : AProg.ok {} os) (t : A) (ht : arun {} os = some t) (hv : t.s.vars = []) (hr : t.s.raw = []) :
    t.blocks = [] ∧ (∀ o, o < (makers os).length → o ∈ t.s.killed) ∧ (throwing os = 0 → t.leaked = []) := by
  obtain ⟨t', h1, h2, _, _, _, h6, _, _, _, h9⟩ := C117_memory_goes_back_partial os h
  rw [ht] at h1; cases h1
  have hz : ∀ o, owners t.s o = 0 := fun o => by simp [owners, hv, hr]
  refine ⟨List.eq_nil_iff_forall_not_mem.2 fun v hb => ?_, fun o ho => (h6 o).2 ⟨ho, hz o⟩, fun e => List.length_eq_zero_iff.1 (by omega)⟩
  have := (h2 v.1).1 ⟨v.2, hb⟩
  rw [hz] at this; cases this

/-- C117: every pointer that is not null keeps the allocator that its object came from. -/
theorem C117_pointers_know_the_allocator_partial (os : List AOp) (h : AProg.ok {} os) (t : A) (ht : arun {} os = some t) (x o : Nat) (hx : (x, some o) ∈ t.s.vars) :
    (makers os)[o]? = some (t.alloc x) := by
  obtain ⟨t', h1, h2, h3, _⟩ := arun_ok os [] ainit from_init h
  rw [ht] at h1; cases h1
  exact h3.blk _ _ (h2.own x o hx)

/-- C117: making an object, copying and moving a pointer have no effect if they fail, wherever that is, and so has an assignment that
fails before it hands over the old object; assigning a pointer to itself has no effect and cannot fail. -/
theorem C117_failing_changes_nothing (t : A) (op : AOp)
    (hop : (∃ x a f, op = .make x a (some f)) ∨ (∃ x y, op = .copy x y true) ∨ (∃ x y, op = .move x y true) ∨
      (∃ x y, op = .copyAssign x y (some .orig)) ∨ (∃ x y, op = .moveAssign x y (some .orig)) ∨ (∃ x f, op = .copyAssign x x f) ∨ ∃ x f, op = .moveAssign x x f) : astep t op = some t := by
  rcases hop with ⟨x, a, f, rfl⟩ | ⟨x, y, rfl⟩ | ⟨x, y, rfl⟩ | ⟨x, y, rfl⟩ | ⟨x, y, rfl⟩ | ⟨x, f, rfl⟩ | ⟨x, f, rfl⟩
  · cases f <;> simp [astep, giveBack]
  · rfl
  · rfl
  · simp [astep]
  · simp [astep]
  · simp [astep]
  · simp [astep]

/-- C117: an assignment to another pointer whose allocator assignment throws has lost the old value: the pointer is null, its old
object has one owner less, and no other pointer or owner changed; in particular the source still has its object. -/
theorem C117_failed_assignment_loses_the_old_value_partial (os : List AOp) (h : AProg.ok {} os) (t : A) (ht : arun {} os = some t) (x y : Nat) (p : Option Nat) (hxy : x ≠ y)
    (hx : (x, p) ∈ t.s.vars) (op : AOp) (hop : op = .copyAssign x y (some .assign) ∨ op = .moveAssign x y (some .assign)) :
    ∃ t', astep t op = some t' ∧ (x, none) ∈ t'.s.vars ∧ (∀ z q, z ≠ x → ((z, q) ∈ t'.s.vars ↔ (z, q) ∈ t.s.vars)) ∧
      (∀ o, owners t.s o = owners t'.s o + if p = some o then 1 else 0) ∧
      (∀ o, o ∈ t'.s.killed ↔ o ∈ t.s.killed ∨ p = some o ∧ owners t.s o = 1) := by
  obtain ⟨t1, h1, h2, _, _⟩ := arun_ok os [] ainit from_init h
  rw [ht] at h1; cases h1
  obtain ⟨t', g1, g2, g3, _, g5, g6, _⟩ := lost_ok h2 hx
  have hown : ∀ o, owners t.s o = owners t'.s o + if p = some o then 1 else 0 := by
    intro o
    have q := vown_set h2.inv.nd hx none o
    rw [owners_eq, owners_eq, g5, g6]
    simp only [St.set]
    simp only [ind, reduceCtorEq, if_false] at q
    omega
  refine ⟨t', ?_, by rw [g5]; exact mem_set_self hx, fun z q hz => ?_, hown, fun o => ?_⟩
  · rcases hop with rfl | rfl <;> simp [astep, hxy, g1]
  · rw [g5]
    refine ⟨fun w => ?_, fun w => mem_set w hz⟩
    rcases mem_of_set w with ⟨e, _⟩ | ⟨_, w⟩
    · exact absurd e hz
    · exact w
  · have q := hown o
    have k : ∀ {s : St}, Refcount.Inv s → (o ∈ s.killed ↔ o < s.next ∧ owners s o = 0) := by
      intro s hi
      rw [hi.e.km, ← Bool.not_eq_true, hi.e.pos]; simp
    rw [k g2.inv, k h2.inv, g3]
    have hlt : 0 < owners t.s o → o < t.s.next := fun w => h2.inv.e.lt o ((h2.inv.e.pos o).2 w)
    by_cases e : p = some o
    · simp only [e, if_true, true_and] at q ⊢
      constructor
      · rintro ⟨_, w⟩; right; omega
      · rintro (⟨w, w'⟩ | w)
        · omega
        · exact ⟨hlt (by omega), by omega⟩
    · simp only [e, if_false, Nat.add_zero, false_and, or_false] at q ⊢
      rw [q]

/-- C117: when the destructor of the object throws in `reset()` of its only owner, the pointer is null, the object counts as destroyed, and its memory is lost;
no other pointer changed. -/
theorem C117_throwing_destructor_loses_the_memory_partial (os : List AOp) (h : AProg.ok {} os) (t : A) (ht : arun {} os = some t) (x o : Nat)
    (hx : (x, some o) ∈ t.s.vars) (h1o : owners t.s o = 1) :
    ∃ t', astep t (.reset x true) = some t' ∧ (x, none) ∈ t'.s.vars ∧ (∀ z q, z ≠ x → ((z, q) ∈ t'.s.vars ↔ (z, q) ∈ t.s.vars)) ∧
      t'.s.killed = t.s.killed ++ [o] ∧ (∀ v, v ∈ t'.leaked ↔ v ∈ t.leaked ∨ v = (o, t.alloc x)) ∧ (∀ v, v ∈ t'.blocks ↔ v ∈ t.blocks ∧ v.1 ≠ o) := by
  obtain ⟨t1, h1, h2, _, _⟩ := arun_ok os [] ainit from_init h
  rw [ht] at h1; cases h1
  have hn := h2.inv.nd
  have hal := (h2.inv.e.pos o).2 (by omega)
  have hc1 : t.s.cnt o = 1 := by rw [h2.inv.e.cnt o hal, h1o]
  refine ⟨_, by simp [astep, finThrow, step, mem_get hn hx, bind, Option.bind, St.dec, hal, hc1, St.set, St.kill]; rfl, mem_set_self hx, fun z q hz => ?_, rfl, fun v => ?_, fun v => ?_⟩
  · refine ⟨fun w => ?_, fun w => mem_set w hz⟩
    rcases mem_of_set (s := t.s) w with ⟨e, _⟩ | ⟨_, w⟩
    · exact absurd e hz
    · exact w
  · simp only [List.mem_append, List.mem_filter, decide_eq_true_eq]
    refine or_congr Iff.rfl ⟨fun ⟨w, e⟩ => ?_, fun e => ?_⟩
    · obtain ⟨b, a⟩ := v
      simp only at e
      subst e
      rw [key_unique h2.keys w (h2.own x _ hx)]
    · subst e; exact ⟨h2.own x o hx, rfl⟩
  · simp only [List.mem_filter, ne_eq]
    simp

/-- C117 in a cache: if all pointers, objects and disposals use one allocator, nothing has to be known about allocators: in every program that uses the pointers
correctly, whatever fails, all memory is that of the objects with an owner or was lost by a throwing destructor.  (A pointer variable that does not exist yet has no
allocator; its number is arbitrary.) -/
theorem C117_one_allocator_needs_no_care_partial (a : Nat) (os : List AOp) (h : OneProg.ok a { alloc := fun _ => a } os) : ∃ t, arun { alloc := fun _ => a } os = some t ∧
    (∀ o, (o, a) ∈ t.blocks ↔ 0 < owners t.s o) ∧ (∀ v ∈ t.blocks, v.2 = a) ∧ (t.blocks.map (·.1)).Nodup ∧
    (∀ o, o ∈ t.s.killed ↔ o < (makers os).length ∧ owners t.s o = 0) ∧ t.leaked.map (·.1) = thrown { alloc := fun _ => a } os := by
  have hm : ∀ {os : List AOp} {t : A}, OneProg.ok a t os → AInv t → (t.alloc = fun _ => a) → (∀ v ∈ t.blocks, v.2 = a) → ∀ b ∈ makers os, b = a := by
    intro os
    induction os with
    | nil => intro t _ _ _ _ b hb; cases hb
    | cons op os ih =>
      intro t ho hi ha hb b hm
      have hok := one_ok (op :: os) hi ha hb ho
      obtain ⟨t1, h1, h2, h3⟩ := astep_ok hi hok.1
      rw [makers_cons, List.mem_append] at hm
      have one : ∀ b ∈ makers [op], b = a := by
        have hu := ho.1.2
        intro b hm
        cases op with
        | make x c f =>
          cases f with
          | none => rw [List.mem_singleton.1 hm]; exact hu
          | some f => cases hm
        | _ => cases hm
      rcases hm with hm | hm
      · exact one b hm
      · refine ih (ho.2 t1 h1) h2 (astep_one ha ho.1.2 h1) (fun v hv => ?_) b hm
        rcases h3.blk v hv with q | ⟨c, e, q⟩
        · exact hb v q
        · subst q; exact one c (by rw [e]; exact List.mem_singleton.2 rfl)
  obtain ⟨t, h1, h2, h3, _, h5⟩ := arun_ok os [] (ainit_one a) (from_init_one a) (one_ok os (ainit_one a) rfl (by simp) h)
  have hall : ∀ v ∈ t.blocks, v.2 = a := fun v hv => hm h (ainit_one a) rfl (by simp) _ (List.mem_of_getElem? (h3.blk v.1 v.2 hv))
  refine ⟨t, h1, fun o => ?_, hall, h2.keys, fun o => ?_, by simpa using h5⟩
  · rw [← h2.inv.e.pos, ← h2.al o]
    refine ⟨fun q => ⟨a, q⟩, fun ⟨b, q⟩ => ?_⟩
    have : b = a := hall _ q
    rw [← this]; exact q
  · rw [h2.inv.e.km, ← Bool.not_eq_true, h2.inv.e.pos, h3.len]
    simp

/-- C117 needs the care with plain pointers: a released reference adopted by a pointer with another allocator is given back through the
wrong one. -/
theorem C117_adopting_with_another_allocator_is_wrong :
    (∃ t, arun {} [.make 0 3 none, .null 1 5, .release 0, .adopt 1 0] = some t ∧ t.blocks = [(0, 3)] ∧ t.alloc 1 = 5) ∧
    arun {} [.make 0 3 none, .null 1 5, .release 0, .adopt 1 0, .dtor 1] = none :=
  ⟨⟨_, rfl, by decide, by decide⟩, by decide⟩

/-- Two allocators: a construction fails; an object of allocator 3 and one of 5; assigning the second pointer to the first
fails at the allocator, which destroys object 0; then it succeeds, and both pointers own object 1; a third pointer is made null and
takes the object by a move; all go. -/
example : let os : List AOp := [.make 0 3 (some .construct), .make 0 3 none, .make 1 5 none, .copyAssign 0 1 (some .assign), .copyAssign 0 1 none,
      .null 2 3, .moveAssign 2 1 none, .dtor 1, .dtor 0, .dtor 2]
    AProg.ok {} os ∧ (∃ t, arun {} (os.take 4) = some t ∧ t.s.killed = [0] ∧ t.blocks = [(1, 5)] ∧ (0, none) ∈ t.s.vars) ∧
    (∃ t, arun {} (os.take 9) = some t ∧ t.blocks = [(1, 5)] ∧ t.alloc 2 = 5 ∧ t.s.vars = [(2, some 1)]) ∧
    ∃ t, arun {} os = some t ∧ t.blocks = [] ∧ t.s.killed = [0, 1] ∧ t.s.vars = [] :=
  ⟨by simp [AProg.ok, AOp.ok, astep, fin, lost, giveBack, upd, Op.ok, step, St.get, St.decl, St.inc, St.set, St.undecl, St.unref, St.dec, St.kill, bind, Option.bind],
    ⟨_, rfl, by decide, by decide, by decide⟩, ⟨_, rfl, by decide, by decide, by decide⟩, ⟨_, rfl, by decide, by decide, by decide⟩⟩

/-- Plain pointers: an entry made with the table's allocator is released into the table, a pointer with that allocator looks at it, and
the table disposes of it. -/
example : let os : List AOp := [.make 0 3 none, .release 0, .null 1 3, .resetPtr 1 (some 0) false, .dispose 0 3, .dtor 0, .dtor 1]
    AProg.ok {} os ∧ ∃ t, arun {} os = some t ∧ t.blocks = [] ∧ t.s.killed = [0] :=
  ⟨by simp [AProg.ok, AOp.ok, astep, fin, giveBack, upd, Op.ok, step, St.get, St.decl, St.inc, St.set, St.undecl, St.unref, St.dec, St.kill, owners, bind, Option.bind], ⟨_, rfl, by decide, by decide⟩⟩

/-- The life of an entry in a cache with allocator 3, as far as pointers go. -/
example : OneProg.ok 3 { alloc := fun _ => 3 } [.make 0 3 (some .allocate), .make 0 3 none, .copy 2 0 false, .release 0, .null 1 3, .resetPtr 1 (some 0) false, .dispose 0 3, .dtor 0, .dtor 1, .dtor 2] := by
  simp [OneProg.ok, AOp.plain, AOp.only, astep, fin, giveBack, upd, Op.ok, step, St.get, St.decl, St.inc, St.set, St.undecl, St.unref, St.dec, St.kill, owners, bind, Option.bind]

/-- A destructor that throws: the memory of object 0 is lost, that of object 1 goes back. -/
example : let os : List AOp := [.make 0 3 none, .make 1 5 none, .reset 0 true, .dtor 0, .reset 1 false, .dtor 1]
    AProg.ok {} os ∧ throwing os = 1 ∧ thrown {} os = [0] ∧ ∃ t, arun {} os = some t ∧ t.blocks = [] ∧ t.leaked = [(0, 3)] ∧ t.s.killed = [0, 1] ∧ t.s.vars = [] :=
  ⟨by simp [AProg.ok, AOp.ok, astep, fin, finThrow, giveBack, upd, Op.ok, step, St.get, St.decl, St.set, St.undecl, St.unref, St.dec, St.kill, owners, bind, Option.bind], rfl, by decide, ⟨_, rfl, by decide, by decide, by decide, by decide⟩⟩

end Hoard.Props
