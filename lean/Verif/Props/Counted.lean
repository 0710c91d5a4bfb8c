import Verif.RefcountLemmas
/-! # Counted pointers: C30 -/
namespace Hoard.Props
open Hoard.Refcount

/-- C30: under every sequence of operations used correctly nothing undefined happens: no counter of a
destroyed object is touched and no object is destroyed twice. -/
theorem C30_no_use_after_destruction_partial (os : List Op) (h : Prog.ok {} os) : ∃ s, run {} os = some s :=
  let ⟨s, h, _⟩ := run_ok os init_inv h; ⟨s, h⟩

/-- C30: at every point, the objects destroyed are exactly the objects made that have no owner left, each destroyed once. -/
theorem C30_destroyed_iff_no_owner_partial (os : List Op) (h : Prog.ok {} os) (s : St) (hs : run {} os = some s) :
    (∀ o, o ∈ s.killed ↔ o < s.next ∧ owners s o = 0) ∧ s.killed.Nodup := by
  obtain ⟨s', h1, h2, _, _⟩ := run_ok os init_inv h
  rw [hs] at h1; cases h1
  refine ⟨fun o => ?_, h2.e.kn⟩
  rw [h2.e.km, ← Bool.not_eq_true, h2.e.pos]
  simp

/-- C30: an object is destroyed by the very operation that takes away its last owner: after any operation, the objects
newly destroyed are those that had an owner before and have none now. -/
theorem C30_destroyed_at_once_partial (os : List Op) (op : Op) (h : Prog.ok {} os) (s s' : St) (hs : run {} os = some s) (ho : Op.ok s op) (hs' : step s op = some s') :
    s.killed <+: s'.killed ∧ ∀ o, o < s.next → (o ∈ s'.killed ∧ o ∉ s.killed ↔ 0 < owners s o ∧ owners s' o = 0) := by
  obtain ⟨t, h1, h2, _, _⟩ := run_ok os init_inv h
  rw [hs] at h1; cases h1
  obtain ⟨t', g1, g2, g3, g4⟩ := step_ok h2 ho
  rw [hs'] at g1; cases g1
  refine ⟨g4, fun o ho => ?_⟩
  have e1 := h2.e.pos o
  have e2 := g2.e.pos o
  rw [h2.e.km, g2.e.km]
  cases ha : s.alive o <;> cases hb : s'.alive o <;> simp_all <;> omega

/-- C30: after `reset()` used correctly the pointer is null; so is a pointer moved from and one that was released. -/
theorem C30_null_afterwards_partial (os : List Op) (h : Prog.ok {} os) (s s' : St) (hs : run {} os = some s) (op : Op) (ho : Op.ok s op) (hs' : step s op = some s') (x : Nat)
    (hop : op = .reset x ∨ op = .release x ∨ (∃ y, op = .move y x) ∨ (∃ y, y ≠ x ∧ op = .moveAssign y x)) : (x, none) ∈ s'.vars := by
  obtain ⟨t, h1, h2, _, _⟩ := run_ok os init_inv h
  rw [hs] at h1; cases h1
  have hn := h2.nd
  rcases hop with rfl | rfl | ⟨y, rfl⟩ | ⟨y, hy, rfl⟩
  · rcases ho with hp | ⟨o, hp, hown⟩
    · simp only [step, mem_get hn hp, bind, Option.bind, Option.some.injEq] at hs'
      subst hs'; exact hp
    · have hal := (h2.e.pos o).2 (by omega)
      have hc1 : s.cnt o = 1 := by rw [h2.e.cnt o hal, hown]
      simp [step, mem_get hn hp, bind, Option.bind, St.dec, hal, hc1, St.set, St.kill] at hs'
      subst hs'
      exact mem_set_self hp
  · obtain ⟨p, hp⟩ := ho
    cases p with
    | none =>
      simp only [step, mem_get hn hp, bind, Option.bind, Option.some.injEq] at hs'
      subst hs'; exact hp
    | some o =>
      simp only [step, mem_get hn hp, bind, Option.bind, Option.some.injEq] at hs'
      subst hs'; exact mem_set_self hp
  · obtain ⟨hf, p, hp⟩ := ho
    simp only [step, mem_get hn hp, bind, Option.bind, Option.some.injEq] at hs'
    subst hs'; exact List.mem_cons_of_mem _ (mem_set_self hp)
  · obtain ⟨⟨orig, hx⟩, p, hp⟩ := ho
    simp only [step, mem_get hn hx, mem_get hn hp, bind, Option.bind, hy, if_false] at hs'
    obtain ⟨t', r1, _, r3, _⟩ := unref_ok (s := (s.set y p).set x none) (h2.e.congr rfl rfl rfl rfl fun _ => rfl) orig
      (fun o e => by have := vown_ind hx o; rw [owners_eq]; simp only [ind, e, if_true] at this; omega)
    rw [r1] at hs'; cases hs'
    rw [r3]
    exact mem_set_self (mem_set hp (Ne.symm hy))

/-- C30 is false for `reset()` of a shared object: the pointer stays non-null though it gave up its
reference; destroying both pointers then touches the counter of a destroyed object. -/
theorem C30_reset_of_shared_is_wrong : ∃ s, run {} [.alloc 0, .copy 1 0, .reset 0] = some s ∧ (0, some 0) ∈ s.vars ∧ s.cnt 0 = 1 ∧ owners s 0 = 2 ∧
    run {} [.alloc 0, .copy 1 0, .reset 0, .dtor 1, .dtor 0] = none :=
  ⟨_, rfl, by decide, by decide, by decide, by decide⟩

/-- C30 is false for `reset(ptr)` of a pointer to a shared object: the object is destroyed although it has another owner. -/
theorem C30_reset_to_other_is_wrong : ∃ s, run {} [.alloc 0, .copy 1 0, .alloc 2, .resetPtr 0 (some 1)] = some s ∧ 0 ∈ s.killed ∧ (1, some 0) ∈ s.vars :=
  ⟨_, rfl, by decide, by decide⟩

/-- The life of an entry: it is made, its pointer is copied into a callback and then released into the
table; a temporary pointer is made with `reset(ptr)`; the table disposes of it; the callback goes last. -/
example : let os : List Op := [.alloc 0, .copy 1 0, .release 0, .resetPtr 0 (some 0), .dispose 0, .dtor 0, .dtor 1]
    Prog.ok {} os ∧ (∃ s, run {} os = some s ∧ s.killed = [0]) ∧ (∃ s, run {} (os.take 6) = some s ∧ s.killed = [] ∧ owners s 0 = 1) :=
  ⟨by simp [Prog.ok, Op.ok, step, St.get, St.decl, St.inc, St.set, St.undecl, St.unref, St.dec, St.kill, owners], ⟨_, rfl, by decide⟩, ⟨_, rfl, by decide, by decide⟩⟩

end Hoard.Props
