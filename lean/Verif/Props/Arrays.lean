import Verif.ArraysLemmas
/-! # Bucket arrays: C101

`log`: what a hash table asked of its allocator, and which arrays it filled.  `tab.n`, `tab.b`: numbers of entries and
of buckets; `tab.p / tab.q`: the load factor limit; `tab.mx`: the largest number of buckets the allocator allows. -/
namespace Hoard.Props
open Hoard Arrays

/-- C101.  Whatever is done with a hash table, and whichever allocations fail: every array is given back at most once, with
the size it was asked for, and only after it was given out.  The table has one array, with `bucket_count()` elements, or none
if `bucket_count()` is 0. -/
theorem C101_arrays_are_given_back_once (p q mx : Nat) (os : List Arrays.Op) :
    ∃ l, inUse ((Arrays.St.init p q mx).run os).log [] = some l ∧ l.length ≤ 1 ∧ (∀ x ∈ l, x.2 = ((Arrays.St.init p q mx).run os).tab.b) ∧
      (l = [] ↔ ((Arrays.St.init p q mx).run os).tab.b = 0) := by
  have h := (inv_init p q mx).run os
  refine ⟨_, h.use, ?_⟩
  have := h.none0
  unfold Arrays.St.has
  cases ha : ((Arrays.St.init p q mx).run os).arr with
  | none => simpa [ha] using this
  | some a => simpa [ha] using this

/-- C101.  After its destruction it has none. -/
theorem C101_all_arrays_are_given_back (p q mx : Nat) (os : List Arrays.Op) :
    inUse ((Arrays.St.init p q mx).run (os ++ [.destroy])).log [] = some [] := by
  have h := (inv_init p q mx).run (os ++ [.destroy])
  have hg : ((Arrays.St.init p q mx).run (os ++ [.destroy])).gone = true := by
    rw [Arrays.run_append]
    generalize (Arrays.St.init p q mx).run os = s
    simp only [Arrays.St.run, List.foldl, Arrays.St.step]
    cases hg : s.gone with
    | true => simpa using hg
    | false => simp only [Bool.false_eq_true, if_false, Arrays.St.destroy]; split <;> rfl
  rw [h.use, Arrays.St.has, h.gone hg]

/-- C101.  A null pointer is given back at most once. -/
theorem C101_null_at_most_once (p q mx : Nat) (os : List Arrays.Op) : nulls ((Arrays.St.init p q mx).run os).log ≤ 1 := by
  have := ((inv_init p q mx).run os).nul
  split at this <;> omega

/-- That it never happens is false: the first insertion into any hash table does it. -/
theorem C101_null_is_given_back (p q mx dead : Nat) :
    ((Arrays.St.init p q mx).run [.link dead false]).log = [.alloc 0 4, .fill 4, .dealloc none 0] := by
  simp [Arrays.St.run, Arrays.St.step, Arrays.St.init, Arrays.St.link, Arrays.St.rehash, Arrays.St.swap, Grow.Tab.link, Grow.Tab.init]

/-- C101.  If the allocation fails in an insertion or in `reserve`, then entries that have expired may be gone, and nothing else
has happened.  If it fails when a new limit is set, then nothing at all has happened, and the old limit is in force. -/
theorem C101_failed_allocation (s : Arrays.St) :
    (∀ d f, (s.link d f).2 = false → (s.link d f).1 = { s with tab := { s.tab with n := (s.link d f).1.tab.n } } ∧ (s.link d f).1.tab.n ≤ s.tab.n ∧ s.tab.n ≤ (s.link d f).1.tab.n + d) ∧
    (∀ m d f, (s.reserve m d f).2 = false → (s.reserve m d f).1 = { s with tab := { s.tab with n := (s.reserve m d f).1.tab.n } } ∧ (s.reserve m d f).1.tab.n ≤ s.tab.n ∧ s.tab.n ≤ (s.reserve m d f).1.tab.n + d) ∧
    (∀ p q f, (s.setMax p q f).2 = false → (s.setMax p q f).1 = s) := by
  refine ⟨fun d f => ?_, fun m d f => ?_, fun p q f => ?_⟩
  · simp only [Arrays.St.link]
    split
    · intro h; cases h
    · split
      · intro _
        refine ⟨rfl, left_le _ _, ?_⟩
        simp only [Grow.Tab.left]; split <;> omega
      · intro h; cases h
  · simp only [Arrays.St.reserve]
    split
    · intro h; cases h
    · split
      · intro _; exact ⟨rfl, by simp only; omega, by simp only; omega⟩
      · intro h; cases h
  · simp only [Arrays.St.setMax]
    split
    · intro h; cases h
    · split
      · intro _; rfl
      · split <;> (intro h; cases h)

/-- C101.  An insertion that failed can be repeated: the result is the same as if it had succeeded at once. -/
theorem C101_failed_insertion_can_be_repeated (s : Arrays.St) (d : Nat) (hf : (s.link d true).2 = false) :
    (s.link d true).1.link 0 false = s.link d false := by
  revert hf
  have hl : ∀ t : Grow.Tab, t.left 0 = t.n := by intro t; simp [Grow.Tab.left]
  simp only [Arrays.St.link]
  split
  · intro h; cases h
  · rename_i hb
    intro _
    simp only [if_true]
    have e : ({ s.tab with n := s.tab.left d } : Grow.Tab).link 0 = s.tab.link d := by
      simp only [Grow.Tab.link, hl]; rfl
    rw [e, if_neg hb]
    simp only [Bool.false_eq_true, if_false, Prod.mk.injEq, and_true]
    rfl

/-- C101.  Insertions and removals fill few array elements in all: at most twice as many as there are buckets (three times, at the
largest number of buckets), and there are at most 4 buckets, or twice as many as the load factor limit asks for with as many
entries as there were insertions. -/
theorem C101_filling_is_cheap (p q mx : Nat) (os : List Arrays.Op) (hp : ∀ o ∈ os, o.plain = true) :
    let s := (Arrays.St.init p q mx).run os
    filled s.log ≤ 3 * s.tab.b ∧ (s.tab.b < mx → filled s.log ≤ 2 * s.tab.b) ∧ (s.tab.b ≤ 4 ∨ p * s.tab.b ≤ 2 * q * links os) := by
  have h := (cheap_init p q mx).run os hp
  obtain ⟨e1, e2, e3⟩ := plain_params (s := Arrays.St.init p q mx) os hp
  have e1 : ((Arrays.St.init p q mx).run os).tab.p = p := e1
  have e2 : ((Arrays.St.init p q mx).run os).tab.q = q := e2
  have e3 : ((Arrays.St.init p q mx).run os).tab.mx = mx := e3
  have hs := h.sum
  have hw := h.few
  rw [e1, e2, Nat.zero_add] at hw
  rw [e3] at hs
  refine ⟨?_, ?_, hw⟩ <;> omega

/-- C101 with the default limit of 1, for `N` insertions: at most `4 * N` elements, or 8. -/
theorem C101_filling_default (mx : Nat) (os : List Arrays.Op) (hp : ∀ o ∈ os, o.plain = true) (hmx : ((Arrays.St.init 1 1 mx).run os).tab.b < mx) :
    filled ((Arrays.St.init 1 1 mx).run os).log ≤ max 8 (4 * links os) := by
  obtain ⟨_, h2, h3⟩ := C101_filling_is_cheap 1 1 mx os hp
  have := h2 hmx
  omega

/-- Room is made for one entry before each of the insertions. -/
def oneByOne (m : Nat) : List Arrays.Op := (List.range m).flatMap (fun i => [.reserve (i + 1) 0 false, .link 0 false])

/-- With `reserve` this is false: it makes an array of exactly the size asked for.  Whoever calls `reserve(size() + 1)` before each
of `m` insertions makes the table fill `1 + 2 + ... + m` elements. -/
theorem C101_reserve_one_by_one (m mx : Nat) (hm : m ≤ mx) :
    let s := (Arrays.St.init 1 1 mx).run (oneByOne m)
    s.tab.n = m ∧ s.tab.b = m ∧ 2 * filled s.log = m * (m + 1) := by
  suffices h : ∀ m, m ≤ mx → ((Arrays.St.init 1 1 mx).run (oneByOne m)).tab = ⟨m, m, 1, 1, mx⟩ ∧ ((Arrays.St.init 1 1 mx).run (oneByOne m)).gone = false ∧
      2 * filled ((Arrays.St.init 1 1 mx).run (oneByOne m)).log = m * (m + 1) by
    obtain ⟨h1, _, h2⟩ := h m hm
    exact ⟨by rw [h1], by rw [h1], h2⟩
  intro m
  induction m with
  | zero => intro _; exact ⟨rfl, rfl, rfl⟩
  | succ m ih =>
    intro hm
    obtain ⟨h1, h2, h3⟩ := ih (by omega)
    have e : oneByOne (m + 1) = oneByOne m ++ [.reserve (m + 1) 0 false, .link 0 false] := by
      simp [oneByOne, List.range_succ]
    rw [e, Arrays.run_append]
    generalize (Arrays.St.init 1 1 mx).run (oneByOne m) = s at *
    have hr : (Grow.Tab.reserve ⟨m, m, 1, 1, mx⟩ (m + 1) 0) = ⟨m, m + 1, 1, 1, mx⟩ := by
      have : min (Grow.need (m + 1) 1 1) mx = m + 1 := by simp only [Grow.need]; omega
      simp [Grow.Tab.reserve, this]
    have hl : (Grow.Tab.link ⟨m, m + 1, 1, 1, mx⟩ 0) = ⟨m + 1, m + 1, 1, 1, mx⟩ := by
      simp [Grow.Tab.link, Grow.Tab.left, Grow.Tab.over]
    simp only [Arrays.St.run, List.foldl, Arrays.St.step, h2, Bool.false_eq_true, if_false, Arrays.St.reserve, h1, hr,
      show ¬ (m + 1 = m) by omega, Arrays.St.rehash, Arrays.St.swap, Arrays.St.link, hl, if_true, true_and]
    simp only [filled_append, filled]
    have : (m + 1) * (m + 1 + 1) = m * (m + 1) + 2 * (m + 1) := by
      simp only [Nat.add_mul, Nat.mul_add]; omega
    omega

/-- As a call of `Verif.Grow`, if no allocation fails. -/
def arrayOp : Grow.Op → Arrays.Op
  | .link d => .link d false
  | .unlink => .unlink
  | .reserve m d => .reserve m d false
  | .setMax p q => .setMax p q false

/-- The numbers of entries and buckets are those of `Verif.Grow`, about which C27 and C44 speak. -/
theorem C101_same_table (p q mx : Nat) (os : List Grow.Op) :
    ((Arrays.St.init p q mx).run (os.map arrayOp)).tab = (Grow.Tab.init p q mx).run os := by
  suffices h : ∀ s : Arrays.St, s.gone = false → (s.run (os.map arrayOp)).tab = s.tab.run os from h _ rfl
  induction os with
  | nil => intro s _; rfl
  | cons o os ih =>
    intro s hg
    have h1 : (s.step (arrayOp o)).tab = s.tab.step o ∧ (s.step (arrayOp o)).gone = false := by
      cases o with
      | link d =>
        simp only [arrayOp, Arrays.St.step, hg, Arrays.St.link, Grow.Tab.step, Bool.false_eq_true, if_false]
        split
        · exact ⟨rfl, rfl⟩
        · exact ⟨rfl, hg⟩
      | unlink => simp [arrayOp, Arrays.St.step, hg, Grow.Tab.step]
      | reserve m d =>
        simp only [arrayOp, Arrays.St.step, hg, Arrays.St.reserve, Grow.Tab.step, Bool.false_eq_true, if_false]
        split
        · exact ⟨rfl, rfl⟩
        · exact ⟨rfl, hg⟩
      | setMax p q =>
        simp only [arrayOp, Arrays.St.step, hg, Arrays.St.setMax, Grow.Tab.step, Bool.false_eq_true, if_false]
        split
        · exact ⟨rfl, rfl⟩
        · split <;> exact ⟨rfl, hg⟩
    have := ih (s.step (arrayOp o)) h1.2
    rw [h1.1] at this
    exact this

/-! ## Examples -/

/-- Six insertions, one of which fails at first, a removal, room for twenty, and the end. -/
def someCalls : List Arrays.Op :=
  [.link 0 true, .link 0 false, .link 0 false, .link 0 false, .link 0 false, .link 0 true, .link 0 false, .unlink, .link 0 false, .reserve 20 0 true, .reserve 20 0 false,
    .setMax 1 2 true, .setMax 1 8 false, .clear, .destroy]

example : ((Arrays.St.init 1 1 100).run someCalls).log =
    [.alloc 0 4, .fill 4, .dealloc none 0, .alloc 1 8, .fill 8, .dealloc (some 0) 4, .alloc 2 20, .fill 20, .dealloc (some 1) 8, .alloc 3 40, .fill 40, .dealloc (some 2) 20, .fill 40, .dealloc (some 3) 40] := by decide
example : inUse ((Arrays.St.init 1 1 100).run (someCalls.take 11)).log [] = some [(2, 20)] := by decide
example : inUse [.alloc 0 4, .dealloc (some 0) 5] [] = none := by decide
example : inUse [.alloc 0 4, .dealloc (some 0) 4, .dealloc (some 0) 4] [] = none := by decide
example := C101_arrays_are_given_back_once 1 1 100 someCalls
example := C101_all_arrays_are_given_back 1 1 100 someCalls
example := C101_null_at_most_once 1 1 100 someCalls
example := C101_failed_insertion_can_be_repeated (Arrays.St.init 1 1 100) 0 (by decide)
example := (C101_failed_allocation ((Arrays.St.init 1 1 100).run (someCalls.take 5))).2.2 1 8 true (by decide)
example := C101_filling_default 100 (List.replicate 9 (.link 0 false)) (by intro o ho; rw [List.eq_of_mem_replicate ho]; rfl) (by decide)
example : filled ((Arrays.St.init 1 1 100).run (List.replicate 9 (.link 0 false))).log = 28 := by decide
example := C101_filling_is_cheap 1 1 6 (List.replicate 9 (.link 0 false)) (by intro o ho; rw [List.eq_of_mem_replicate ho]; rfl)
example := C101_reserve_one_by_one 1000 (2 ^ 60) (by decide)
example := C101_same_table 1 1 100 [.link 0, .link 0, .reserve 20 0, .unlink]

end Hoard.Props
