import Verif.Demo
import Verif.Spec.Waiters
import Verif.Chain
import Verif.DList
import Verif.Grow
import Verif.Meta
import Verif.Refcount
import Verif.Timers
/-!
# The project's own tests, run on the model

The unit tests of the library (`/repo/test`), transcribed.  Each `example` cites its test.  They check the model:
a transcribed test that failed would show a place where the model does something else than the authors of the
library expect of the code.  They prove nothing about other inputs; the theorems are in `Verif.Props`.

Not transcribed: tests of things that the model leaves out (allocators, comparison of pointers, constness of iterators, `CHECK`s on
`immediate()`), and `test/cycle_pointer.cc`, which is `test/shared_pointer.cc` with another kind of pointer.
-/
namespace Hoard.RepoTests
open Hoard Spec

deriving instance DecidableEq for Cb
deriving instance DecidableEq for Pend
deriving instance DecidableEq for Mapped
deriving instance DecidableEq for Look

/-- The cache of test/cache.cc:10.  `std::hash<int>` is the identity in the usual implementations. -/
def cfg0 : Cfg Nat := { hash := id, eqv := fun a b => a == b }

/-- Milliseconds `t` on the clock, all objects alive.  `set_time` of test/test_clock.h. -/
def ms (t : Int) : Env String := { now := ⟨t, t⟩, alive := fun _ => true }

/-- What the calls return.  The values compared by `CHECK_EQUAL`, for instance test/cache.cc:23. -/
def rets (cfg : Cfg Nat) (h : Hist Nat String String) : List (Ret String String) := (outsOf cfg h).map (·.ret)

/-! ## cache.cc -/

/-- The fixture, test/cache.cc:12-15. -/
def fixture : Hist Nat String String := [(ms 0, .emplace 1 "one" .none), (ms 0, .emplace 2 "two" .none)]

-- test/cache.cc:20-31
example : rets cfg0 (fixture ++ [(ms 0, .getIfExists 1), (ms 0, .getIfExists 2), (ms 0, .getIfExists 3)]) =
    [.unit, .unit, .val "one", .val "two", .miss] := by decide +kernel

-- test/cache.cc:33-44
example : rets cfg0 (fixture ++ [(ms 0, .get 1 (.err "")), (ms 0, .get 2 (.err "")), (ms 0, .get 3 (.err ""))]) =
    [.unit, .unit, .val "one", .val "two", .miss] := by decide +kernel

-- test/cache.cc:46-54
example : rets cfg0 (fixture ++ [(ms 0, .clear), (ms 0, .get 1 (.err "")), (ms 0, .get 2 (.err ""))]) =
    [.unit, .unit, .unit, .miss, .miss] := by decide +kernel

-- test/cache.cc:56-65
example : rets cfg0 (fixture ++ [(ms 0, .erase 1), (ms 0, .get 1 (.err "")), (ms 0, .get 2 (.err ""))]) =
    [.unit, .unit, .unit, .miss, .val "two"] := by decide +kernel

-- test/cache.cc:67-81
example : rets cfg0 (fixture ++ [(ms 0, .emplace 17 "seventeen" .none), (ms 0, .get 17 (.err ""))]) =
    [.unit, .unit, .unit, .val "seventeen"] := by decide +kernel

-- test/cache.cc:83-97
example : rets cfg0 (fixture ++ [(ms 0, .emplace 1 "bla" .none), (ms 0, .get 1 (.err ""))]) =
    [.unit, .unit, .unit, .val "bla"] := by decide +kernel

-- test/cache.cc:99-115
example : rets cfg0 (fixture ++ [(ms 0, .getOrEmplace 1 "bla" .none), (ms 0, .get 1 (.err ""))]) =
    [.unit, .unit, .val "one", .val "one"] := by decide +kernel

-- test/cache.cc:117-133
example : rets cfg0 (fixture ++ [(ms 0, .getOrEmplace 17 "bla" .none), (ms 0, .get 17 (.err ""))]) =
    [.unit, .unit, .val "bla", .val "bla"] := by decide +kernel

/-! ## max_age_policy.cc -/

-- test/max_age_policy.cc:14-38; `test_clock` is steady
example : rets { cfg0 with maxAge := some 10000 }
    [(ms 0, .emplace 3 "three" .none), (ms 0, .get 3 (.err "")), (ms 1000, .get 3 (.err "")), (ms 9999, .get 3 (.err "")),
     (ms 10000, .get 3 (.err "")), (ms 11000, .get 3 (.err ""))] =
    [.unit, .val "three", .val "three", .val "three", .miss, .miss] := by decide +kernel

/-! ## max_size_policy.cc -/

-- test/max_size_policy.cc:11-26
example : rets { cfg0 with maxSize := some 5 }
    ((List.range 5).map (fun i => (ms 0, .emplace i "bla" .none)) ++ [(ms 0, .count)] ++
     (List.range 5).flatMap (fun i => [(ms 0, .emplace (5 + i) "bla" .none), (ms 0, .count)])) =
    List.replicate 5 .unit ++ [.num 5] ++ (List.replicate 5 [.unit, .num 5]).flatten := by decide +kernel

/-! ## shared_pointer.cc -/

/-- Pointers are named by the numbers that they point to; `dead` are the ones without an owner
(test/shared_pointer.cc:28, 38). -/
def ptrs (dead : List Nat) : Env Nat := { now := ⟨0, 0⟩, alive := fun v => !dead.contains v }

/-- The cache of test/shared_pointer.cc:12-15, 27. -/
def cfgP : Cfg Nat := { cfg0 with ptr := true, weaken := true, maxSize := some 2 }

/-- test/shared_pointer.cc:17-24; the objects made have the numbers `b` and `c`. -/
def causeExpiry (dead : List Nat) (b c : Nat) : Hist Nat Nat Nat :=
  [(ptrs dead, .emplace 2 b .none), (ptrs dead, .get 2 (.err 0)), (ptrs dead, .get 2 (.err 0)),
   (ptrs dead, .emplace 3 c .none), (ptrs dead, .get 3 (.err 0)), (ptrs dead, .get 3 (.err 0))]

-- test/shared_pointer.cc:26-36: the value is found although the cache is over its size
example : ((outsOf cfgP ([(ptrs [], .emplace 1 1 .none), (ptrs [], .get 1 (.err 0))] ++ causeExpiry [] 2 3 ++
      [(ptrs [], .get 1 (.err 0))])).map (·.ret))[8]? = some (.val 1) := by decide +kernel

-- test/shared_pointer.cc:38-41: the cache has given up its own reference, so that the object is gone ...
example : ((stateAfter cfgP ([(ptrs [], .emplace 1 1 .none), (ptrs [], .get 1 (.err 0))] ++ causeExpiry [] 2 3 ++
      [(ptrs [], .get 1 (.err 0))] ++ causeExpiry [] 4 5)).ents.filter (fun e => e.key == 1)).map (·.mapped) = [.weak 1] := by
  decide +kernel
-- ... and the last `get` finds nothing
example : ((outsOf cfgP ([(ptrs [], .emplace 1 1 .none), (ptrs [], .get 1 (.err 0))] ++ causeExpiry [] 2 3 ++
      [(ptrs [], .get 1 (.err 0))] ++ causeExpiry [] 4 5 ++ [(ptrs [1], .get 1 (.err 0))])).map (·.ret))[15]? = some .miss := by
  decide +kernel

/-! ## refresh_policy.cc -/

-- test/refresh_policy.cc:65-93
example : rets { cfg0 with resolver := .sync, refresh := some (10000, 0) }
    [(ms 0, .get 3 (.ok "first")), (ms 1000, .get 3 (.ok "refresh_1")), (ms 10000, .tick (.ok "refresh_1") .later),
     (ms 11000, .get 3 (.ok "refresh_2"))] =
    [.val "first", .val "first", .unit, .val "refresh_1"] := by decide +kernel

-- test/refresh_policy.cc:95-114; the worker runs every second, and stops when the value is too old
example : rets { cfg0 with resolver := .sync, refresh := some (1000, 5000) }
    ([(ms 0, .get 3 (.ok "value")), (ms 1000, .getIfExists 3)] ++
     [1000, 2000, 3000, 4000, 5000].map (fun t => (ms t, .tick (.ok "value") .later)) ++ [(ms 6000, .getIfExists 3)]) =
    [.val "value", .val "value", .unit, .unit, .unit, .unit, .unit, .miss] := by decide +kernel

/-! ## resolver_policy.cc -/

/-- test/resolver_policy.cc:24-27: `n` times the letter x. -/
def xs (n : Nat) : String := String.ofList (List.replicate n 'x')

-- test/resolver_policy.cc:48-54
example : rets { cfg0 with resolver := .sync } [(ms 0, .get 3 (.ok (xs 3))), (ms 0, .get 4 (.ok (xs 4)))] =
    [.val "xxx", .val "xxxx"] := by decide +kernel

-- test/resolver_policy.cc:76-99
example : rets { cfg0 with resolver := .sync } [(ms 0, .get 7 (.err "'error one'")), (ms 0, .get 7 (.err "'error two'"))] =
    [.err "'error one'", .err "'error two'"] := by decide +kernel

-- test/resolver_policy.cc:162-165 and :167-189: completed inside the resolver, answered at once
example : (outsOf { cfg0 with resolver := .async } [(ms 0, .asyncGet 3 0 (.now (.ok (xs 3))))]).map (·.fired) =
    [[(0, (.ok "xxx" : Res String String))]] := by decide +kernel
example : (outsOf { cfg0 with resolver := .async } [(ms 0, .asyncGet 3 0 (.now (.err "test_exception")))]).map (·.fired) =
    [[(0, (.err "test_exception" : Res String String))]] := by decide +kernel

/-! ## detail/hashtable.cc -/

-- test/detail/hashtable.cc:23-28
example : (stateAfter cfg0 ([] : Hist Nat String String)).size = 0 := rfl
-- test/detail/hashtable.cc:35-60
example : (stateAfter cfg0 [(ms 0, .emplace 7 "value" .none)] : St Nat String String).size = 1 := by decide +kernel
-- test/detail/hashtable.cc:62-87
example : rets cfg0 [(ms 0, .emplace 7 "value 1" .none), (ms 0, .emplace 7 "value 2" .none), (ms 0, .getIfExists 7)] =
    [.unit, .unit, .val "value 2"] := by decide +kernel
-- test/detail/hashtable.cc:89-94
example : rets cfg0 [(ms 0, .getIfExists 7)] = [.miss] := by decide +kernel

/-- test/detail/hashtable.cc:98-100, 114-116. -/
def three : Hist Nat String String :=
  [(ms 0, .emplace 1 "value_1" .none), (ms 0, .emplace 2 "value_2" .none), (ms 0, .emplace 3 "value_3" .none)]

-- test/detail/hashtable.cc:96-110
example : rets cfg0 (three ++ [(ms 0, .getIfExists 1), (ms 0, .getIfExists 2), (ms 0, .getIfExists 3)]) =
    [.unit, .unit, .unit, .val "value_1", .val "value_2", .val "value_3"] := by decide +kernel
-- test/detail/hashtable.cc:112-130
example : rets cfg0 (three ++ [(ms 0, .erase 3), (ms 0, .getIfExists 3), (ms 0, .getIfExists 1), (ms 0, .getIfExists 2)]) =
    [.unit, .unit, .unit, .unit, .miss, .val "value_1", .val "value_2"] := by decide +kernel

/-! ## detail/queue.cc -/

/-- The queue after `on_create_` of the elements 0 .. n-1, and the elements strengthened by that.  test/detail/queue.cc:107-111. -/
def created (n : Nat) : BQ × List Nat :=
  (List.range n).foldl (fun p v => let r := p.1.onCreate v; (r.1, p.2 ++ r.2.toList)) (BQ.init, [])

-- test/detail/queue.cc:82-102: a new element is not strengthened
example : [1, 2, 3].map (fun n => ((created n).1.q.length, (created n).1.ub, (created n).2.contains (n - 1))) =
    [(1, false, false), (2, false, false), (3, false, false)] := by decide +kernel
-- test/detail/queue.cc:104-118: the first of two elements becomes hot, and strong
example : (created 2).2 = [0] := by decide +kernel
-- test/detail/queue.cc:159-175: only the cold one of the two is thrown out
example : (created 2).1.victims 5 = [1] := by decide +kernel
-- test/detail/queue.cc:198-215: unlinking one after the other never goes wrong
example : ((List.range 8).foldl BQ.onUnlink (created 8).1).ub = false := by decide +kernel
example : ((List.range 8).foldl BQ.onUnlink (created 8).1).q = [] := by decide +kernel

/-- The cache of the next two tests, after adding two values.  test/detail/queue.cc:161-166. -/
def two (w : Bool) : St Nat Nat Nat :=
  stateAfter { cfgP with weaken := w, maxSize := some 2 } [(ptrs [], .emplace 0 0 .none), (ptrs [], .emplace 1 1 .none)]

-- test/detail/queue.cc:159-175: hot elements are left alone, cold ones expire
example : (evictAll { cfgP with weaken := false } (two false) ((two false).bq.victims 5)).ents.map (·.mapped) = [.value 0, .gone] := by
  decide +kernel
-- test/detail/queue.cc:177-196: with `weaken_policy` they are weakened
example : (evictAll cfgP (two true) ((two true).bq.victims 5)).ents.map (·.mapped) = [.value 0, .weak 1] := by decide +kernel

/-! ## detail/pending.cc and detail/mapped_type.cc -/

/-- Nothing is alive, or everything.  test/detail/mapped_type.cc:490. -/
def env (alive : Bool) : Env String := { now := ⟨0, 0⟩, alive := fun _ => alive }

/-- The six things that the tests look at: `pending`, `expired`, `holds_error`, `holds_value`, `get(true_type)`,
`get(false_type)`.  test/detail/mapped_type.cc:29-36. -/
def look (e : Env String) (m : Mapped String String) : (Bool × Bool × Bool × Bool) × (Look String String × Look String String) :=
  ((m.isPending, m.expired e, m.holdsError, m.holdsValue e), (m.get e true, m.get e false))

/-- A new lookup.  test/detail/pending.cc:28, test/detail/mapped_type.cc:27. -/
def pend : Mapped String String := .pending {}

/-- `assign` or `assign_error`.  test/detail/mapped_type.cc:74. -/
def assign (ptr : Bool) (r : Res String String) (m : Mapped String String) : Mapped String String := completed { cfg0 with ptr } r m

-- test/detail/pending.cc:27-37, 39-50 and 52-58
example : pend = .pending { cbs := [], expired := false, weakened := false } := rfl
example : pend.weaken false = .pending { weakened := true } := rfl
example : (pend.weaken false).strengthen (env true) = pend := rfl
example : ((pend.weaken false).strengthen (env true)).strengthen (env true) = pend := rfl
example : pend.expired (env true) = false ∧ (pend.markExpired : Mapped String String).expired (env true) = true := ⟨rfl, rfl⟩
-- test/detail/pending.cc:60-84: a callback is called once
example : (outsOf { cfg0 with resolver := .async } [(ms 0, .asyncGet 1 7 .later), (ms 0, .complete 0 (.ok "yay")), (ms 0, .complete 0 (.ok "yay"))]).map
    (·.fired) = [[], [(7, (.ok "yay" : Res String String))], []] := by decide +kernel
-- test/detail/pending.cc:86-127: but not when the lookup was cancelled
example : (pend.addCb (.user 7)).cbs = [.user 7] ∧ (pend.addCb (.user 7)).cancel.cbs = [] := ⟨rfl, rfl⟩
example : (outsOf { cfg0 with resolver := .async } [(ms 0, .asyncGet 1 7 .later), (ms 0, .drop 0), (ms 0, .complete 0 (.ok "oops"))]).map
    (·.fired) = [[], [], ([] : List (Nat × Res String String))] := by decide +kernel

-- test/detail/mapped_type.cc:26-37, 39-50, 52-63 and the same for pointers
example : look (env false) pend = ((true, false, false, false), (.pend, .none)) := rfl
example : look (env false) (.value "bla") = ((false, false, false, true), (.val "bla", .val "bla")) := rfl
example : look (env false) (.error "e") = ((false, false, true, false), (.err "e", .err "e")) := rfl
-- test/detail/mapped_type.cc:65-86 and the same for pointers: `pending_assign`
example : ∀ ptr, look (env false) (assign ptr (.ok "bla") pend) = ((false, false, false, true), (.val "bla", .val "bla")) := by
  intro ptr; cases ptr <;> rfl
-- `pending_assign_when_expired`
example : ∀ ptr, look (env true) (assign ptr (.ok "bla") pend.markExpired) = ((false, true, false, false), (.none, .none)) := by
  intro ptr; cases ptr <;> rfl
-- `pending_assign_when_weakened`, values
example : look (env true) (assign false (.ok "bla") (pend.weaken false)) = ((false, true, false, false), (.none, .none)) := rfl
-- test/detail/mapped_type.cc:459-481, pointers
example : look (env true) (assign true (.ok "bla") (pend.weaken true)) = ((false, false, false, true), (.val "bla", .val "bla")) := rfl
-- test/detail/mapped_type.cc:485-502
example : look (env false) (assign true (.ok "bla") (pend.weaken true)) = ((false, true, false, false), (.none, .none)) := rfl
-- `pending_assign_error`, also when expired and when weakened (504-573 for pointers)
example : ∀ ptr, look (env true) (assign ptr (.err "e") pend) = ((false, false, true, false), (.err "e", .err "e")) := by
  intro ptr; cases ptr <;> rfl
example : ∀ ptr, look (env true) (assign ptr (.err "e") pend.markExpired) = ((false, true, false, false), (.none, .none)) := by
  intro ptr; cases ptr <;> rfl
example : ∀ ptr, look (env true) (assign ptr (.err "e") (pend.weaken ptr)) = ((false, true, false, false), (.none, .none)) := by
  intro ptr; cases ptr <;> rfl
-- `with_value_weaken`: values expire; pointers (575-606) only when the last reference goes away
example : look (env true) ((Mapped.value "bla").weaken false) = ((false, true, false, false), (.none, .none)) := rfl
example : look (env true) ((Mapped.value "bla").weaken true) = ((false, false, false, true), (.val "bla", .val "bla")) := rfl
example : look (env false) ((Mapped.value "bla").weaken true) = ((false, true, false, false), (.none, .none)) := rfl
-- `with_value_expire`, `with_error_weaken` and `with_error_expire`
example : look (env true) (Mapped.value "bla").markExpired = ((false, true, false, false), (.none, .none)) := rfl
example : ∀ ptr, look (env true) ((Mapped.error "e").weaken ptr) = ((false, true, false, false), (.none, .none)) := fun _ => rfl
example : look (env true) (Mapped.error "e").markExpired = ((false, true, false, false), (.none, .none)) := rfl

/-! ## detail/refcount.cc -/

open Refcount in
/-- The pointers held by the variables, and whether the objects are alive.  test/detail/refcount.cc:110-112. -/
def refs (os : List Refcount.Op) (xs objs : List Nat) : Option (List (Option (Option Nat)) × List Bool) :=
  (Refcount.run {} os).map (fun s => (xs.map s.get, objs.map s.alive))

-- test/detail/refcount.cc:107-121: freed when the pointer is destroyed
example : refs [.alloc 1] [1] [0] = some ([some (some 0)], [true]) := by decide +kernel
example : refs [.alloc 1, .dtor 1] [1] [0] = some ([none], [false]) := by decide +kernel
-- test/detail/refcount.cc:123-134
example : refs [.alloc 1, .reset 1] [1] [0] = some ([some none], [false]) := by decide +kernel
-- test/detail/refcount.cc:136-161: two pointers, freed once, when the second goes
example : refs [.alloc 1, .copy 2 1] [1, 2] [0] = some ([some (some 0), some (some 0)], [true]) := by decide +kernel
example : refs [.alloc 1, .copy 2 1, .dtor 2] [1, 2] [0] = some ([some (some 0), none], [true]) := by decide +kernel
example : refs [.alloc 1, .copy 2 1, .dtor 2, .dtor 1] [1, 2] [0] = some ([none, none], [false]) := by decide +kernel
-- test/detail/refcount.cc:163-188
example : refs [.alloc 1, .move 2 1] [1, 2] [0] = some ([some none, some (some 0)], [true]) := by decide +kernel
example : refs [.alloc 1, .move 2 1, .dtor 2, .dtor 1] [1, 2] [0] = some ([none, none], [false]) := by decide +kernel
-- test/detail/refcount.cc:190-240, with a second object that is given up
example : refs [.alloc 2, .alloc 1, .copyAssign 2 1] [1, 2] [0, 1] = some ([some (some 1), some (some 1)], [false, true]) := by decide +kernel
example : refs [.alloc 2, .alloc 1, .moveAssign 2 1] [1, 2] [0, 1] = some ([some none, some (some 1)], [false, true]) := by decide +kernel
-- test/detail/refcount.cc:89-105: a reference given up and taken over again
example : refs [.alloc 1, .release 1, .alloc 2, .adopt 2 0, .dtor 2] [1, 2] [0, 1] = some ([some none, none], [false, false]) := by decide +kernel

/-! ## detail/meta.cc -/

open Meta in
-- test/detail/meta.cc:27, with `a` = 0, `b` = 1, `c` = 2, `d` = 3
example : extend [0] [[1], [2, 3]] = [0, 1, 2, 3] := by decide +kernel
-- test/detail/meta.cc:30-35
example : Meta.hasType [0, 1] 2 = false ∧ Meta.hasType [0, 1] 0 = true := by decide +kernel
-- test/detail/meta.cc:38-40
example : Meta.remove [0, 1, 2] 1 = [0, 2] ∧ Meta.remove [0, 1] 3 = [0, 1] ∧ Meta.remove [0, 1, 1, 0] 0 = [1, 1, 0] := by decide +kernel
-- test/detail/meta.cc:43-45
example : Meta.removeAll [0, 1, 2] 1 = [0, 2] ∧ Meta.removeAll [0, 1] 3 = [0, 1] ∧ Meta.removeAll [0, 1, 1, 0] 0 = [1, 1] := by decide +kernel
-- test/detail/meta.cc:48, 51, 54
example : Meta.distinct [0, 1, 1, 2, 2, 1, 0] = [0, 1, 2] := by decide +kernel
example : Meta.reverse [0, 1, 2, 3] = [3, 2, 1, 0] := by decide +kernel
example : Meta.filter [0, 1, 0, 2, 3] (· = 0) = [0, 0] := by decide +kernel

/-! ## detail/basic_hashtable.cc -/

open Chain in
/-- A table with `n` buckets, elements 0, 1, ... linked with the given hash codes.
test/detail/basic_hashtable.cc:151-156. -/
def table (n : Nat) (hs : List Nat) : Option Tab :=
  hs.zipIdx.foldl (fun c p => c.bind (fun c => c.link p.1 p.2)) ((Tab.init 100 (fun _ => none) (fun _ => 0)).rehash n)

-- test/detail/basic_hashtable.cc:98-105
example : (Chain.Tab.init 100 (fun _ => none) (fun _ => 0)).size = 0 ∧ (Chain.Tab.init 100 (fun _ => none) (fun _ => 0)).slots.length = 0 := ⟨rfl, rfl⟩
-- test/detail/basic_hashtable.cc:108-126
example : (table 1 []).bind (fun c => (c.rehash 2).map (fun d => (c.slots.length, d.slots.length))) = some (1, 2) := by decide +kernel
-- test/detail/basic_hashtable.cc:129-145
example : (table 1 [0]).bind (fun c => c.visitAll.map (fun l => (l, c.size))) = some ([0], 1) := by decide +kernel
example : (table 1 [0]).bind (·.beforeEnd) = some (.node 0) := by decide +kernel
example : (table 1 [0]).bind (fun c => c.incr c.beforeBegin) = some (some (.node 0)) := by decide +kernel
example : (table 1 [0]).bind (fun c => c.incr (.node 0)) = some none := by decide +kernel
-- test/detail/basic_hashtable.cc:148-169
example : (table 1 [0, 0, 0]).bind (·.visitAll) = some [0, 1, 2] := by decide +kernel
-- test/detail/basic_hashtable.cc:172-188
example : ((table 1 [0, 1, 2]).bind (fun c => (c.rehash 3).bind (·.visitAll))).map (·.isPerm [0, 1, 2]) = some true := by decide +kernel
-- test/detail/basic_hashtable.cc:192-208
example : (table 1 [0, 0, 0]).bind (fun c => (c.rehash 3).bind (·.visitAll)) = some [0, 1, 2] := by decide +kernel
-- test/detail/basic_hashtable.cc:210-240
example : (table 1 [0, 0, 0]).bind (fun c => (c.unlink c.beforeBegin).bind (fun c => c.1.visitAll)) = some [1, 2] := by decide +kernel
example : (table 1 [0, 0, 0]).bind (fun c => (c.unlink c.beforeBegin).bind (fun c => (c.1.unlink (.node 1)).bind (fun c => c.1.visitAll))) =
    some [1] := by decide +kernel
example : (table 1 [0, 0, 0]).bind (fun c => (c.unlink c.beforeBegin).bind (fun c => (c.1.unlink (.node 1)).bind
    (fun c => (c.1.unlink c.1.beforeBegin).bind (fun c => c.1.visitAll)))) = some [] := by decide +kernel
-- test/detail/basic_hashtable.cc:242-258
example : (table 3 [0, 1, 2]).map (fun c => [0, 1, 2].map c.bucketFor) = some [0, 1, 2] := by decide +kernel
-- test/detail/basic_hashtable.cc:260-318
example : (table 3 [0, 0, 1, 1, 2, 2]).map (fun c => (c.visitAll, c.visitBucket 0, c.visitBucket 1, c.visitBucket 2)) =
    some (some [0, 1, 2, 3, 4, 5], some [0, 1], some [2, 3], some [4, 5]) := by decide +kernel

/-- A table with the limit `p / q` for its load, after adding `n` elements.  test/detail/basic_hashtable.cc:358-364. -/
def loaded (p q n : Nat) : Grow.Tab := (List.range n).foldl (fun t _ => t.link 0) (Grow.Tab.init p q (2 ^ 60))

-- test/detail/basic_hashtable.cc:346-354
example : ((loaded 1 1 0).reserve 1000 0).b = 1000 ∧ ((loaded 1 2 0).reserve 1000 0).b = 2000 := by decide +kernel
-- test/detail/basic_hashtable.cc:356-371: the load is at most 1
example : (loaded 1 1 6).n = 6 ∧ (loaded 1 1 6).b = 8 := by decide +kernel
-- test/detail/basic_hashtable.cc:373-388 claims that the load is at most 1/10.  It is, but only after each element doubled the buckets once.
example : (List.range 7).map (fun n => (loaded 1 10 n).b) = [0, 4, 8, 16, 32, 64, 64] := by decide +kernel
-- test/detail/basic_hashtable.cc:390-410
example : (List.range 7).map (fun n => (loaded 10 1 n).b) = [0, 4, 4, 4, 4, 4, 4] := by decide +kernel

/-! ## detail/linked_list.cc -/

/-- Elements in the order of `succ_`, and against it; the list is at address 100.
test/detail/linked_list.cc:160-220. -/
def contents (h : Option DL.Heap) (n : Nat) : Option (List (Option Nat) × List (Option Nat)) := h.map fun H =>
  let go (f : Nat → Option Nat) := (List.range n).foldl (fun p _ => let x := p.1.bind f; (x, p.2 ++ [x])) (some 100, [])
  ((go H.succ).2, (go H.pred).2)

/-- An empty list at address 100.  test/detail/linked_list.cc:28. -/
def list0 : DL.Heap := DL.ctor ⟨fun _ => none, fun _ => none⟩ 100
/-- `link_back` of some elements.  test/detail/linked_list.cc:53-55. -/
def back (es : List Nat) : Option DL.Heap := es.foldl (fun h e => h.bind (fun H => DL.linkBack H 100 e)) (some list0)
/-- The list has just these elements, read in either direction.  test/detail/linked_list.cc:56-59. -/
def shows (h : Option DL.Heap) (es : List Nat) : Bool :=
  decide (contents h (es.length + 1) = some (es.map some ++ [some 100], es.reverse.map some ++ [some 100]))

-- test/detail/linked_list.cc:31-35
example : DL.empty list0 100 = true ∧ shows (some list0) [] = true := by decide +kernel
-- test/detail/linked_list.cc:37-48
example : shows ([2, 1, 0].foldl (fun h e => h.bind (fun H => DL.linkFront H 100 e)) (some list0)) [0, 1, 2] = true := by decide +kernel
-- test/detail/linked_list.cc:50-61, also :160-220 (iteration both ways)
example : shows (back [0, 1, 2]) [0, 1, 2] = true ∧ (back [0, 1, 2]).map (fun H => DL.empty H 100) = some false := by decide +kernel
-- test/detail/linked_list.cc:63-74 and 76-87
example : shows ((back [0, 2]).bind (fun H => DL.linkBefore H 2 1)) [0, 1, 2] = true := by decide +kernel
example : shows ((back [0, 2]).bind (fun H => DL.linkAfter H 0 1)) [0, 1, 2] = true := by decide +kernel
-- test/detail/linked_list.cc:89-132: first, last and middle element; the result is the position after it
example : ((back [9, 0, 1]).bind (fun H => DL.unlink H 9)).map (fun r => (shows (some r.1) [0, 1], r.2)) = some (true, 0) := by decide +kernel
example : ((back [0, 1, 9]).bind (fun H => DL.unlink H 9)).map (fun r => (shows (some r.1) [0, 1], r.2)) = some (true, 100) := by decide +kernel
example : ((back [0, 9, 1]).bind (fun H => DL.unlink H 9)).map (fun r => (shows (some r.1) [0, 1], r.2)) = some (true, 1) := by decide +kernel
-- test/detail/linked_list.cc:134-142
example : ((back [9]).bind (fun H => DL.unlink H 9)).map (fun r => (shows (some r.1) [], r.2, DL.empty r.1 100)) = some (true, 100, true) := by decide +kernel

/-! ## asio/resolver_policy.cc and asio/refresh_policy.cc -/

-- test/asio/resolver_policy.cc:35-63
example : (outsOf { cfg0 with resolver := .async } [(ms 0, .asyncGet 3 0 (.now (.ok (xs 3))))]).map (fun o => (o.fired, o.calls)) =
    [([(0, (.ok "xxx" : Res String String))], [(3, 0)])] := by decide +kernel
-- test/asio/resolver_policy.cc:65-91: two callbacks, one call of the resolver, which runs later
example : (outsOf { cfg0 with resolver := .async } [(ms 0, .asyncGet 3 0 .later), (ms 0, .asyncGet 3 1 .later), (ms 0, .complete 0 (.ok (xs 3)))]).map
    (fun o => (o.fired, o.calls)) =
    [([], [(3, 0)]), ([], []), ([(0, (.ok "xxx" : Res String String)), (1, .ok "xxx")], [])] := by decide +kernel

-- test/asio/refresh_policy.cc:44-76: delay 1 s, idle 3 s
example : (Timers.runT { cfg0 with resolver := .async, refresh := some (1000, 3000) } {}
    [(ms 0, .op (.asyncGet 3 0 (.now (.ok "xxx")))), (ms 1000, .expire 0), (ms 1000, .handler 0 (.err "") (.now (.ok "yyy"))),
     (ms 1500, .op (.asyncGet 3 1 .later)),
     -- the timer of the new value; the value that replaces it is refreshed until nobody has asked for three seconds
     (ms 2000, .expire 1), (ms 2000, .handler 1 (.err "") (.now (.ok "yyy")))]).2.map (fun o => (o.fired, o.calls)) =
    [([(0, (.ok "xxx" : Res String String))], [(3, 0)]), ([], []), ([], [(3, 1)]), ([(1, .ok "yyy")], []), ([], []), ([], [(3, 2)])] := by
  decide +kernel

end Hoard.RepoTests
