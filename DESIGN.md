# libhoard: formal model and proofs

Source: `/repo` (nahratzah/libhoard, C++17 headers under `include/libhoard`), read as text, never built or run.
Prover: Lean 4.33.0 in `/verif/lean`, built with `lake build`. Only `Verif.Floats` and the modules that depend on it import Mathlib (logarithms and rounding of rationals, and tactics).

* `properties.jsonl`: the properties in English.
* `MANIFEST.json`: property to theorem names.
* `lean/Verif/Props/*.lean`: the property theorems, with concrete cases (`example`) beside them.
* `lean/Verif/Spec/*.lean`: the small specifications the theorems refer to.
* `seeded/LOG.jsonl`: wrong versions of the model, and which theorems noticed.

## Trusted base

* Lean's kernel.
* Axioms: every theorem depends on at most `propext`, `Classical.choice` and `Quot.sound` (checked with
  `#print axioms`, and by `vcheck`). No axiom is added, no proof is left open, nothing is proved by running compiled code.
* That the model below says what the C++ says (in `Verif.Construct` also which overload C++ selects). Every definition cites the lines it was read from.
  `Verif.RepoTests` runs the library's own unit tests (`/repo/test`) on the model: 105 `example`s, all of them agree. They test the model, they are not proofs of properties.
* That the specifications (`Spec/`, and the definitions used in theorem statements) say what the English says.

## Layers of the model

| layer | Lean module | code |
|---|---|---|
| singly linked chain + bucket array, pointer level | `Verif.Chain` | `detail/basic_hashtable.ii` |
| bucket count arithmetic | `Verif.Grow` | `detail/basic_hashtable.ii:318-427` |
| intrusive doubly linked list, pointer level | `Verif.DList` | `detail/linked_list.ii` |
| hot/cold recency queue | `Verif.Queue` | `detail/queue.ii` |
| `pending`, `mapped_value`, `mapped_pointer` | `Verif.Mapped` | `detail/pending.ii`, `detail/mapped_type.ii` |
| the cache: table + policies + API, `init`/`step`/`run` | `Verif.Cache` | `detail/hashtable.ii`, `detail/value_type.ii`, `*_policy.ii`, `cache.h`, `detail/cache_get.h`, `detail/refresh_impl_policy.ii` |
| counted pointers | `Verif.Refcount` | `detail/refcount.ii` |
| completion handles used by several threads | `Verif.Race` | `detail/async_resolver_callback.h` |
| the refresh thread: waiting, notification, stopping | `Verif.Worker` | `refresh_policy.ii:49-123`, `detail/hashtable.ii:477-480` |
| resolvers that use the cache themselves | `Verif.Nested` | `resolver_policy.ii:31-53`, `101-120`, `detail/hashtable.ii:567-595` |
| asynchronous resolvers that use the cache while they are called | `Verif.NestedAsync` | `resolver_policy.ii:80-93`, `detail/hashtable.ii:597-642` |
| refreshing by timers | `Verif.Timers` | `asio/refresh_policy.ii` |
| handlers that use the cache during a completion | `Verif.Handlers` | `asio/resolver_policy.h:117-150`, `detail/async_resolver_callback.h:29-60`, `detail/mapped_type.ii:32-48`, `221-263`, `detail/pending.ii:15-42` |
| lock and schedules | `Verif.Threads` | `thread_safe_policy.*`, `thread_unsafe_policy.h`, `cache.h` |
| the whole cache with pointers, counters and intrusive queues, `init`/`step`/`run` | `Verif.PQueue`, `Verif.Machine` | all of the above, executed on memory |
| type lists and policy selection | `Verif.Meta` | `detail/meta.h`, `detail/hashtable.h`, the `dependencies` and `value_base` members of all policies |
| iterators of the list, self-check of the queue | `Verif.QueueCheck` | `detail/linked_list.ii:8-24`, `90-234`, `detail/queue.ii:62-83` |
| calls of the hash function and the comparison | `Verif.Compare` | `detail/hashtable.ii:487-562`, `567-608`, `660-698`, `768-866`, `detail/value_type.ii:82-98` |
| events sent to the policies of any list | `Verif.Dispatch` | `detail/hashtable.ii:33-275`, `897-904`, `detail/value_type.ii:9-25`, `113-124`, `max_age_policy.ii`, `expire_at_policy.ii`, `max_size_policy.ii`, `refresh_policy.ii:24-76`, `asio/refresh_policy.ii`, `detail/refresh_impl_policy.ii:36-40` |
| entries of sets | `Verif.SetEntry` | `detail/value_type.h:85-130`, `detail/value_type.ii:178-257` |
| function references | `Verif.FnRef` | `detail/function_ref.h`, `detail/function_ref.ii` |
| calls that policies see | `Verif.Events` | `detail/hashtable.ii:33-275` (as called in 477-795), `detail/async_resolver_callback.h:29-60` |
| the same while resolvers and handlers use the cache | `Verif.EventsNested` | `detail/hashtable.ii:567-642`, `resolver_policy.ii:31-93`, `detail/async_resolver_callback.h:29-60` |
| the same when calls fail | `Verif.EventsFail` | `detail/hashtable.ii:514-642`, `660-698`, `resolver_policy.ii:31-93`, `detail/async_resolver_callback.h:29-60`, `detail/basic_hashtable.ii:403-409` |
| moving the recency queue | `Verif.QueueMove` | `detail/queue.h:42-47`, `77-79`, `detail/queue.ii:11-83`, `detail/linked_list.ii:36-44` |
| allocators of counted pointers and their failures | `Verif.RefAlloc` | `detail/refcount.ii:14-216`, `detail/hashtable.ii:944-953` |
| constructors: which argument configures what, which constructor runs | `Verif.Construct` | `cache.h:30-33`, `detail/hashtable.ii:7-32`, `205-209`, `451-475` |
| several cache objects: copies, moves, assignment, destruction | `Verif.Objects` | `cache.h:30-33`, `92`, and the members the compiler adds |
| threads that share a cache, use handles and destroy it | `Verif.Lifetime` | `cache.h:92`, `detail/async_resolver_callback.h:25-79`, `detail/hashtable.ii:212-214`, `478-480`, `945-953`, `refresh_policy.ii:86-94` |
| calls that fail: values that cannot be made, functors that throw, allocations that fail | `Verif.Throw` | `resolver_policy.ii:31-53`, `80-148`, `detail/async_resolver_callback.h:25-73`, `detail/mapped_type.ii:32-48`, `221-263`, `detail/hashtable.ii:567-642` |
| member pointers | `Verif.Member` | `detail/mapped_type.ii:165-444`, `pointer_policy.h:100-176` |
| the example program | `Verif.Fibonacci` | `examples/fibonacci/fibonacci.cc` |
| cost of the loops over the bucket array | `Verif.Cost` | `detail/basic_hashtable.ii:178-233`, `378-415` |
| bucket arrays and the allocator | `Verif.Arrays` | `detail/basic_hashtable.ii:51-66`, `192-213`, `318-428` |
| refreshes that fail | `Verif.RefreshFail` | `detail/refresh_impl_policy.ii:52-89`, `asio/refresh_policy.ii:57-66`, `refresh_policy.ii:95-123`, `resolver_policy.ii:31-53`, `80-93` |
| times in 64 bits | `Verif.MachineTime` | `max_age_policy.ii:17-39`, `max_age_policy.h:31-46`, `refresh_policy.ii:41-75`, `refresh_policy.h:25-65`, `detail/refresh_impl_policy.ii:64` |
| entries looked at | `Verif.Visits` | `detail/hashtable.ii:487-562`, `644-698`, `713-719`, `768-931`, `detail/basic_hashtable.ii:402-415`, `detail/queue.ii:95-110`, `max_size_policy.ii:16-20` |
| starting and stopping the threads of policies | `Verif.Start` | `detail/hashtable.ii:163-193`, `211-214`, `254-280`, `451-469`, `refresh_policy.ii:78-93`, `detail/meta.h:124-161` |
| what waiters are given | `Verif.Futures` | `detail/pending.ii:20-42`, `detail/hashtable.ii:617-626`, `resolver_policy.ii:123-148` |
| executors | `Verif.Executors` | `asio/resolver_policy.h:70-84`, `117-150` |
| memory order of reference counts | `Verif.Order` | `refcount.ii:6-12`, `195-206` |
| load factors in single precision | `Verif.Floats` | `detail/basic_hashtable.ii:47-49`, `355-415` |
| calls left in the middle of a walk: comparisons and copies that throw | `Verif.Abort` | `detail/hashtable.ii:514-565`, `660-698`, `768-795`, `cache.h:56-89` |

How the layers connect:
* `Verif.Machine` executes every operation of `Verif.Cache` on `Verif.Chain`, `Verif.PQueue` (over `Verif.DList`) and counted entries.
  Undefined behaviour is a separate outcome (`none`). `PSim.step` proves that each operation of `Verif.Machine` is defined and
  does what `Verif.Cache` says (C49), so all properties of `Verif.Cache` hold of the pointers too.
* `Verif.Cache` works on `buckets : List (List Entry)`. `Props/HashChain` proves that the pointer operations of
  `Verif.Chain` act on the buckets in exactly this way.
* `Verif.Cache` uses `Verif.Queue`, whose list operations are those that `Props/LinkedList` proves for `Verif.DList`.
* `C27_models_agree` connects `Verif.Grow` with the growth of `Verif.Cache`, and `C101_same_table` with the arrays of `Verif.Arrays`.
* `C105_models_agree` connects `Verif.Floats` with insertions in `Verif.Cache`.
* Theorems with a limit `p/q` (C27, C44, C90, C93, C101, C104) compare exactly; what `float` does instead is C105.
* `C37_results_of_a_sequential_history` connects `Verif.Threads` with `Verif.Cache`.
* `Verif.Worker` uses the state and operations of `Verif.Cache`; its invariant contains that the state is the one after the logged history.
* `Verif.Nested` uses the state and operations of `Verif.Cache` and of `Verif.Machine`; `C57_flat_call_is_one_step` says that calls that do not nest are those of `Verif.Cache`.
* `Verif.Handlers` uses the state and operations of `Verif.Cache` and a stack of completions that are under way; a completion is a step that begins it, one step for each callback, and a step that ends it. Undefined behaviour and termination are outcomes.
* `Verif.NestedAsync` uses the state and operations of `Verif.Cache` and a stack of functors that are running; `C66_simple_functors` says that functors that do no more than complete or drop their own lookup are those of `Verif.Cache`.
* `Verif.Timers` uses the state and operations of `Verif.Cache`; the delay queue stands for the set of running timers.
* `Verif.Objects` uses `Verif.Construct` and the state and operations of `Verif.Cache`; `C71_copies_are_one_cache` says that each table sees a history of `Verif.Cache`.
* `Verif.Lifetime` stands apart: its table has no more than lookups in flight and their callbacks. What operations do to the contents is in `Verif.Threads`, two threads on one handle in `Verif.Race`, the worker's waits in `Verif.Worker`.
* `Verif.Throw` uses the state and operations of `Verif.Cache` and adds failing variants of the lookups and of the delivery, handles whose lookup is gone, and the end of the program.
* `Verif.Member` is the entry of `Verif.Mapped` with a conversion in both directions; C85 compares the two for any sequence of calls on one entry.
* `Verif.Meta` justifies two facts `Verif.Cache` builds in: errors always count as expired, and one lock.
* `Verif.Dispatch` sends each event to every policy that `Verif.Meta` selects; `C96_cache_does_what_the_policies_do` says that the events of `Verif.Cache`, which are written out for its options, do the same.

## What is modelled, and how

`Verif.Cache` is a state machine: `step cfg env state op` gives the new state and everything visible (return value,
callbacks invoked, callbacks destroyed without being invoked, resolver calls, whether a value was constructed).
* `cfg` has the hash and equality functions, the size limit, the age limits for values and errors, weakening,
  pointer or plain values, refresh delay and idle timer, the kind of resolver, the load factor test (an arbitrary function of
  entries and buckets, so any rounding of `float` is covered), and the maximal bucket count.
* `env` has what two clocks show and the set of objects that have an owner outside the cache. It may differ arbitrarily from step to step,
  unless a theorem asks for clocks that do not go back (`Mono`). One clock is `steady_clock`; the other is the clock of the age limits if
  that is not steady (`cfg.wall`), in which case each entry has a deadline on both.
* Operations: `get_if_exists`, `get` (without and with synchronous resolver), asynchronous `get`, `emplace`, `get_or_emplace`,
  `erase`, `clear`, `count`, delivery on and dropping of a completion handle, one round of the refresh worker, destruction.
  `emplace` and `get_or_emplace` take a failure point. The resolver may keep its handle, complete it or drop it during the call.
* `Cfg.Ok` is what the library requires of its parameters: equality is an equivalence, equal keys have equal hashes, the maximal
  bucket count is positive, and the idle timer is not negative.
* A theorem about a history quantifies over every list of operations of any length.

The specification of stored values is a ledger (`Spec/Ledger.lean`). It is computed from the operations and their visible
results only. It says for each key: the value last written, when, when it was last used, which lookup in flight would still count
as a write, and who waits for it.

Conditions that appear in theorems:
* `HistOk`: operations exist for the cache (no asynchronous `get` without asynchronous resolver) and nothing but
  handles is used after destruction.
* `NoEvictH`: no step leaves more entries than the size limit allows (or eviction only weakens pointers).
* `Mono`: neither clock goes back and destroyed objects do not come back.
* `Kept`: nothing writes or removes the key.

## What is not modelled

* Reuse of addresses by the allocator (`Verif.Machine` gives every entry a new address; since nothing dangles, C50, reuse would not be seen).
* Memory layout, allocators (apart from `Verif.Arrays` and `Verif.RefAlloc`), iterator invalidation and move-only types. Exceptions of copies made after a lookup. Apart from `Verif.Throw`, `Verif.RefreshFail` and `Verif.Abort`, exceptions
  occur only at the failure points of `emplace` and `get_or_emplace`, and as results of resolvers.
* `identity_t` as key type of a whole table (`Verif.SetEntry` has single entries). Member pointers are modelled for single entries (`Verif.Member`); elsewhere a member pointer is the pointer it was made from.
* More than two clocks: the refresh policy uses the steady clock, and the age limits for values and for errors use the same clock. `Verif.Dispatch` lifts this for
  the deadlines (C97), not for whole operations of the cache.
* In `Verif.Cache` nothing calls back into the cache, except that asynchronous resolvers may complete or drop their own handle. Three models lift this: in
  `Verif.Nested` synchronous resolvers may do anything while they run for a `get`, in `Verif.NestedAsync` asynchronous ones, and in `Verif.Handlers` completion handlers.
  The three are not combined, and a resolver that runs for a refresh does not use the cache.
* In `Verif.Cache` the rounds of the refresh worker are operations that any history may contain. `Verif.Worker` has its thread: start, both waits,
  notification, time-outs, spurious wake-ups and stopping. Other threads take whole operations as steps there.
* Of `asio/`: `refresh_policy` is modelled in `Verif.Timers`, with handlers in any order at any time after their timer ran out; the refresh function of `asio_refresh_fn_policy` is
  modelled only for the question whether reading its argument can fail (C62). Of `asio/resolver_policy.h`, the order in which
  results are stored and handlers run is modelled in `Verif.Handlers`, where a handler that is not run at once is a handler that does nothing; the handing over to executors is modelled in `Verif.Executors`, where handlers do nothing to the cache.
* The weak memory model of C++, but for the order of accesses to an entry and its destruction (`Verif.Order`): elsewhere threads interleave single accesses. Reads and writes of `called` are treated as atomic in `Verif.Race`.
* `float` in `Verif.Grow`, which has exact fractions; `Verif.Floats` has IEEE 754 binary32 with rounding to nearest and every operation rounded at once (no excess precision).
* Overflow of counters and sizes, and of time points except in `Verif.MachineTime`. There, all clocks count the same ticks, and none shows `time_point::max()`.

Simplifications are repeated at the definitions they concern.

## Properties

| id | how it is stated and proved | result |
|---|---|---|
| C01 | ledger; simulation by induction over the history (`InvAll`), for every configuration | proved |
| C02 | refinement to a map and to a memo table, induction over the history | proved |
| C03 | state unchanged, hence equal continuations; agreement with the other lookups | proved |
| C04 | exact condition: entries in the table after linking `< 2N` | partial, negation proved beyond |
| C05, C06, C07 | ledger; exact answer of `get_or_emplace` in every reachable state | proved |
| C08 | one operation, for all policies but the size limit; whole histories without asynchronous parts | proved |
| C09 | invariant on the live count using the queue invariant | proved |
| C10 | false for every limit | negation proved; a get adds at most its resolver calls |
| C11 | maintenance marks nothing within the limit; condition in terms of keys used | proved |
| C12, C13 | queue invariant by induction; victims are the cold tail in order; for the whole cache: a used value outlives insertions (`C12_hot_values_survive`, from C48) | proved |
| C14, C15, C16 | ledger times; monotonicity | proved |
| C17, C18 | decision theorem for `get` in every reachable state | proved |
| C19 | false for every selection of policies | negation proved |
| C20-C24 | invariant on handles and waiters | proved; C24 false when dropped inside the resolver (negation proved) |
| C25 | erase, lookup and growth remove dead values; false for abandoned lookups | partial, negation proved |
| C26 | refinement pointer chain to buckets | proved |
| C27 | arithmetic invariant | partial: limits from 1/4 on; for smaller ones exactly the numbers of entries with which the limit can be exceeded |
| C28 | refinement pointer list to sequence | partial: moving an empty list corrupts both, negation proved |
| C29 | exact except for the last element, for which it is false | partial, negation proved |
| C30 | ownership invariant | partial: not for `reset` on a shared object, negations proved |
| C31, C32 | ledger, liveness controlled by the environment | proved |
| C33-C35 | ledger, order invariant of the refresh queue | proved |
| C36 | failed refreshes drop the value; abandoned ones freeze it | partial, negation proved |
| C37 | every schedule has a sequential explanation in order of lock acquisition | proved |
| C38 | false for overlapping deliveries | partial, negation proved |
| C39, C40, C45 | lists of policies, well-founded recursion over dependencies | proved, with the exceptions proved to be real |
| C41 | failure as part of a step | proved |
| C42 | everything unlinked, waiters released, late deliveries refused | proved |
| C43 | uniqueness invariant | proved |
| C44 | arithmetic invariant | partial: with exact fractions; with rounding see C105 |
| C46 | induction over the lists | proved |
| C47 | conservation of callbacks: by counting each callback in the outputs and in the stored lookups (`Settle`) | proved |
| C48 | refinement: simulation between cache states and a nondeterministic recency list (`Spec.Lru`); the only nondeterminism is which dead items are swept when | proved |
| C49 | simulation between `Verif.Machine` and `Verif.Cache` (`PSim`), one lemma per function, induction over the history | proved |
| C50 | consequence of the simulation invariant; owners are counted from the pointers (`Spec.Memory`) | proved |
| C51 | from the walk of `get`: the entry found is strengthened (`hitUpd`) and not expired; any liveness afterwards | proved |
| C52 | count of strong references after `maintenance`, from the queue invariant; histories of any length with any number of owned objects | partial, negation proved |
| C53 | invariant over all schedules (`WInv`): the wait refers to the first of the queue or to nothing that is linked, and to a time not after any due time | proved |
| C54 | the number of entries due at the time of waking up decreases with each refresh | partial: delay above zero; negation proved for zero |
| C55 | invariant (`Calm`): entries of the queue are alive values and stay | partial, negation proved |
| C56 | case analysis on where the worker is when it is told to stop | partial, negations proved |
| C57 | ledger of C01 with a stack of running resolvers (`NGood`), induction over nested histories; provenance of every shown value without conditions | partial: resolvers that store nothing under running keys; negation proved |
| C58 | a key that was asked for stays known (stored or running), so it is not asked for again | partial: same condition; negation proved |
| C59 | the simulation of C49 for the halves of `get` | proved |
| C60 | the ledger of C01 over histories of timers and handlers (`TGood`); provenance of every shown value without conditions (`Held`) | partial: handlers that are not late; negations proved |
| C61 | one handler for each value (`TInv`), whatever the schedule; due and not forgotten from `TGood` | partial: same condition except for "once" |
| C62 | the entry of an open lookup is live exactly if the ledger counts it; nothing but completions with a value that are accepted ends the program | partial: exact condition; negation proved |
| C63 | a simulation: the state in the middle of completions is the plain state with the values being delivered not yet stamped (`Sim`) | partial: lookups that are current, no eviction, no refreshing, no retry for a failing key; each negation proved. Without use of the cache: proved for all |
| C64 | C63 and C11 | partial as C63 |
| C65 | accounting of waiters over the table and the completions under way (`HInv`): those a failing delivery has answered are still in its list; the list of a failing lookup does not change meanwhile | proved, without the conditions of C63; no refreshing |
| C66 | the state in nested calls is the plain state up to waiting callbacks (`Sim`), induction over nested histories of any depth, for every configuration | proved |
| C67 | accounting of each callback over outputs, stored lookups and running calls; provenance of every result by an invariant (`Who`) | proved |
| C68 | invariant: the result stays with the entry until the functor returns (`Has`, `In`) | partial: no eviction, and the key not erased before the completion; both negations proved |
| C69 | simulation: deadlines on the settable clock are at least the steady ones plus the present difference of the clocks (`Clock.ties`) | proved, with the negation for clocks set forward |
| C70 | decision logic: which argument each policy selects, for all lists | partial: arguments that no policy takes are ignored, not rejected (proved) |
| C71 | each table's log is a history of a single cache: invariant over programs | partial: `cache x(y)` with `y` not `const` is another cache (proved) |
| C72 | same invariant: destroyed iff no variable refers to the table | proved |
| C73 | invariants of all interleavings of any number of threads: who owns the table, who has the lock | proved |
| C74 | accounting of callbacks over the interleavings, with the destructor cancelling lookups step by step | partial: no handle used while the destructor runs; the negation proved |
| C75 | invariant and a measure that every step of a thread in the middle of something decreases | partial: the program ends if the refresh worker destroys the table (proved); no deadlock, and completion, proved for all |
| C76 | the ledger of C01 over histories with failing calls (`XGood`) | partial: no failed delivery leaves a refresh in place; negation proved |
| C77 | `get_if_exists` of every key before and after the failing call, from the same invariant | partial: same condition |
| C78 | the accounting of waiters of C21 over histories with failing calls | partial: same condition |
| C79 | counting of entries as in C43; histories of any length that leak | partial: values that are pointers, or deliveries that leave the lookup; negation proved for every other cache with an asynchronous resolver |
| C80 | exact condition, by case analysis of the calls and an invariant on the spoiled handles | proved |
| C81 | every operation commutes with renaming of values and errors (`step_rename`), by induction over histories | proved |
| C82 | same, for keys; hash codes and equality are kept | proved |
| C83 | same, for shifts of both clocks | proved |
| C84 | same, for names of waiters, not necessarily different | proved |
| C85 | refinement between entries with and without member pointers, over any sequence of calls | partial: storing and reading back a second time changes nothing more; negation proved |
| C86 | two runs with different hash tables have the same ledger; outputs are a function of the ledger, the open lookups and the waiters | partial: size limit not exceeded, no rounds of the refresh worker, clocks do not go back; negations proved |
| C87 | simulation with a list of slots (`Spec/Reference.lean`), through the ledger; waiters by conservation | all histories, size limit not exceeded, no refreshing |
| C88 | composition of C37 (locks), C49 (pointers) and C87 (small cache); linearizability is carried over prefix by prefix | all schedules, all ways to cut operations into accesses, all histories |
| C89 | simulation on the small cache of C87, with a partial renaming of lookup numbers; carried over to the cache by C87 for both histories | histories without size limit and refresh, all resolvers and age limits |
| C90 | counting: every insertion first removes dead entries or finds room (`step_mv2`, `maybeRehash_shape`) | all histories, all load factor limits; lookups never answered must be counted, negation proved without them |
| C91 | C01 and the origin of every lookup: what is stored or delivered comes from one call of the resolver for an equal key; a memo table for the number of calls | all histories whose resolver computes a function, all configurations, synchronous and asynchronous |
| C92 | loop invariant (fast algorithm), strong induction (recursive algorithm), C91 for the cache | all arguments, all sizes of the integer type, all sequences of lookups, all hash functions; `main` as an instance |
| C93 | representation of buckets (C26), count of the run of empty buckets, induction over the entries and over the calls | all histories, hash codes and bucket counts; the lower bounds for every number of entries |
| C94 | invariant; the walk is split where it is left, order of entries with equal hash codes | all histories, all places where a call can be left |
| C95 | list reasoning over the selected policies | proved |
| C96 | the handlers of policies commute; fold over permuted lists; simulation of `Verif.Cache` event by event | proved |
| C97 | invariant of all runs of events: deadlines in terms of when the value was given and last used | proved |
| C98 | what each handler does to the time a refresh is due; induction over policies and events | proved |
| C99 | pointer-level queue against a sequence; iterators as walks over the links; induction over events | proved |
| C100 | traced walks with the same results as the modelled ones; invariant that entries have different keys | proved; negation for dropped lookups |
| C101 | invariant over all calls with failing allocations; accounting of array sizes; refinement of the bucket arithmetic | proved; negations for the null array and for `reserve` |
| C102 | invariant over all histories with failing refreshes; decision logic for the refresh thread | partial: no late handlers, no functor that keeps its handle and throws, no failed registration; negations for these |
| C103 | refinement of unbounded by 64-bit arithmetic; exact conditions for overflow | partial: only while the limits can be added; negations for limits meant as "for ever" |
| C104 | cost: instrumented loops, potential argument; self-sustaining invariant for the negation | partial: constant on average only for passes that remove nothing; negations for caches with a size limit |
| C105 | decision logic over binary32 arithmetic defined by rounding of rationals; simulation of `Verif.Cache`; error bounds | partial: the limit is kept in terms of the rounded numbers for limits of at least 1/4, room reserved is enough for powers of two; negations otherwise |
| C106 | induction over the list of policies | partial: a thread that cannot be started ends the program; that the failure is undone holds for the program without the `noexcept` |
| C107 | case analysis of the pair of value and error; transfer from a type of errors without the null one (C81) | partial: for histories without errors that count as none; negation otherwise |
| C108 | invariant over all interleavings of operations and executors; conservation of waiters (C21) | partial: handlers run in order if results are not delivered by threads of the executors; negation otherwise, and for functors that drop their handle |
| C109 | invariant: for every access, where the knowledge of it is (counter, a thread with a pointer, lock with a pointer in the table); happens-before as in the C++ standard | partial: ordered if decrements acquired, and in the code if the lock is held; negation with an execution |
| C110 | invariant on the recency list of C48: live items first, dead ones last, dead ones only if the live ones are as many as the limit; bound on the entries from C90 | partial: calls that only fill, fewer than `2 * N` entries (for the default load factor: limits from 3 on that are not 4, 8, 16, ...); negations with witnesses |
| C111 | equality of the two lookups by an invariant over all calls and all policy events; the times from C97 | partial: as long as no age limit or idle timer has run out; negations with witnesses |
| C112 | invariant: what is stored fits what was noted when the object was made; induction on the number of the object for calls; for nested lifetimes an invariant on what is needed | partial: copies of references that are not const (negation proved) |
| C113 | invariant: the notes a policy takes from the calls agree with the table; every operation is cut into segments that keep it | partial: pending lookups are not unlinked except by the destructor (negation proved) |
| C114 | the segments of C113, for the steps of resolvers, functors and handlers; values being delivered are an exception that the invariant carries | partial: handlers (negations proved) |
| C115 | the segments of C113 for calls that fail, with an invariant on callback objects that does without the restriction on refreshes; entries whose value could not be made are never among those that can be assigned | proved |
| C116 | refinement of queues at any address to the queue on lists of C13, with moves among the events | partial: moving an empty queue corrupts it, negation proved |
| C117 | invariant over all programs with failures at every place: blocks, counters, owners and `alloc_` agree | partial: `reset` of shared objects excluded as in C30 |

## Where the code disagrees with the properties or its documentation

Proved in the model:
1. A size limit is not enforced by gets that call the resolver: nothing calls `maintenance_` (C10).
2. The value just emplaced is evicted at once when the table then holds at least twice as many entries as allowed (C04). Dead entries
   that are still linked count.
3. `negative_cache_policy` and `error_max_age_policy` never make an entry keep an error (C19). `value_base` is a template there and the
   test is for the wrong class. README.md:289-320 says otherwise.
4. A resolver that drops its handle while it is being called leaves the waiter registered on a dead lookup until the cache is destroyed (C24).
5. The entry of an abandoned lookup stays linked until the cache is destroyed, and keeps counting for the load factor and the size limit (C25). A resolver that drops its callbacks makes the table grow without bound (`C90_dropped_lookups_pile_up`), and every later call for the key compares it with all those entries (`C100_dropped_lookups_are_compared`).
6. A refresh that is abandoned is never repeated; the value is then served for ever (C36).
7. Load factor limits below 1/4 are exceeded by the first insertion, and by insertions after `reserve(1)` (C27). With the limit `p/q`, histories with `n` entries can exceed it exactly if `n*q > p*2^(n+1)`.
8. Moving an empty `linked_list` corrupts both lists (C28).
9. `is_hashtable_linked` is false for the last element of the chain (C29).
10. `refcount_ptr::reset()` on a shared object leaves the pointer set; `reset(ptr)` destroys a shared object (C30). The library itself
    calls `reset(ptr)` only on null pointers.
11. Two overlapping deliveries: the second throws `bad_variant_access` (ending the program inside `noexcept`), and a value and a
    cancellation can both return true (C38).
12. A user-defined policy that depends on the default equality, hash or allocator policy gets it twice (C39).
13. Naming both lock policies, or the thread-unsafe one with a refresh policy, gives two locks (C40). The asio refresh policies do not ask for
    the lock (C40).
14. A size limit can evict a lookup in flight, after which the next get calls the resolver again (C20).
15. A failing synchronous refresh drops the old value (C36).
16. With weakening a size limit does not bound the objects the cache owns: hits on weakened entries take ownership again without a check, and weakened
    entries count as entries for the hot half (C52).
17. With a refresh delay of zero and a synchronous resolver the worker never gives the lock back (C54).
18. The timed wait of the worker refers to the due time inside an entry. If that entry is removed during the wait, and a value is stored, the worker
    reads freed memory (C55).
19. `~hashtable` clears the table without the lock and before the worker is stopped: it races with a refresh in progress (C56), and a worker woken up in
    between reads freed memory (C56).
20. A resolver that asks the cache for its own key, or inserts it, makes the table hold two entries for it. The later result is ignored by all later lookups (C57), and the
    resolver is called twice (C58).
21. A timer handler (`asio_refresh_policy`) that is queued when its value is erased or replaced calls the resolver all the same: the erased key comes back, or two values of the
    key compete, and an older one is shown for as long as it lives (C60). Cancelling a timer does not recall a handler that is queued.
22. `asio_refresh_fn_policy::on_assign_` reads `std::get<1>` inside `noexcept`: completing a lookup whose key was erased meanwhile ends the program (C62).
23. A completion handler that runs inside the completion can break the cache (C63). Asking again for the key whose failure it is told makes `async_get` append to the list of callbacks that is being
    iterated over (undefined). Storing enough to evict the entry leaves the remaining handlers with a reference to a destroyed value (undefined). With a refresh policy, erasing the key lets
    the end of the completion put the unlinked entry into the refresh queue. And during the completion of a lookup whose key was erased meanwhile, the value is visible to handlers, though it is not kept.
24. A functor of `async_resolver_policy` that erases its own key and then completes its lookup before it returns: the completion is accepted, but the caller's callback is destroyed without being
    invoked (C68; the `case 0` of hashtable.ii:620). The same if the result is evicted before the functor returns. Completing after the return answers the caller in both cases.
25. An age limit on a clock that can be set (the default, `system_clock`) hides values when the clock is set forward, and shows them again when it is set right, unless they were
    replaced meanwhile (C69).
26. The constructor ignores arguments no policy takes: a size limit given to a cache without `max_size_policy`, a load factor that is a `double` or not the first argument, an allocator that is not
    of the internal entry type of the cache (C70).
27. The constructor template takes arguments of any type, also a cache. `cache x(y)` with `y` not `const` makes another, empty cache with default policies (or does not compile, if a
    policy needs an argument), whereas `cache x = y` shares the contents (C71).
28. A handle that is used, or destroyed, after the last cache object was given up and while the destructor of the table runs on another thread: both cancel the lookup without the lock, a
    data race that destroys callbacks twice (C74).
29. A completion holds the table alive while it runs. If the refresh worker itself completes a lookup during a refresh, and the last cache object is destroyed meanwhile, the table is
    destroyed by its own worker, which then joins itself: the program ends (C75).
30. A delivery whose value cannot be made destroys the callbacks that wait; nobody is told (C78). What is left depends on the type of the value. Usually the variant of the entry holds nothing: a
    `mapped_value` then does not count as expired, so the entry stays in the table for good, even with a size limit (C79), unlike `mapped_pointer`, which checks for this case. The handle
    is not marked as used. Another `assign` throws `bad_variant_access`, and `assign_error` ends the program (C80).
31. With a synchronous resolver that is not `noexcept`, a value that cannot be made ends the program in this way: `assign` fails, and the exception handler calls `assign_error` (C80).
32. `hashtable::get` is `noexcept` if hash function, comparison and copying of values are, whatever the resolver does: a failing allocation then ends the program (C80).
33. If making the value of a refresh fails before the old contents of the variant are given up (scalars), the callback that would replace the old value is gone. The next delivery is accepted, but
    the old value goes on to be shown (C76).
34. The functor of a pointer policy with member pointers is applied again every time a weakened entry is found: `strengthen` builds the member pointer from the functor and the pointer that was read
    back. If the functor is not idempotent, the value changes each time (C85). `value_type::strengthen` is `noexcept` whatever the functor is.
35. Entries that are too old or were evicted are removed only in passing, by operations on keys of the same bucket, and count for the size limit until then. So which values are evicted depends on the hash function (C86).
36. Inserting is not cheap on average: the loops over the bucket array also change the places of the empty buckets that follow. With ascending hash codes (integers with the usual `std::hash`) `N` insertions cost
    at least `3 N² / 8` steps, mostly while the table grows (C93).
37. `emplace` removes the old value before it stores the new one, and a comparison that throws in between leaves the key without a value (C94). `erase` is `noexcept` (cache.h:57) although it calls the hash function
    and the comparison of the user: if one of them throws the program ends, where `get` lets the exception pass.
38. The first growth of a hash table gives a null pointer and size 0 back to its allocator (C101); `max_load_factor` and the destructor check for this, `rehash_` does not.
39. `reserve` asks for exactly the number of buckets needed: calling `reserve(size() + 1)` before each insertion makes a new array each time (C101).
40. A refresh that throws is not repeated: the value stays without further refreshes (asio timers), or the program ends (refresh thread; the code asks itself "should we swallow exceptions?") (C102).
41. If an asynchronous functor throws during a refresh but delivers a value later through the handle it kept, the old value hides the new one (C102).
42. The largest limits do not mean "for ever": with max_age(milliseconds::max()) or an idle timer of duration::max() the deadline overflows whenever a value is stored; it is undefined, and where signed numbers wrap the value is too old at once (C103).
43. A size limit is expensive. An entry that exceeds the limit is only marked as expired and stays in the table and in the recency queue. With max_size(2^i - 1) the table ends up with one bucket per entry and one expired entry, and nearly every insertion looks at the whole table to remove it; with max_size(2^i) each insertion marks all expired entries at the end of the queue again, up to the limit (C104).
44. The comment in `reserve` is right to worry about rounding: with a limit of 0.97 (as a `float`), reserve(127232) makes 131167 buckets, and the last of 127232 insertions grows the table all the same; with a limit of 0.45454544, reserve(5) is not enough for five. max_load_factor(0.97) with as many entries leaves the load factor above the limit (C105).
45. `reserve` converts to an integer before it takes the minimum with the maximal number of buckets. With the default limit this is undefined for the 2^39 largest arguments, with a limit of 0 for every argument. `max_load_factor(float)` checks that the number is finite, but not that it fits in 64 bits (C105).
46. The constructor of a hash table catches exceptions of the policies to stop what was started, but `base_invoke_` is `noexcept`: if the thread of the refresh policy cannot be started the program ends, and the handler never runs (C106).
47. Waiters are told a value and an error, and `get` takes the error for a failure only if it converts to true: `assign_error` with a null `exception_ptr`, or 0, gives them a value made by default (C107).
48. With asio, a request answered from the cache posts its handler, a completed lookup dispatches it: on one thread, a handler can see an older value after another has seen the newer one (C108).
49. A functor that drops its handle inside `async_get` leaves the callback, and with it a work guard, in the cache: `io_context::run` does not return until the cache is destroyed (C108, C24).
50. `refcount_dec` releases and does not acquire: the thread that drops the last pointer to an entry is not synchronised with what other threads did to it. A callback that has already assigned drops its pointer without the lock, so an entry erased by another thread is destroyed in a data race (C109).
51. Dead entries count for the size limit and are not evicted first: a cache for four values that has none loses the first of three values added, if erased and evicted entries are still in the table; a failed resolution has the same effect (C110).
52. Entries of sets do not ask the policies whether they are expired: an age limit or an idle timer has no effect (C111).
53. The constructor template of `function_ref` is a better match than the copy constructor for references that are not const: such a copy refers to the original and dangles when that is destroyed (C112). The cache only makes such copies for parameters, where this does no harm.
54. `detail/notes.txt` says that on_unlink is never done for entries in the pending state; the destructor does it, so policies are told that entries are unlinked that were never assigned (C113).
55. `on_assign_` is called after the completion handlers have run: policies can be told that an entry is assigned after they were told that it is unlinked, and handlers can find values that no policy was told of (C114). For the refresh policy this is the dangling queue entry of 23.
56. The move constructor of `basic_queue` corrupts an empty queue, and leaves a queue with entries with a midpoint in the new list: the old queue is empty, but adding to it changes the new one (C116).
57. `refcount_ptr::adopt` is `noexcept` and copies the allocator when the pointer is not null, which its own comment says may throw; a throwing copy ends the program (refcount.ii:153-168; read, not modelled). An assignment that fails at the allocator gives up the old object (C117).

Seen in the code and not modelled:
* Two refresh policies with different clocks, or `refresh_policy` together with one of `asio/`, do not compile: `vptr->cancel_tp` (refresh_policy.ii:69) is ambiguous.
* The postfix operators of the typed `const_iterator` (linked_list.ii:397-400, 408-411) build an `iterator` from a `const_iterator` of the base list and do not compile when used.
* Nothing calls `hashtable::assign_value_callback` (hashtable.ii:721-736).
