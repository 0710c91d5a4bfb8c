{"id": "C01", "title": "Lookups never return a stale or foreign value", "statement": "Whenever get(k), get_if_exists(k) or get_or_emplace(k, _) returns a previously stored value, that value is the one written by the most recent write (emplace, inserting get_or_emplace, or resolver result) to a key equal to k, and no erase of that key and no clear happened after that write. This holds for every combination of size limit, age limit, weakening, resolver and refresh, and across any rehash.", "quantifier": "All histories of API calls, completions of asynchronous lookups and refreshes, all keys and values, all hash functions compatible with key equality, all clock readings, all policy settings.", "why_tests_cant": "The set of histories is infinite and the outcome depends on hash collisions, table growth, eviction and the interleaving of late completions; tests sample a few.", "anchors": ["include/libhoard/cache.h: get_if_exists, emplace, get_or_emplace, erase, clear", "include/libhoard/detail/hashtable.ii: get_, get_if_exists_, expire_, emplace, get_or_emplace, link", "include/libhoard/detail/cache_get.h: get"]}
{"id": "C02", "title": "A cache without limits is exactly a map", "statement": "With no size limit, no age limit, no weakening and no refresh, the cache behaves exactly as a finite map: get(k) and get_if_exists(k) return the last value written to k since the last erase/clear, and return nothing exactly when there is none.", "quantifier": "All finite histories of emplace, get, get_if_exists, get_or_emplace, erase, clear on all keys and values, for every hash function compatible with equality, including all-colliding ones.", "why_tests_cant": "Equality with a map over unbounded histories and adversarial hash functions cannot be enumerated.", "anchors": ["include/libhoard/cache.h: cache", "include/libhoard/detail/hashtable.ii: get_, expire_, emplace, get_or_emplace, link", "include/libhoard/detail/basic_hashtable.ii: link_, unlink_, rehash_"]}
{"id": "C03", "title": "get_if_exists has no effect", "statement": "Calling get_if_exists(k) any number of times anywhere in a history does not change the result of any later operation (no promotion, no removal, no refresh of timers).", "quantifier": "All cache states reachable by any history, all keys, all continuations.", "why_tests_cant": "Needs every later continuation to be compared, for every state.", "anchors": ["include/libhoard/cache.h: get_if_exists", "include/libhoard/detail/hashtable.ii: get_if_exists_"]}
{"id": "C04", "title": "An emplaced value is immediately retrievable", "statement": "After emplace(k, v) on a cache whose size limit (if any) is at least one, an immediately following get(k) at the same instant returns v.", "quantifier": "All reachable states, all keys and values, all size limits >= 1, all age limits > 0.", "why_tests_cant": "Whether the new entry survives the clean-up run by the same call depends on the number of dead entries still linked, i.e. on the whole history.", "anchors": ["include/libhoard/cache.h: emplace", "include/libhoard/detail/hashtable.ii: emplace, maintenance_", "include/libhoard/detail/queue.ii: lru_expire_, on_create_", "include/libhoard/max_size_policy.ii: policy_removal_check_"]}
{"id": "C05", "title": "erase removes the key and nothing else", "statement": "After erase(k), no lookup of a key equal to k returns a value written before the erase; and, for every other key, a lookup made next, at any time, returns exactly what it would have returned without the erase.", "quantifier": "All reachable states, all keys, all compatible hash functions; for the first half all continuations, for the second half also all later calls on caches without limits (C08).", "why_tests_cant": "Absence of a value for every later continuation, and absence of collateral damage for every colliding key, are universal claims.", "anchors": ["include/libhoard/cache.h: erase", "include/libhoard/detail/hashtable.ii: expire, expire_"]}
{"id": "C06", "title": "clear removes every value", "statement": "After clear(), every lookup of every key misses until a new write or a lookup started after the clear completes, and the number of live entries is zero.", "quantifier": "All reachable states, all keys, all later continuations, with any number of lookups in flight at the moment of the clear.", "why_tests_cant": "Late completions of lookups started before the clear could resurrect values on unusual schedules.", "anchors": ["include/libhoard/cache.h: clear", "include/libhoard/detail/hashtable.ii: expire_all"]}
{"id": "C07", "title": "get_or_emplace returns the present value or inserts the given one", "statement": "get_or_emplace(k, v) returns the stored live value and leaves it in place when there is one; otherwise it returns v and v becomes the value of k. It never overwrites a live value. It fails (throws) exactly when an asynchronous lookup of k is in flight and no value is present.", "quantifier": "All reachable states, keys, values and policy settings.", "why_tests_cant": "Depends on expiry, eviction and in-flight state of every reachable cache.", "anchors": ["include/libhoard/cache.h: get_or_emplace", "include/libhoard/detail/hashtable.ii: get_or_emplace, get_"]}
{"id": "C08", "title": "Operations on one key do not disturb other keys", "statement": "On a cache without size limit, an operation on key k (emplace, get, get_or_emplace, erase, starting or completing a lookup) does not change what lookups of any other key return.", "quantifier": "All reachable states, all pairs of distinct keys, all compatible hash functions, including when the operation triggers a rehash or removes expired neighbours from the bucket.", "why_tests_cant": "Rehash and bucket clean-up touch unrelated entries; only a universal argument covers all collision patterns.", "anchors": ["include/libhoard/detail/hashtable.ii: get_, expire_, link, unlink_expired_elements_", "include/libhoard/detail/basic_hashtable.ii: rehash_"]}
{"id": "C09", "title": "The size limit bounds the number of live entries", "statement": "On a cache with max_size_policy(N), without weakening, fed by emplace and get_or_emplace, the number of live entries is at most N after every operation.", "quantifier": "All N, all histories of emplace, get_or_emplace, get, get_if_exists, erase, clear, all clocks.", "why_tests_cant": "The eviction count is computed from the physical size including dead entries and stops at hot entries, so the bound is an inductive invariant over histories, not a local check.", "anchors": ["include/libhoard/max_size_policy.ii: policy_removal_check_", "include/libhoard/detail/queue.ii: lru_expire_", "include/libhoard/detail/hashtable.ii: maintenance_, emplace, get_or_emplace, count"]}
{"id": "C10", "title": "The size limit also bounds caches filled by a resolver", "statement": "On a cache with max_size_policy(N) and a resolver, the number of live entries is at most N after every get.", "quantifier": "All N, all sequences of get.", "why_tests_cant": "A universal bound over unbounded histories.", "anchors": ["include/libhoard/resolver_policy.ii: resolve", "include/libhoard/detail/hashtable.ii: get, async_get, link, maintenance_", "README.md: Smart Pointers and Singletons"]}
{"id": "C11", "title": "No eviction while within the limit", "statement": "On a cache with max_size_policy(N), as long as the table has never held more than N entries, no entry is evicted: every value written stays retrievable until overwritten, erased, cleared or aged out.", "quantifier": "All N, all histories that never hold more than N entries at once.", "why_tests_cant": "Universal over histories and promotion patterns.", "anchors": ["include/libhoard/max_size_policy.ii: policy_removal_check_", "include/libhoard/detail/queue.ii: lru_expire_", "include/libhoard/detail/hashtable.ii: maintenance_"]}
{"id": "C12", "title": "Eviction takes the least recently promoted entries only", "statement": "When the size limit forces evictions, the victims are exactly the entries at the least-recently-used end of the recency order, in order, and an entry of the more recently used (hot) half is never evicted. In particular a key that was just hit on a cache with at least two entries survives the next insertion.", "quantifier": "All reachable states, all sizes and all numbers of evictions requested.", "why_tests_cant": "The recency order is the result of the entire access history.", "anchors": ["include/libhoard/detail/queue.ii: on_create_, on_hit_, on_unlink_, lru_expire_"]}
{"id": "C13", "title": "The recency structure stays balanced", "statement": "After any sequence of insertions, hits and removals, the recency order contains every linked entry exactly once, its first half (rounded down) is hot, the rest is cold, and no operation dereferences the end position.", "quantifier": "All finite sequences of insertions, hits and removals of linked entries.", "why_tests_cant": "An inductive invariant over unbounded operation sequences with pointer and parity bookkeeping.", "anchors": ["include/libhoard/detail/queue.ii: on_create_, on_hit_, on_unlink_, invariant"]}
{"id": "C14", "title": "Age limit is an exact window", "statement": "With max_age_policy(A), a value written at time t is returned by lookups at every time strictly before t + A (unless removed for another reason) and by no lookup at or after t + A. Hits do not extend the window. If the limit is measured on a clock that is not steady, the same holds on that clock and on the steady clock at once: the value is returned while it is younger than A on both.", "quantifier": "All A, all write times, all lookup times, all histories in between.", "why_tests_cant": "Ranges over all instants and all intermediate histories.", "anchors": ["include/libhoard/max_age_policy.ii: on_assign_", "include/libhoard/expire_at_policy.ii: expired, expire_at", "include/libhoard/detail/value_type.ii: expired"]}
{"id": "C15", "title": "Expiry is irreversible", "statement": "Once a stored entry has expired for whatever reason (age, eviction, erase, replaced by refresh), no later lookup returns it, given a clock that does not run backwards.", "quantifier": "All histories with non-decreasing clock, all policies except idle-timer extension by a hit before expiry.", "why_tests_cant": "Requires a monotonicity argument across every operation.", "anchors": ["include/libhoard/detail/mapped_type.ii: mark_expired, strengthen, expired", "include/libhoard/expire_at_policy.ii: expire_at", "include/libhoard/detail/value_type.ii: expired"]}
{"id": "C16", "title": "Several deadlines combine to the earliest", "statement": "Whatever number of deadlines are set on an entry and in whatever order, the entry expires exactly at the earliest of them. With deadlines on two clocks, as soon as either clock reaches one of its deadlines.", "quantifier": "All finite lists of deadlines and all permutations.", "why_tests_cant": "Order independence is a claim over all permutations of all lists.", "anchors": ["include/libhoard/expire_at_policy.ii: expire_at, expired", "include/libhoard/refresh_policy.ii: on_refresh, on_assign_"]}
{"id": "C17", "title": "The synchronous resolver is called exactly on a miss", "statement": "On a cache with a resolver, get(k) calls the resolver once exactly when no live value for k is stored, returns the stored value otherwise, and returns the resolver's result when it was called. A second get(k) with no removal in between does not call the resolver. The internal-error exception for a missing result is never thrown.", "quantifier": "All histories, keys, resolver behaviours (including throwing).", "why_tests_cant": "Ranges over all histories and all resolver behaviours.", "anchors": ["include/libhoard/resolver_policy.ii: resolve, cache_base::get", "include/libhoard/detail/hashtable.ii: get"]}
{"id": "C18", "title": "Errors are not served from the cache", "statement": "Without negative caching, an error produced by a resolver is delivered to the callers of that lookup only: no later lookup is answered with it, and the next lookup of the key calls the resolver again.", "quantifier": "All histories and all resolver behaviours.", "why_tests_cant": "Universal over histories following the error.", "anchors": ["include/libhoard/detail/value_type.ii: expired", "include/libhoard/resolver_policy.ii: resolve", "include/libhoard/detail/hashtable.ii: get_"]}
{"id": "C19", "title": "Negative caching keeps errors", "statement": "With negative_cache_policy (or error_max_age_policy), an error produced by the resolver is kept: further lookups of the key within its lifetime are answered with the stored error without calling the resolver.", "quantifier": "All keys, errors and lifetimes.", "why_tests_cant": "Existing tests cover only the absence of error caching; the claim ranges over all lifetimes.", "anchors": ["include/libhoard/negative_cache_policy.h: negative_cache_policy", "include/libhoard/detail/hashtable.h: figure_out_hashtable_value_base_", "include/libhoard/detail/value_type.ii: expired", "README.md: Negative Cache"]}
{"id": "C20", "title": "Concurrent asynchronous lookups of a key share one resolver call", "statement": "While an asynchronous lookup of k is in flight and was not invalidated (by a write or removal of k, by clear, or by eviction), further gets of k do not call the resolver; they are answered by the same lookup, or from the store while a stored value is being refreshed.", "quantifier": "All histories and all numbers of concurrent gets.", "why_tests_cant": "Number and timing of overlapping gets is unbounded.", "anchors": ["include/libhoard/detail/hashtable.ii: async_get, get_", "include/libhoard/resolver_policy.ii: async resolve"]}
{"id": "C21", "title": "Every waiter is answered exactly once, in order, with the same result", "statement": "When an asynchronous lookup completes (value or error), every get waiting on it receives that result exactly once, in the order the gets were made; no waiter is answered twice or by another lookup.", "quantifier": "All histories, any number of waiters and lookups in flight for equal or different keys.", "why_tests_cant": "Exactly-once delivery over all interleavings of gets, completions and invalidations.", "anchors": ["include/libhoard/detail/pending.ii: resolve_success, resolve_failure, add_callback", "include/libhoard/detail/mapped_type.ii: assign, assign_error", "include/libhoard/detail/hashtable.ii: async_get"]}
{"id": "C22", "title": "Invalidation during a lookup is respected", "statement": "If k is erased, the cache is cleared, or k is emplaced while a lookup of k is in flight, the waiters still receive the lookup's result, but the late result is never stored: later gets of k see the emplaced value or start a new lookup.", "quantifier": "All interleavings of invalidation, completion and further gets.", "why_tests_cant": "A race between completion and invalidation; tests exercise at most one order.", "anchors": ["include/libhoard/detail/hashtable.ii: expire_, expire_all, emplace", "include/libhoard/detail/mapped_type.ii: assign, mark_expired", "include/libhoard/detail/async_resolver_callback.h: assign"]}
{"id": "C23", "title": "A lookup completes at most once", "statement": "The completion handle given to an asynchronous resolver takes effect at most once: after a value, error or cancellation was delivered, every further delivery returns false and has no effect; after the cache is gone a delivery returns false and has no effect on anyone.", "quantifier": "All sequences of deliveries by any party, with the cache alive or destroyed at any point.", "why_tests_cant": "All orders of repeated deliveries and destruction.", "anchors": ["include/libhoard/detail/async_resolver_callback.h: assign, assign_error, cancel"]}
{"id": "C24", "title": "Abandoned lookups release their waiters", "statement": "If the asynchronous resolver drops its completion handle without delivering, every get waiting on that lookup is released (its callback is dropped so that its future reports an error) and none waits forever; the next get of the key starts a new lookup.", "quantifier": "All histories; the handle may be dropped at any time, including inside the resolver call itself.", "why_tests_cant": "Depends on when the drop happens relative to registration of the waiter.", "anchors": ["include/libhoard/detail/async_resolver_callback.h: ~async_resolver_callback, cancel", "include/libhoard/detail/hashtable.ii: async_get", "include/libhoard/detail/pending.ii: cancel"]}
{"id": "C25", "title": "Dead entries are eventually reclaimed", "statement": "An entry that can no longer be returned is removed from the table the next time its bucket is walked by a lookup or erase, or when the table would grow.", "quantifier": "All reachable states and all dead entries.", "why_tests_cant": "Needs all reasons for being dead and all states.", "anchors": ["include/libhoard/detail/hashtable.ii: get_, expire_, unlink_expired_elements_", "include/libhoard/detail/pending.ii: cancel"]}
{"id": "C26", "title": "The hash table neither loses nor duplicates entries", "statement": "The chained representation (one singly linked chain plus an array of bucket end positions) always represents an array of buckets: inserting adds exactly the given entry at the end of its bucket, removing removes exactly that entry, growing the table keeps every entry exactly once and keeps the relative order of entries with equal hash, and iterating a bucket visits exactly its entries in order.", "quantifier": "All sequences of insert, remove, grow, clear and move on all heaps, all hash values and bucket counts.", "why_tests_cant": "Pointer structures of unbounded size; aliasing bugs show only for particular bucket patterns.", "anchors": ["include/libhoard/detail/basic_hashtable.ii: link_, unlink_, rehash_, clear, clear_and_dispose, begin, end, before_begin, before_end, move constructor"]}
{"id": "C27", "title": "The load factor limit is kept", "statement": "After every insertion the number of entries is at most max_load_factor times the number of buckets (unless the maximum bucket count is reached), and growing happens only when dead entries do not make enough room.", "quantifier": "All histories, all load factors.", "why_tests_cant": "Depends on sizes and dead entries at every growth step.", "anchors": ["include/libhoard/detail/basic_hashtable.ii: link, maybe_rehash_before_link_, reserve, rehash_"]}
{"id": "C28", "title": "The doubly linked list implements a sequence", "statement": "Linking before/after/front/back and unlinking on the intrusive list act as insertion and removal on the represented sequence, both link directions stay consistent, and an unlinked element is not linked anywhere; move construction transfers the sequence and leaves the source empty.", "quantifier": "All heaps, lists and positions.", "why_tests_cant": "Unbounded pointer structures.", "anchors": ["include/libhoard/detail/linked_list.ii: link_, link_front, link_back, link_after, link_before, unlink, move constructor"]}
{"id": "C29", "title": "Linked test is exact", "statement": "The query whether an entry is linked into the hash table returns true exactly for entries currently in the table.", "quantifier": "All tables and entries.", "why_tests_cant": "Universal over table shapes.", "anchors": ["include/libhoard/detail/basic_hashtable.ii: is_hashtable_linked"]}
{"id": "C30", "title": "Entries are destroyed exactly once, when the last owner lets go", "statement": "Under any sequence of copies, moves, assignments, resets and destructions of counted pointers, an object is destroyed exactly when its last owner is gone, never earlier, never twice; a reset pointer is null.", "quantifier": "All numbers of owners and all operation sequences.", "why_tests_cant": "Ownership histories are unbounded.", "anchors": ["include/libhoard/detail/refcount.ii: refcount_ptr, refcount_inc, refcount_dec"]}
{"id": "C31", "title": "Weakened pointers stay available while referenced elsewhere", "statement": "With pointer_policy, weaken_policy and a size limit, an entry whose object is kept alive by the user is still returned by lookups no matter how far the cache was over its limit, until it is overwritten, erased, cleared or aged out; and the same object is returned.", "quantifier": "All histories during which the object stays alive.", "why_tests_cant": "Unbounded histories of evictions.", "anchors": ["include/libhoard/detail/mapped_type.ii: mapped_pointer::weaken, strengthen, get, expired", "include/libhoard/detail/queue.ii: lru_expire_"]}
{"id": "C32", "title": "A weakened, unreferenced pointer is never returned", "statement": "Once an entry has been weakened and its object has been destroyed, no lookup returns it; a lookup never returns a dangling pointer.", "quantifier": "All histories and all liveness patterns.", "why_tests_cant": "Ranges over all liveness patterns of external owners.", "anchors": ["include/libhoard/detail/mapped_type.ii: mapped_pointer::get, expired, holds_value, strengthen"]}
{"id": "C33", "title": "A value stays available during its refresh", "statement": "When a stored value becomes due for refresh, gets are answered with the old value, without waiting, until the refresh completes, and with the new value afterwards; at no moment in between does a get wait or miss (absent eviction or other expiry).", "quantifier": "All interleavings of gets with refresh start and completion.", "why_tests_cant": "Interleavings of an asynchronous refresh with unbounded gets.", "anchors": ["include/libhoard/detail/refresh_impl_policy.ii: refresh", "include/libhoard/refresh_policy.ii: worker_task, on_assign_", "include/libhoard/detail/hashtable.ii: get_"]}
{"id": "C34", "title": "Unused values stop being refreshed", "statement": "With an idle timer I, a value that is not hit for I is no longer returned, however many refreshes happened in between; a hit extends the deadline to hit time + I. With no idle timer, there is no such deadline.", "quantifier": "All sequences of refreshes and hits.", "why_tests_cant": "The deadline is inherited through an unbounded chain of refreshes.", "anchors": ["include/libhoard/refresh_policy.ii: on_assign_, on_hit_, on_refresh, expired"]}
{"id": "C35", "title": "Refreshes run in due order and none is missed", "statement": "The queue of values waiting for refresh is always ordered by due time, so that a worker which handles the front entries that are due handles exactly the due ones.", "quantifier": "All histories with non-decreasing clock.", "why_tests_cant": "Unbounded histories.", "anchors": ["include/libhoard/refresh_policy.ii: on_assign_, on_unlink_, worker_task"]}
{"id": "C36", "title": "A failed or abandoned refresh does not freeze a value", "statement": "If a refresh lookup is abandoned, the value is still refreshed (or dropped) later: it is not served forever without any further refresh.", "quantifier": "All histories with a refresh whose lookup was dropped.", "why_tests_cant": "A liveness-like claim over all continuations.", "anchors": ["include/libhoard/detail/refresh_impl_policy.ii: refresh", "include/libhoard/detail/pending.ii: cancel"]}
{"id": "C37", "title": "Operations are atomic under the cache's lock", "statement": "For a thread-safe cache, every concurrent execution of API operations gives each caller the result of some sequential execution of the same operations that respects each thread's order.", "quantifier": "All numbers of threads, all programs, all schedules.", "why_tests_cant": "All schedules.", "anchors": ["include/libhoard/thread_safe_policy.ii: lock, unlock", "include/libhoard/cache.h: every operation's lock_guard"]}
{"id": "C38", "title": "Concurrent double completion is safe", "statement": "If two threads deliver on the same completion handle at the same time, one takes effect and the other returns false.", "quantifier": "All schedules of two or more concurrent deliveries.", "why_tests_cant": "A race that tests cannot force.", "anchors": ["include/libhoard/detail/async_resolver_callback.h: assign, called"]}
{"id": "C39", "title": "Policy dependencies are resolved completely and without duplicates", "statement": "The effective policy list of a cache contains every policy the user named and every direct or indirect dependency of those, contains no dependency twice, and none of the added dependencies repeats a policy the user named.", "quantifier": "All policy lists and all acyclic dependency relations.", "why_tests_cant": "Ranges over all instantiations.", "anchors": ["include/libhoard/detail/hashtable.h: dependent_policies_, hashtable_helper_", "include/libhoard/detail/meta.h: type_list"]}
{"id": "C40", "title": "Caches are thread-safe unless asked otherwise", "statement": "A cache type gets the thread-safe lock policy exactly once unless the user names the thread-unsafe policy and nothing requires thread safety; a cache with a refresh policy always gets it.", "quantifier": "All policy lists.", "why_tests_cant": "Ranges over all instantiations.", "anchors": ["include/libhoard/detail/hashtable.h: hashtable_helper_::has_thread_safe_policy, maybe_extra_mutex_policies, all_policies", "README.md: Thread-safe"]}
{"id": "C41", "title": "A failing emplace leaves the cache usable", "statement": "If emplace(k, v) fails at any point (construction of the entry or growth of the table), the cache remains well formed, other keys are untouched, and k has no value.", "quantifier": "All failure points in all reachable states.", "why_tests_cant": "Every failure point in every state.", "anchors": ["include/libhoard/detail/hashtable.ii: emplace, link, allocate_value_type", "include/libhoard/detail/basic_hashtable.ii: maybe_rehash_before_link_"]}
{"id": "C42", "title": "Destroying the cache silences all lookups", "statement": "After the cache is destroyed no waiting callback is ever invoked with a result, every entry has been unlinked from every structure, and late deliveries are refused.", "quantifier": "All states at destruction and all later deliveries.", "why_tests_cant": "All combinations of in-flight lookups at destruction.", "anchors": ["include/libhoard/detail/hashtable.ii: ~hashtable, disposer_impl", "include/libhoard/detail/basic_hashtable.ii: clear_and_dispose", "include/libhoard/detail/async_resolver_callback.h: assign"]}
{"id": "C43", "title": "Live count equals the number of retrievable or in-flight keys", "statement": "The number reported by count() equals the number of distinct keys for which a lookup would be answered from the cache or would join a lookup in flight (a key being refreshed asynchronously counts twice).", "quantifier": "All reachable states.", "why_tests_cant": "Needs uniqueness of live entries per key in all reachable states.", "anchors": ["include/libhoard/detail/hashtable.ii: count, get_, emplace, get_or_emplace"]}
{"id": "C44", "title": "Reserved room is enough", "statement": "After reserve(m) the bucket array is not reallocated as long as the table holds at most m entries, whatever insertions and removals follow (with a maximal bucket count that can take m entries). (For the code this holds up to rounding of the load factor, see C105; exactly, it is false for some limits.)", "quantifier": "All load factors, all m, all sequences of insertions and removals after the call, in all states of the table.", "why_tests_cant": "The claim is about every later insertion sequence and about the rounding of the computed bucket count for every load factor.", "anchors": ["include/libhoard/detail/basic_hashtable.ii: reserve, maybe_rehash_before_link_"]}
{"id": "C45", "title": "Dependencies come first", "statement": "In the effective policy list of a cache, every policy stands after each of its dependencies that the user did not name, so that the implementation of a dependency is constructed, initialised and notified of events before the ones relying on it.", "quantifier": "All lists of policies the user may name, all policies (of the library or the user's own) without cyclic dependencies.", "why_tests_cant": "There are infinitely many policy lists, and the order is only visible through the order of construction and events.", "anchors": ["include/libhoard/detail/hashtable.h: dependent_policies_, policy_dependencies, all_policies", "include/libhoard/detail/meta.h: type_list_distinct_, type_list_exclude_"]}
{"id": "C46", "title": "Type-list operations are exact", "statement": "The type-list operations remove, remove all, distinct, reverse, filter, extend and exclude give exactly the list their names promise: order is kept, the first of several equal types is the one kept or removed, and no type is lost or added.", "quantifier": "All type lists and all arguments.", "why_tests_cant": "Every instantiation is a different program; a test covers single instantiations.", "anchors": ["include/libhoard/detail/meta.h: type_list and helpers"]}
{"id": "C47", "title": "By the time the cache is gone every waiter was settled exactly once", "statement": "Once the cache has been destroyed, the callbacks invoked and the callbacks dropped (broken promises) are together exactly the callbacks ever passed to asynchronous gets, each as often as it was passed: no future waits forever, and none is settled twice.", "quantifier": "All histories containing the destruction, any number of keys, gets, lookups, completions, dropped handles and invalidations before and after.", "why_tests_cant": "Conservation over unbounded histories, including rare paths such as a handle dropped inside the resolver call or refreshes sharing a lookup.", "anchors": ["include/libhoard/detail/pending.ii: add_callback, cancel, resolve_success, resolve_failure", "include/libhoard/detail/hashtable.ii: async_get, ~hashtable, disposer_impl", "include/libhoard/detail/async_resolver_callback.h"]}
{"id": "C48", "title": "A cache with a size limit is a list in recency order", "statement": "With a size limit, everything a sequence of calls shows (return values, values made, resolver calls, counts) is what a single list of items shows in which a hit moves the item to the front, a new item enters in the middle, and an insertion takes the values from the items at the end beyond the limit but never from the first half; items whose value is gone or too old are swept away at any time. In particular, a value just used outlives any number of insertions as long as few other values are used.", "quantifier": "All size limits, age limits, key types, hash functions and sequences of calls with any clock readings, with or without a synchronous resolver.", "why_tests_cant": "Equivalence with a reference structure over unboundedly many calls and interleavings of hits, insertions, removals, growth and expiry; a test replays single sequences.", "anchors": ["include/libhoard/detail/queue.ii: on_create_, on_hit_, on_unlink_, lru_expire_", "include/libhoard/detail/hashtable.ii: get_, emplace, get_or_emplace, maintenance_", "include/libhoard/max_size_policy.ii"]}
{"id": "C49", "title": "No operation touches freed memory, and the pointers do what the lists say", "statement": "Executed on the real data structures (one chain with an array of bucket addresses, intrusive recency and refresh queues, entries with reference counters freed at zero), no sequence of calls ever accesses a freed entry, follows a null or dangling pointer, releases a reference nobody holds, indexes outside the bucket array or loops for ever; and every visible result is the one of the model without pointers.", "quantifier": "All configurations, hash functions, initial memory contents and finite histories of calls, completions, dropped handles, refresh rounds and destruction.", "why_tests_cant": "Memory errors depend on the interplay of eviction, expiry, refresh, invalidation and destruction with in-flight lookups; sanitizers see only the interleavings a test happens to run.", "anchors": ["include/libhoard/detail/basic_hashtable.ii", "include/libhoard/detail/hashtable.ii", "include/libhoard/detail/queue.ii", "include/libhoard/detail/linked_list.ii", "include/libhoard/detail/refresh_impl_policy.ii", "include/libhoard/detail/refcount.ii"]}
{"id": "C50", "title": "Reference counts are exact: nothing dangles, nothing leaks", "statement": "After any history, the reference count of every entry is the number of its owners (the table if linked, the completion handle of its lookup if not yet dropped, and the callbacks of refreshes that will replace it). Hence no pointer in table, buckets, queues or callbacks points to a freed entry, and once the cache is destroyed and the handles are dropped every entry has been freed.", "quantifier": "All configurations and finite histories, including handles outliving the cache.", "why_tests_cant": "A leak or a premature release needs a specific order of refresh, replacement, eviction and dropping of handles; the claim is an equation for all reachable states.", "anchors": ["include/libhoard/detail/refcount.ii: refcount_inc, refcount_dec, refcount_ptr", "include/libhoard/detail/hashtable.ii: disposer_impl, link, ~hashtable", "include/libhoard/detail/refresh_impl_policy.ii", "include/libhoard/detail/async_resolver_callback.h"]}
{"id": "C51", "title": "A hit makes the cache an owner of the object again", "statement": "With a size limit, pointer_policy and weaken_policy: a pointer that was weakened and is still alive elsewhere, when it is returned by a get, is held by the cache with a strong reference from then on; looked up right afterwards it is found even if everybody else has let go of the object.", "quantifier": "All histories, synchronous and asynchronous gets, all liveness patterns before and after the hit.", "why_tests_cant": "Ranges over all histories leading to a weakened entry and all liveness patterns; a test fixes one order of evictions and releases.", "anchors": ["include/libhoard/detail/mapped_type.ii: mapped_pointer::strengthen", "include/libhoard/detail/queue.ii: on_hit_", "include/libhoard/detail/hashtable.ii: get_"]}
{"id": "C52", "title": "With weakening the size limit bounds what the cache keeps alive", "statement": "With a size limit of N, pointer_policy and weaken_policy, objects beyond the limit are only weakly referenced: the cache itself never keeps more than N objects alive. (False of the code: weakened entries stay in the table and a get takes ownership of them again without any check, so there are histories after which the cache owns any number of objects. What holds: after an emplace or get_or_emplace the cache owns at most max(N, half of the entries in the table).)", "quantifier": "All limits N, all histories, all liveness patterns; the positive part for every configuration with a size limit.", "why_tests_cant": "The number of owned objects depends on the whole history of insertions, hits and releases; a test fixes one.", "anchors": ["include/libhoard/max_size_policy.h", "include/libhoard/weaken_policy.h", "include/libhoard/detail/queue.ii: on_hit_, lru_expire_", "include/libhoard/detail/mapped_type.ii: mapped_pointer::weaken, strengthen"]}
{"id": "C53", "title": "The refresh worker never sleeps through a due refresh", "statement": "However operations of other threads interleave with the refresh thread: while the thread waits and some value has become due, its wait ends by itself (it has been notified, or its time-out has been reached) and it goes on to the values due at that moment. And whenever it goes back to waiting, no value that was due when it woke up is left without having been refreshed.", "quantifier": "All configurations with refresh_policy and a resolver, all schedules of operations, wake-ups (also spurious ones) and time-outs, clocks that do not go back.", "why_tests_cant": "A lost wake-up needs a particular interleaving of the notification with the worker entering its wait; tests see a handful of schedules and cannot show that no wake-up is lost.", "anchors": ["include/libhoard/refresh_policy.ii: worker_task, on_assign_", "include/libhoard/refresh_policy.h"]}
{"id": "C54", "title": "The refresh worker gives the lock back", "statement": "Each time the refresh thread wakes up it performs a bounded number of refreshes, known when it starts, and then releases the lock, so operations of other threads are not locked out for ever. (False of the code for a delay of zero with a synchronous resolver: each refresh makes a new value that is due at once. Proved for every delay above zero.)", "quantifier": "All configurations with a refresh delay above zero, all schedules, all behaviours of the resolver during the refreshes; the negation for every cache with delay zero and a synchronous resolver and any number of refreshes.", "why_tests_cant": "Termination of the inner loop depends on what refreshes append to the queue it empties; a test that terminates says nothing about other queues.", "anchors": ["include/libhoard/refresh_policy.ii: worker_task", "include/libhoard/detail/refresh_impl_policy.ii: refresh"]}
{"id": "C55", "title": "The refresh worker reads no freed memory", "statement": "At every moment the entry whose due time the waiting refresh thread refers to is still there, whatever other threads do meanwhile. (False of the code: the wait refers to a member of the first entry of the queue; if that entry is erased during the wait and another value is stored, the thread is woken up and reads the freed entry. Proved for caches from which nothing is removed: no limit on age, idleness or number, and no erase, clear, emplace or destruction.)", "quantifier": "All schedules; the positive part for all configurations without limits and all operations that look up, insert what is missing, complete or abandon lookups.", "why_tests_cant": "The read of freed memory needs an erase and a notification during one wait and is not visible in results.", "anchors": ["include/libhoard/refresh_policy.ii: worker_task (wait_until)", "include/libhoard/detail/hashtable.ii: expire_"]}
{"id": "C56", "title": "Destroying the cache stops the refresh worker safely", "statement": "When the cache is destroyed, the refresh thread ends without touching anything freed, and the destructor does not wait for ever. (False of the code: the table is cleared without the lock and before the thread is told to stop, so it races with a refresh in progress, and a thread that wakes up in between reads a freed entry. Proved: once the thread is told to stop, it can always take a step, and its next step is its last.)", "quantifier": "All configurations with refresh_policy and a resolver, all schedules.", "why_tests_cant": "The window between clearing and stopping is a few instructions; tests hit it by luck only, and cannot show that the join always returns.", "anchors": ["include/libhoard/refresh_policy.ii: destroy, worker_task", "include/libhoard/detail/hashtable.ii: ~hashtable"]}
{"id": "C57", "title": "Resolvers may use the cache", "statement": "A resolver called inside get may itself call get, get_if_exists, emplace, get_or_emplace, erase, clear and count on the same cache, to any depth. Every get then either calls the resolver or returns the current value of its key, not older than the limits allow; it calls the resolver only if there is no such value. Every value shown was stored under an equal key, so a recursive function whose steps are right gives right values. (False of the code for a resolver that asks for, or inserts, the key it is resolving: the table then has two entries and later lookups return the older value. Proved for resolvers that store nothing under keys being resolved; that shown values were stored under their key is proved for all resolvers.)", "quantifier": "All configurations with a synchronous resolver (for provenance: without refreshing), all histories of nested calls of any depth and length, all clocks.", "why_tests_cant": "The number of ways to interleave nested calls, insertions and removals with running resolvers is unbounded.", "anchors": ["include/libhoard/resolver_policy.ii: resolve, get", "include/libhoard/detail/hashtable.ii: get, link", "include/libhoard/thread_safe_policy.h: recursive_mutex"]}
{"id": "C58", "title": "Memoised recursion asks for each key once", "statement": "In a cache without limits from which nothing is removed, and with a resolver that does not fail, the resolver is called at most once for each key, however the calls nest. Resolvers that ask only for smaller keys and insert nothing meet the condition below. (False of the code for resolvers that ask for their own key. Proved for resolvers that store nothing under keys being resolved.)", "quantifier": "All keys, all nested histories of any depth and length.", "why_tests_cant": "A test counts calls for some recursion patterns; the claim is about all of them.", "anchors": ["include/libhoard/resolver_policy.ii: resolve, get", "include/libhoard/detail/hashtable.ii: get"]}
{"id": "C59", "title": "Nested calls are memory safe", "statement": "Whatever a resolver does with the cache while a get waits for it, at any depth, including erasing, clearing and growing the table: no freed entry is read, no null pointer followed, and no entry freed twice.", "quantifier": "All configurations with a synchronous resolver, all nested histories, all limits and clocks.", "why_tests_cant": "A stale iterator or pointer kept across the call of the resolver shows up only when the nested calls rehash the table or free the very entry.", "anchors": ["include/libhoard/resolver_policy.ii: resolve, get", "include/libhoard/detail/hashtable.ii: get, link", "include/libhoard/detail/basic_hashtable.ii: link, rehash"]}
{"id": "C60", "title": "Refreshing by timers never brings back or mixes up values", "statement": "With the timer-based refresh policy, a stored value that a lookup shows is the one stored last for that key (by insertion, by a lookup or by a refresh), was not removed since, and is not too old; and it was inserted or delivered by the resolver for that very key.", "quantifier": "All configurations, all histories of operations, timers running out and handlers being called, with any delay between the two; all clocks.", "why_tests_cant": "It depends on a handler being already queued when the user erases or replaces the value; the window is a few microseconds unless the executor is busy.", "anchors": ["include/libhoard/asio/refresh_policy.ii: on_assign_, on_unlink_", "include/libhoard/detail/refresh_impl_policy.ii: refresh", "include/libhoard/asio/refresh_policy.h"]}
{"id": "C61", "title": "Timers refresh every value once, when it is due", "statement": "With the timer-based refresh policy: the handler of a stored value runs at most once; it calls the resolver only when the key has a live value written at least the delay ago that is not being refreshed yet; a live value that is due always has its handler queued or its timer ready to run out; and after the cache is destroyed handlers do nothing.", "quantifier": "All configurations with a resolver, all histories of operations, timers and handlers.", "why_tests_cant": "A timer that is set twice, lost or cancelled at the wrong place shows only after the delay and only in rare orders of events.", "anchors": ["include/libhoard/asio/refresh_policy.ii: on_assign_, on_unlink_", "include/libhoard/detail/refresh_impl_policy.ii: refresh", "include/libhoard/detail/hashtable.ii: on_unlink_, ~hashtable"]}
{"id": "C62", "title": "Completing a lookup never ends the program", "statement": "With the refresh policy that computes the delay from the value, completing an asynchronous lookup with a value never ends the program, whatever was done to the key while the lookup was in flight.", "quantifier": "All configurations with an asynchronous resolver, all histories.", "why_tests_cant": "Needs a removal of the key during the lookup; tests complete lookups undisturbed.", "anchors": ["include/libhoard/asio/refresh_policy.ii: asio_refresh_fn_policy::table_base::on_assign_", "include/libhoard/detail/mapped_type.ii: assign, get", "include/libhoard/detail/async_resolver_callback.h: assign"]}
{"id": "C63", "title": "Completion handlers may use the cache", "statement": "Completion handlers that run inside the completion of a lookup may call the cache, erase and store keys, and complete further lookups. Every operation has the result it would have if each completion took no time, and after the completion the cache is in the state it would be in, and the same waiters have been answered with the same results; nothing undefined happens.", "quantifier": "All configurations without refreshing, all histories with completions nested to any depth and handlers doing anything, as long as the completed lookups are current, nothing is evicted and nobody asks again for a key whose failure is being delivered. With handlers that do nothing: all configurations and histories.", "why_tests_cant": "The tests' handlers only record their argument; what a handler can do in the middle of a completion is unbounded.", "anchors": ["include/libhoard/asio/resolver_policy.h: async_get", "include/libhoard/detail/async_resolver_callback.h: assign, assign_error", "include/libhoard/detail/mapped_type.ii: assign, assign_error", "include/libhoard/detail/pending.ii: resolve_success, resolve_failure"]}
{"id": "C64", "title": "A handler sees the result it is told", "statement": "From the moment the first handler of a successful lookup runs, everybody who asks for the key, including that handler, is answered with the value, without another call of the resolver, until the key is written, erased or too old. While handlers are told of a failure, get_if_exists of the key finds nothing.", "quantifier": "As C63.", "why_tests_cant": "Depends on the order of storing the value and running the callbacks, which is only visible from inside a handler.", "anchors": ["include/libhoard/detail/mapped_type.ii: assign, assign_error", "include/libhoard/detail/pending.ii: resolve_success, resolve_failure"]}
{"id": "C65", "title": "Waiters are answered once also if handlers use the cache", "statement": "Whatever completion handlers do with a cache that does not refresh, no waiter is answered or dropped more often than it was handed in, also not in the middle of completions; and once the cache is destroyed, every waiter has been answered or dropped exactly as often as it was handed in.", "quantifier": "For all caches without refreshing and all histories of calls, completions, and calls and completions made by running handlers (nested to any depth), in which every step is possible and nothing undefined happens; nothing else is assumed, in particular none of the conditions of C63.", "why_tests_cant": "Handlers can add and complete lookups while lists of callbacks are being worked off; the orders are unbounded.", "anchors": ["include/libhoard/detail/pending.ii: add_callback, resolve_success, resolve_failure", "include/libhoard/detail/hashtable.ii: async_get"]}
{"id": "C66", "title": "Asynchronous resolvers may use the cache while they are called", "statement": "A functor of the asynchronous resolver may, before it returns, call the cache, ask for further keys or its own, store, erase, and complete or drop any lookup. Every operation returns what it would return, and the functor is called exactly when and for the same lookup as it would be, if every functor returned at once and did the same things afterwards.", "quantifier": "All configurations and all histories of calls nested to any depth, including functors that throw, evictions and refreshes between outermost calls.", "why_tests_cant": "The tests' functors only complete or keep their handle; what can happen inside a call is unbounded.", "anchors": ["include/libhoard/resolver_policy.ii: async_resolver_policy::table_base::resolve", "include/libhoard/detail/hashtable.ii: async_get", "include/libhoard/thread_safe_policy.h"]}
{"id": "C67", "title": "Callbacks are settled once also if asynchronous resolvers use the cache", "statement": "Each callback passed to async_get is invoked or destroyed at most once, and exactly once when the cache is gone; it is invoked only with the value found, or with the result with which the lookup it waits for was completed.", "quantifier": "As C66.", "why_tests_cant": "Callbacks can be registered, completed and dropped while their own async_get is still running, in unboundedly many orders.", "anchors": ["include/libhoard/detail/hashtable.ii: async_get", "include/libhoard/detail/pending.ii: add_callback, resolve_success, resolve_failure"]}
{"id": "C68", "title": "A functor that completes its lookup before returning answers its caller", "statement": "If the functor called for an async_get completes its lookup before it returns, the callback of that async_get is invoked, with this result, when the functor returns; whatever else the functor does before and after the completion.", "quantifier": "All configurations and nested histories without eviction in which the key is still current when its lookup is completed and the clock does not go back.", "why_tests_cant": "Between the completion and the return of the functor anything may be done to the cache, including erasing the key.", "anchors": ["include/libhoard/detail/hashtable.ii: async_get", "include/libhoard/resolver_policy.ii: async_resolver_policy::table_base::resolve", "include/libhoard/detail/mapped_type.ii: get, assign"]}
{"id": "C69", "title": "Setting the clock back does not prolong anything", "statement": "With age limits measured on a clock that can be set, setting that clock back has no effect at all: as long as it is never set forward, every operation has the outcome it has with limits on the steady clock alone. Setting it forward hides values early; setting it right again shows them again unless they were replaced meanwhile.", "quantifier": "All configurations and all histories in which the clock only loses time against the steady clock, by any amounts, any number of times.", "why_tests_cant": "Ranges over all ways the clock may be set during all histories.", "anchors": ["include/libhoard/max_age_policy.h: max_age_policy_impl, max_age_policy", "include/libhoard/max_age_policy.ii: on_assign_", "include/libhoard/expire_at_policy.ii: expired, expire_at"]}
{"id": "C70", "title": "Each constructor argument configures its policy", "statement": "A policy object given to the constructor of a cache configures the policy of its type, wherever it stands among the arguments; a policy that is given no argument is default constructed. It does not compile if a policy is given two arguments, or if one that cannot be default constructed is given none. A leading load factor and an allocator are used. An argument that belongs to nothing is rejected.", "quantifier": "All lists of policies and of arguments, in any order.", "why_tests_cant": "Ranges over all combinations of policies and arguments, including programs that must not compile.", "anchors": ["include/libhoard/cache.h: cache", "include/libhoard/detail/hashtable.ii: policy_selector_, hashtable_policy_container, hashtable::hashtable", "include/libhoard/detail/meta.h: select_single_element"]}
{"id": "C71", "title": "A copy of a cache is the same cache", "statement": "Copies of a cache share its contents: whatever is done through one is seen through the others, and everything turns out as if it were done to one cache in the same order. Caches that are not copies of each other do not affect each other.", "quantifier": "All programs that build, copy, move, assign, destroy and use any number of caches.", "why_tests_cant": "Ranges over all programs and all ways of sharing.", "anchors": ["include/libhoard/cache.h: cache, impl_", "include/libhoard/detail/hashtable.ii: hashtable::hashtable"]}
{"id": "C72", "title": "The contents live as long as the last copy", "statement": "The contents of a cache are destroyed exactly once, when the last cache object that shares them is destroyed, assigned to or moved from, and not before. A cache that was moved from can be assigned to and destroyed; calling its member functions is undefined.", "quantifier": "All programs that build, copy, move, assign, destroy and use any number of caches.", "why_tests_cant": "Ranges over all programs.", "anchors": ["include/libhoard/cache.h: cache, impl_", "include/libhoard/detail/hashtable.ii: ~hashtable"]}
{"id": "C73", "title": "The table is alive while a thread uses it", "statement": "With several threads, the contents of a cache are destroyed once at most, by one thread, when no cache object refers to them and no completion is under way, and not before. No thread reads or writes them while they are destroyed or afterwards, and at most one thread at a time does so before.", "quantifier": "All interleavings of any number of threads that call, copy and destroy cache objects and complete, fail or drop lookups.", "why_tests_cant": "Ranges over all interleavings; the windows are a few instructions wide.", "anchors": ["include/libhoard/cache.h: impl_", "include/libhoard/detail/async_resolver_callback.h: assign, assign_error, cancel", "include/libhoard/detail/hashtable.ii: ~hashtable"]}
{"id": "C74", "title": "Destroying a cache settles every waiter once", "statement": "When a cache is destroyed while lookups are in flight, on whichever thread, every callback that waits is destroyed or was invoked exactly once, whether the handles of the lookups are used before, during or after the destruction.", "quantifier": "All interleavings of any number of threads, lookups and callbacks.", "why_tests_cant": "Ranges over all interleavings.", "anchors": ["include/libhoard/detail/async_resolver_callback.h: assign, assign_error, cancel, ~async_resolver_callback", "include/libhoard/detail/hashtable.ii: ~hashtable, disposer_impl", "include/libhoard/detail/pending.ii: cancel"]}
{"id": "C75", "title": "Destroying a cache finishes", "statement": "Calls, completions and the destruction of a cache cannot block each other for ever: if nobody begins anything new, all threads finish after a bounded number of steps, the destruction included, and it does not end the program.", "quantifier": "All interleavings of any number of threads, with or without a refresh worker.", "why_tests_cant": "Ranges over all interleavings; absence of deadlock cannot be observed.", "anchors": ["include/libhoard/refresh_policy.ii: destroy", "include/libhoard/detail/hashtable.ii: ~hashtable_policy_container, ~hashtable", "include/libhoard/detail/async_resolver_callback.h: assign, assign_error, cancel"]}
{"id": "C76", "title": "Failures leave stored values right", "statement": "After any number of calls that failed because a value could not be made, a resolver functor threw or an allocation failed, lookups answered from the store show what the key was last set to, and without a size limit no value is lost.", "quantifier": "All caches and all histories of calls, failing or not, of any length.", "why_tests_cant": "Failures can strike at every step; tests inject few, and not in combination.", "anchors": ["include/libhoard/detail/async_resolver_callback.h: assign", "include/libhoard/detail/mapped_type.ii: assign", "include/libhoard/resolver_policy.ii: resolve"]}
{"id": "C77", "title": "A failing lookup or delivery has no effect on values", "statement": "A lookup or a delivery that throws neither stores nor removes a value: what a lookup of any key finds next is what it would have found without the failing call (unless the functor had delivered before it threw).", "quantifier": "All caches, all histories, all failing calls, all keys.", "why_tests_cant": "Ranges over all states and all points of failure.", "anchors": ["include/libhoard/resolver_policy.ii: resolve", "include/libhoard/detail/hashtable.ii: get, async_get", "include/libhoard/detail/async_resolver_callback.h: assign"]}
{"id": "C78", "title": "A failed delivery settles its waiters", "statement": "If making the value fails in a delivery, the callbacks that wait for the lookup are destroyed without being invoked. No callback is invoked or destroyed twice and none is forgotten, whatever fails. The handle can only be dropped afterwards, or, if the lookup was left in place, used again.", "quantifier": "All histories of calls, failing or not, with any number of waiters.", "why_tests_cant": "Ranges over all histories with failures.", "anchors": ["include/libhoard/detail/async_resolver_callback.h: assign, assign_error, cancel", "include/libhoard/detail/pending.ii: callbacks", "include/libhoard/detail/mapped_type.ii: assign"]}
{"id": "C79", "title": "Failures leave nothing behind", "statement": "After failed calls the cache has no entries but those of stored values and of lookups in flight.", "quantifier": "All histories of calls, failing or not.", "why_tests_cant": "A leak of one entry for each failure is not seen unless one counts after many failures.", "anchors": ["include/libhoard/detail/mapped_type.ii: expired, assign", "include/libhoard/resolver_policy.ii: resolve", "include/libhoard/detail/hashtable.ii: count"]}
{"id": "C80", "title": "When a failure ends the program", "statement": "A failure ends the program exactly in these cases: assign_error on a handle that a failed delivery has spoiled; a get that fails although it is noexcept; and a synchronous get whose value cannot be made by assign. With an asynchronous resolver, programs that only drop a handle after a failed delivery are never ended.", "quantifier": "All histories of calls, failing or not.", "why_tests_cant": "The end of the program is not something a test in the same process survives.", "anchors": ["include/libhoard/detail/mapped_type.ii: assign_error", "include/libhoard/resolver_policy.ii: resolve", "include/libhoard/detail/hashtable.ii: get"]}
{"id": "C81", "title": "Values and errors are not looked at", "statement": "Replace all values and errors in a program's calls by others, possibly making different ones the same, where a pointer is replaced by one whose object lives as long. Every call then does the same, with replaced values and errors: same hits and misses, same calls of the resolver, same waiters told in the same order. A cache of wrapped values cannot be told from a cache of the values.", "quantifier": "All histories, all configurations, all functions on values and errors.", "why_tests_cant": "The replacement is an arbitrary function on an arbitrary type; tests use a few values of one type.", "anchors": ["include/libhoard/cache.h: all operations", "include/libhoard/detail/mapped_type.ii: get, assign", "include/libhoard/detail/hashtable.ii: all operations"]}
{"id": "C82", "title": "Keys are only hashed and compared", "statement": "Replace the type of keys, the hash and equality functions, and all keys in a program's calls, such that hash codes and equality stay as they were. Every call then does the same, and the resolver is called with the replaced keys.", "quantifier": "All histories, all configurations, all key types and functions between them.", "why_tests_cant": "Quantifies over key types with their hash and equality functions.", "anchors": ["include/libhoard/hash.h", "include/libhoard/equal.h", "include/libhoard/detail/hashtable.ii: get, emplace, erase"]}
{"id": "C83", "title": "Only differences between times matter", "statement": "Add one amount to all readings of the steady clock and another to all readings of the clock of the age limit. Every call does exactly the same.", "quantifier": "All histories, all configurations, all amounts.", "why_tests_cant": "The epoch of a clock is fixed in a test run.", "anchors": ["include/libhoard/expire_at_policy.ii: expired", "include/libhoard/max_age_policy.ii: on_assign_", "include/libhoard/refresh_policy.ii: expired, on_assign_"]}
{"id": "C84", "title": "Who waits makes no difference", "statement": "Give the callbacks passed to asynchronous gets other names, also the same name to several. The same callbacks are invoked and dropped at the same places, under their new names: nothing depends on who asks, and a callback passed twice is invoked once for each time.", "quantifier": "All histories, all configurations, all functions on names.", "why_tests_cant": "Quantifies over all ways to identify callers.", "anchors": ["include/libhoard/detail/hashtable.ii: async_get", "include/libhoard/detail/pending.ii: resolve_success, resolve_failure"]}
{"id": "C85", "title": "Member pointers are invisible", "statement": "An entry of a cache whose pointer policy names a member pointer type and functor answers every question, and tells its waiters, as an entry would that stores the pointer that comes out when the given pointer is stored as a member pointer and read back, however often it is weakened and found again.", "quantifier": "All member pointer types and functors, all ways an entry comes to be, all sequences of calls on it.", "why_tests_cant": "Functors are arbitrary, and the difference shows only after a value was weakened and found again while its object lives.", "anchors": ["include/libhoard/pointer_policy.h: member_pointer_constructor_args", "include/libhoard/detail/mapped_type.ii: mapped_pointer: assign, weaken, strengthen, get"]}
{"id": "C86", "title": "The hash table is invisible", "statement": "Replace the hash function, the load factor and the maximal number of buckets. Every call shows what it shows without, including count; only the callbacks that the destructor drops may be dropped in another order.", "quantifier": "All histories, all configurations, all hash functions that respect equality, all load factors.", "why_tests_cant": "Quantifies over hash functions; a test has one or two.", "anchors": ["include/libhoard/detail/basic_hashtable.ii: link, rehash, bucket_for", "include/libhoard/detail/hashtable.ii: get, emplace, async_get, erase, count", "include/libhoard/hash.h"]}
{"id": "C87", "title": "The cache is a small cache", "statement": "Take a cache that does not refresh, whose size limit is not exceeded, with any resolver and any age limit. As long as clocks do not go back (or there is no time limit) and no bucket array is missing, every call shows exactly what it shows on a cache that is a list with one slot per key, a value with its time or a lookup with those who wait: results, calls of the resolver, who is told what and in which order, count. Only the callbacks that the destructor drops may be dropped in another order.", "quantifier": "All histories (synchronous and asynchronous), all configurations without refreshing, all key types, hash functions and load factors.", "why_tests_cant": "Equality with a reference over all histories; tests compare a few.", "anchors": ["include/libhoard/cache.h", "include/libhoard/detail/hashtable.ii: get, async_get, emplace, erase, clear, count", "include/libhoard/resolver_policy.ii", "include/libhoard/detail/async_resolver_callback.h"]}
{"id": "C88", "title": "Threads share the small cache", "statement": "Threads share a thread-safe cache without size limit and without refreshing. However its operations are cut into accesses to the linked entries, queues and counters, and however the threads are scheduled: what the threads see is linearizable with respect to a cache that is a list with one slot per key, and nothing undefined happens.", "quantifier": "All numbers of threads, schedules, calls, resolvers, age limits, hash functions.", "why_tests_cant": "Schedules, histories and cuts are unbounded.", "anchors": ["include/libhoard/thread_safe_policy.h", "include/libhoard/cache.h:35-92", "include/libhoard/detail/basic_hashtable.ii", "include/libhoard/detail/hashtable.ii", "include/libhoard/detail/refcount.ii"]}
{"id": "C89", "title": "Calls for other keys can be left out", "statement": "On a cache without size limit and without refreshing: take any sequence of calls, completions and dropped lookups, and leave out everything that is not about key a. The remaining calls return the same results, call the resolver at the same places, and the same listeners are told the same results at the same moments.", "quantifier": "All histories, all keys, all resolvers (none, synchronous, asynchronous with overlapping lookups), all age limits, all hash functions and table sizes.", "why_tests_cant": "Histories of unbounded length in which lookups of many keys overlap, with table growth and clean-up of neighbours.", "anchors": ["include/libhoard/cache.h:35-92", "include/libhoard/detail/hashtable.ii: get_, expire_, link", "include/libhoard/detail/cache_async_get.h"]}
{"id": "C90", "title": "Dead entries do not pile up", "statement": "If at every call at most M values are usable (what count() reports) or being looked up, then the cache never holds more than 2*M entries, dead ones included (or 4), and never more than 2*M buckets (or 4), with the default load factor limit; with a limit p/q the bounds scale accordingly. Lookups whose resolver never answers do pile up without bound.", "quantifier": "All histories, all numbers M, all load factor limits, all configurations.", "why_tests_cant": "The bound is on memory over unboundedly long histories, where the clean-up happens only now and then.", "anchors": ["include/libhoard/detail/basic_hashtable.ii:402-415 maybe_rehash_before_link_", "include/libhoard/detail/hashtable.ii: get_, expire_, purge, link, count"]}
{"id": "C91", "title": "The cache cannot be seen when the resolver computes a function", "statement": "If the resolver computes a function f of the key (the same value or the same error every time, for equal keys alike) and nobody stores other values, then every value returned by get, get_if_exists and get_or_emplace is the value of f at the key; get with a synchronous resolver returns f of the key or throws its error, always; every callback of an asynchronous get is invoked with f of its own key. Limits on size and age, refreshing, weak storage, erasing and the clocks make no difference. Without limits the resolver is called once for a key that has a value, and every time for a key for which it fails.", "quantifier": "All functions, all histories, all configurations, all clocks, all schedules of completions.", "why_tests_cant": "It speaks about every interleaving of evictions, refreshes, expiries and late completions; a single stale or misdirected answer would break it.", "anchors": ["include/libhoard/cache.h:44-89 get, get_if_exists, get_or_emplace", "include/libhoard/resolver_policy.ii:31-148 resolve, get", "include/libhoard/detail/async_resolver_callback.h:25-79 assign"]}
{"id": "C92", "title": "The Fibonacci example prints the right numbers", "statement": "The resolver of the example program returns the Fibonacci number for its argument if the number fits into uintmax_t and throws an error naming the argument otherwise; it never returns a number that has overflown. The recursive variant returns the same values and fails for the same arguments, but its error names the first argument that is too large. Whatever numbers are looked up, each line printed is the number or the error for it; a number is computed once, an error each time it is asked for. In main the numbers 0 to 90 are printed and 100 to 120 are errors, in both halves, and in the second half the resolver is called for the errors only.", "quantifier": "All arguments, all sizes of the integer type (at least 2 values), all sequences of lookups, all hash functions and clocks.", "why_tests_cant": "The overflow check relies on modular arithmetic at the boundary of the type; the example has no test.", "anchors": ["examples/fibonacci/fibonacci.cc:19-51 fib_resolver::operator()", "examples/fibonacci/fibonacci.cc:53-68 fib_cache, example_lookup", "examples/fibonacci/fibonacci.cc:70-88 main"]}
{"id": "C93", "title": "Inserting is cheap on average", "statement": "Inserting N entries into a cache changes, on average, a bounded number of places of the bucket array per entry, the growing of the table included. (False as stated. Inserting an entry changes the place of its bucket and those of all empty buckets directly after it; removing one does the same if the entry is the last of its bucket and changes nothing otherwise; growing inserts the entries in iteration order and costs the sum. Each of this is at most the number of buckets, and N insertions cost at most 6 (N + 1)^2. This order is reached: with the hash codes 0, 1, 2, ..., as integer keys have with the usual std::hash, one doubling of a table of n entries changes n (3 n + 1) / 2 places, and N insertions change at least 3 N^2 / 8.)", "quantifier": "All sequences of calls, all hash codes, all bucket counts; the lower bounds for every n and N.", "why_tests_cant": "The tests use tables of a few entries, where the cost cannot be seen; nothing measures it.", "anchors": ["include/libhoard/detail/basic_hashtable.ii:178-190 link_", "include/libhoard/detail/basic_hashtable.ii:192-209 rehash_", "include/libhoard/detail/basic_hashtable.ii:223-233 unlink_", "include/libhoard/detail/basic_hashtable.ii:378-415 link, maybe_rehash_before_link_"]}
{"id": "C94", "title": "Throwing comparisons and copies", "statement": "A comparison of keys or a copy of a result that throws leaves the cache as it was: a get, get_or_emplace or emplace that is left by such an exception changes no later answer, also when it has already passed other entries. (Lookups: true. emplace: false for its own key, which can lose its value although nothing is stored; then a lookup in flight of the key may or may not still count. Other keys keep their values, answers from the store stay right, nothing else is lost, and callbacks waiting for lookups are still invoked. erase cannot be left, it is noexcept: the program ends.)", "quantifier": "All histories of calls and of calls left at any entry their walk reaches, all hash functions, keys, times.", "why_tests_cant": "The tests use integers and strings, whose comparisons do not throw; the effect depends on the order of the entries of a bucket and on the comparison that fails.", "anchors": ["include/libhoard/detail/hashtable.ii:514-565 get_", "include/libhoard/detail/hashtable.ii:660-688 expire_", "include/libhoard/detail/hashtable.ii:768-795 emplace", "include/libhoard/cache.h:56-75 erase, emplace"]}
{"id": "C95", "title": "What an entry is made of", "statement": "Whatever policies are named, an entry of the cache is an element of its hash table and has one counter of references; it has links for the list of uses exactly if the size is limited (or the list is asked for), and links of its own for the list of refreshes of every refresh policy named. If no policy is named twice, an entry has none of these parts twice, so that being in one list never disturbs another.", "quantifier": "All lists of policies of the library and of the user's own policies without dependencies.", "why_tests_cant": "Ranges over all instantiations; a test instantiates a handful of combinations.", "anchors": ["include/libhoard/detail/hashtable.h:58-72, 283-290", "include/libhoard/detail/value_type.h:18-20", "include/libhoard/detail/queue.h:18-20", "include/libhoard/refresh_policy.h:17, 31-34"]}
{"id": "C96", "title": "The order in which policies are named does not matter", "statement": "Two caches with the same policies, named in different orders, behave the same: after the same uses at the same times they hold the same deadlines, the same order of uses and the same values, and the same entries are expired. In particular, naming a size limit before or after an age limit, a refresh or the pointer policy gives the same cache.", "quantifier": "All lists of policies of the library, all their arguments, all sequences of events at all times, any number of clocks.", "why_tests_cant": "There are factorially many orders of the policies, each of them a different C++ type, and each has to be tried with all histories.", "anchors": ["include/libhoard/detail/hashtable.ii:33-275, 897-904", "include/libhoard/detail/value_type.ii:9-25, 113-124", "include/libhoard/detail/meta.h:138-161", "include/libhoard/detail/refresh_impl_policy.ii:36-40"]}
{"id": "C97", "title": "When a value expires, whatever limits are combined", "statement": "A value that was put into the cache at one time, and is given nothing else afterwards, is expired at a later time exactly if it was evicted (or its object is gone), or one of the age limits has passed since it was put there (on its own clock, or on the steady clock if its own clock can be set), or one of the idle timers has run out since it was last used. A refresh is not a use: the refreshed value expires also when the value it replaces would have been idle for too long.", "quantifier": "All lists of policies, including several age limits with different clocks and the refresh policies of asio; all arguments; all sequences of events in between; nothing assumed of the clocks.", "why_tests_cant": "Ranges over all combinations of policies and clocks and all histories between the assignment and the question.", "anchors": ["include/libhoard/max_age_policy.ii:20-25", "include/libhoard/expire_at_policy.ii:11-19", "include/libhoard/refresh_policy.ii:24-70", "include/libhoard/asio/refresh_policy.ii:25-81, 104-160", "include/libhoard/detail/value_type.ii:113-124"]}
{"id": "C98", "title": "When a refresh is due, whatever policies are combined", "statement": "A value that is put into the cache is due for a refresh, with each refresh policy that is named, at a time fixed at that moment: the delay later on that policy's clock, or when the user's function says. Using the value, other entries, evictions and maintenance do not move that time. When the entry is removed its timers are stopped and it leaves the list of refreshes. An error is never due for a refresh, and starts no idle timer.", "quantifier": "All lists of policies, arguments and user functions; all sequences of events.", "why_tests_cant": "Ranges over all combinations of policies and all histories between the assignment and the due time.", "anchors": ["include/libhoard/refresh_policy.ii:51-76", "include/libhoard/asio/refresh_policy.ii:54-87, 133-166", "include/libhoard/detail/hashtable.ii:217-252"]}
{"id": "C99", "title": "Order and self-check of the recency queue", "statement": "The recency queue of a cache with a limit holds a sequence: a new entry is put in the middle, an entry that is used moves to the front, a removed entry leaves. Iterating over it in either direction meets that sequence, its first half (rounded down) is exactly the entries protected from eviction, and a request to evict picks entries from its end and never one of the first half. The queue's self-check, which the project's tests call after each step, returns true after every sequence of events and in every state of a cache. On a queue with sound links it returns true exactly if the two halves, the parity flag and the middle are as they should be; it does not look at the backward links.", "quantifier": "All sequences of events on any number of entries; all histories of a cache; all queues with sound links.", "why_tests_cant": "The tests call the self-check after a handful of events on up to eight entries; that it holds after every sequence, and what passing it implies, needs induction.", "anchors": ["include/libhoard/detail/queue.ii:11-83, 95-110", "include/libhoard/detail/queue.h:28-79", "include/libhoard/detail/linked_list.ii:90-234"]}
{"id": "C100", "title": "Which keys are hashed and compared", "statement": "A call that is given a key computes the hash code of that key and no other (once; emplace of a key and a value does so twice), and then compares it with stored keys that have the same hash code: each at most once, never one with another hash code, the stored key as first argument. A lookup stops at the entry that answers it; if none answers, it has compared all of them; removals and replacements compare all of them. Other calls (count, clear, refreshes, results of lookups, destruction) call neither function. Without an asynchronous resolver and refreshing, at most one of the comparisons in a call finds equality, and with a perfect hash function there is at most one comparison at all, however full the cache is. With an asynchronous resolver that drops its callbacks this fails: a call may compare its key with any number of dead entries for that key.", "quantifier": "All histories, all hash functions and equivalences, all calls.", "why_tests_cant": "Tests look at results, not at calls of the hash function and the comparison, and use a few keys; the bound holds for every number of entries and every collision pattern.", "anchors": ["include/libhoard/detail/hashtable.ii:487-562", "include/libhoard/detail/hashtable.ii:567-608", "include/libhoard/detail/hashtable.ii:660-698", "include/libhoard/detail/hashtable.ii:768-866", "include/libhoard/detail/value_type.ii:82-98"]}
{"id": "C101", "title": "Bucket arrays are given back once, and growing is cheap", "statement": "Whatever sequence of insertions, removals, reserve, changes of the load factor limit and clears is made, and whichever allocations fail: each bucket array is given back to the allocator exactly once and with the size it was asked for, at most one is held between calls, it has bucket_count() elements, and none is held after destruction. A failed allocation leaves the table as it was (expired entries may be gone), a failed change of the limit leaves the old limit, and a failed insertion can be repeated with the result it would have had. Insertions and removals fill at most twice as many array elements in all as there are buckets (three times at the largest bucket count), with the default limit at most 4 per insertion (or 8). Not true: that only arrays are given back (the first growth gives back a null pointer), and that growing is cheap with reserve (one call of reserve(size()+1) per insertion fills a quadratic number of elements).", "quantifier": "All sequences of calls, all load factor limits, all patterns of failing allocations.", "why_tests_cant": "Tests use the default allocator, which accepts anything, and never fail an allocation; the bounds hold for every number of calls.", "anchors": ["include/libhoard/detail/basic_hashtable.ii:51-66", "include/libhoard/detail/basic_hashtable.ii:192-213", "include/libhoard/detail/basic_hashtable.ii:318-428"]}
{"id": "C102", "title": "Refreshes that fail lose no value and are not repeated", "statement": "With timers of an io_context: when a refresh throws (allocation, making the value, growing the table, the functor), the exception reaches the caller of the executor, and every key still shows the value it showed before, until that is too old or idle for too long; values shown are always those written last. The refresh of a value is attempted at most once: after a failed attempt no handler for it runs again, so the value stays, if nothing else removes it, for ever without a refresh. Every other value is still refreshed when it is due. Not true: if the functor keeps its handle, throws and delivers later, the delivered value is stored but the old one is shown; if the callback that would retire the old value cannot be registered, the old value is removed at once. A refresh fails in growing the table exactly if it grows the table, and one in which nothing fails does what it always does. With the refresh thread, a refresh that throws ends the program: exactly if the refresh that fails would have called the resolver.", "quantifier": "All histories of calls and handlers, all points of failure, all resolvers, keys and times.", "why_tests_cant": "The tests never let a resolver or an allocation fail during a refresh, and a failure in the refresh thread ends the test program.", "anchors": ["include/libhoard/detail/refresh_impl_policy.ii:52-89", "include/libhoard/asio/refresh_policy.ii:57-66", "include/libhoard/refresh_policy.ii:95-123", "include/libhoard/resolver_policy.ii:31-53", "include/libhoard/resolver_policy.ii:80-93"]}
{"id": "C103", "title": "64-bit times are as good as unbounded ones while the limits can be added to them", "statement": "Deadlines are sums of the time now and a limit, in signed 64-bit numbers; a sum that does not fit is undefined behaviour. If the limits can be added to every time shown during a history, no sum overflows, and every result is what it would be if times were unbounded; with nanoseconds this holds for limits of up to 146 years, until 2116. If no sum overflows, all results are right, whatever the limits. Storing or delivering a value, looking one up, or refreshing one, overflows exactly if the age limit (converted from milliseconds to ticks), the refresh delay or the idle timer cannot be added; a hit overflows exactly if the idle timer cannot be added. Not true for the largest limits, which one might use for \"for ever\": with an age limit of milliseconds::max() every store of a value is undefined, with an idle timer of duration::max() every store after the epoch; on hardware that wraps, the value is too old at once.", "quantifier": "All limits, clock readings, keys, values and histories of calls.", "why_tests_cant": "The tests use limits of seconds; overflow shows at the extremes only and is undefined behaviour that a test build may happen to survive.", "anchors": ["include/libhoard/max_age_policy.ii:17-39", "include/libhoard/max_age_policy.h:31-46", "include/libhoard/refresh_policy.ii:41-75", "include/libhoard/refresh_policy.h:25-65", "include/libhoard/detail/refresh_impl_policy.ii:64"]}
{"id": "C104", "title": "Which entries a call looks at, and how many", "statement": "A call that is given a key looks at the entries in the bucket of the key, in their order; a lookup ends at the entry that answers it, emplace and erase look at all of them. A pass over the whole table is made only before an insertion that would exceed the load factor limit (and by clear, count and the destructor), looks at no entry twice, and is never for nothing: afterwards there are not more entries than before, or the number of buckets has doubled. No entry is removed without being looked at, and before the table grows all of it is looked at. All passes of a history in which nothing was removed look together at no more entries than the table may hold in the end. To keep a size limit, an operation looks at no more entries from the cold end of the recency queue than the cache has too many; without a limit it does not look at the queue. If there is no memory for the entry, no pass is made; nor by a lookup or by the refresh worker if the resolver is not called. Not true: that an insertion looks at few entries on average. With a size limit m that is one less than a power of two, the cache gets into a state in which each insertion of a new key looks at all m + 1 entries and leaves the cache in this state, unless the key shares the bucket of the one expired entry; with a limit m that is a power of two, inserting 2m keys looks at m(m+1)/2 entries of the recency queue, because those expired by one insertion are looked at again by the next.", "quantifier": "All keys, hash functions, load factor limits, size limits and histories of calls.", "why_tests_cant": "The tests check results, not the number of entries visited; that the bad state reproduces itself for ever, and that the costs add up, are statements about histories of any length.", "anchors": ["include/libhoard/detail/hashtable.ii:487-562", "include/libhoard/detail/hashtable.ii:644-698", "include/libhoard/detail/hashtable.ii:892-931", "include/libhoard/detail/basic_hashtable.ii:402-415", "include/libhoard/detail/queue.ii:95-110", "include/libhoard/max_size_policy.ii:16-20"]}
{"id": "C105", "title": "Load factors in single precision", "statement": "The load factor and its limit are `float`s: numbers are rounded to 24 binary digits. For limits of at least 1/4, whatever a program does, the load factor that the table reports is never above the limit, unless the table has the maximal number of buckets, and the true quotient of entries and buckets exceeds the limit by at most one part in 2^22. With the default limit 1 the test is exact for tables of up to 2^24 entries and buckets. After reserve(m) there is room for m entries less one part in 2^22: as long as there are no more, no insertion makes the table grow; for m up to 2^22 this is room for m - 1 entries. With a limit that is a power of two there is room for all m. Not true: that the exact quotient stays within the limit (for every k >= 24, 2^k + 2^(k-24) insertions leave a table of at most 2^k buckets); that reserve(m) always makes room for m (with the limit 0.97, reserve(127232) makes 131167 buckets, and the 127232nd insertion grows the table; with the limit 0.45454544, reserve(5) makes 11 buckets, and the fifth insertion grows the table); that after max_load_factor(x) the load factor is at most x (the same numbers); that reserve is defined for every m (with limit 1, not for the last 2^39 values; with limit 0, for none); that max_load_factor(x) is defined for every x (not for x = 2^-64 if there are entries). A constructor takes every limit: with an infinite one or NaN the table has at most four buckets for ever (with an infinite one reserve does nothing, and setting one moves nothing), with a limit of 0 or below each insertion doubles the number of buckets.", "quantifier": "All limits that a float can hold, all numbers of entries, all histories of calls, all sequences of insertions and removals.", "why_tests_cant": "The errors appear only for particular combinations of limit and size or beyond 16 million entries; that nothing worse happens is a statement about all floats.", "anchors": ["include/libhoard/detail/basic_hashtable.ii:47-49", "include/libhoard/detail/basic_hashtable.ii:320-329", "include/libhoard/detail/basic_hashtable.ii:355-415", "include/libhoard/detail/basic_hashtable.h:223-237"]}
{"id": "C106", "title": "Starting the threads of a cache", "statement": "The constructor of a cache starts one thread for each refresh policy that the user has named and none for others. If all can be started it succeeds, and the destructor stops them all. If one cannot be started, the constructor throws and leaves no thread running. The last part is not true: the constructor has a handler that stops the threads and throws again, but it never runs, because the function that calls the policies is noexcept. A thread that cannot be started ends the program. Without that noexcept the claim holds.", "quantifier": "All lists of policies without repetition, every pattern of failures.", "why_tests_cant": "The failure of a thread to start cannot be provoked by a unit test, and which of several fails is a matter of the whole system.", "anchors": ["include/libhoard/detail/hashtable.ii:163-193", "include/libhoard/detail/hashtable.ii:211-214", "include/libhoard/detail/hashtable.ii:254-280", "include/libhoard/refresh_policy.ii:78-93", "include/libhoard/detail/meta.h:124-161"]}
{"id": "C107", "title": "Futures show the results of lookups", "statement": "The future that get of a cache with an asynchronous resolver returns holds a value if the lookup ended with a value, that value, and otherwise the error. This is true whenever an error made by default counts as no error and no lookup ends with an error that counts as none, whatever is done with the cache. It is not true in general, for any type of errors: a lookup that ends with an error that counts as none (such as a null exception_ptr, or 0) gives all its waiters a value made by default, which nobody has provided; and if an error made by default counts as one, all successes are reported as errors. A completion handler, which gets both a value and an error, cannot tell the two cases apart either.", "quantifier": "All types of values and errors, all results, all histories.", "why_tests_cant": "Tests deliver a few real errors; the claim is about every error type and every history.", "anchors": ["include/libhoard/detail/pending.ii:20-42", "include/libhoard/detail/hashtable.ii:617-626", "include/libhoard/resolver_policy.ii:123-148", "include/libhoard/asio/resolver_policy.h:117-150", "include/libhoard/error_policy.h:9-13"]}
{"id": "C108", "title": "Completion handlers and executors", "statement": "With asio_resolver_policy, the functor of the resolver and the completion handlers run on executors. Each handler runs once, with the result with which the cache answered its request, and each lookup calls the functor once, whatever the executors do in between. No handler runs inside async_get, nor on a thread that is not inside its executor. run() of an executor returns exactly when all its handlers have run or were dropped, and all calls of the functor were made if it is the one of the resolver. Left alone, executors come to an end. Handlers run in the order in which requests were answered, if results are delivered by threads outside of the executors. Not true: that they always do; a handler that was answered from the cache waits in the queue while the handler of a later lookup is run at once, so that it sees the older value later. Not true either: that run() returns in the end; if a functor that runs inside async_get drops its handle, run() does not return while the cache lives.", "quantifier": "All executors, all assignments of handlers to them, all histories of operations and all orders in which queued functions run.", "why_tests_cant": "Tests use one io_context and few requests; the claim is about all interleavings of executors with operations.", "anchors": ["include/libhoard/asio/resolver_policy.h:70-84", "include/libhoard/asio/resolver_policy.h:117-150", "include/libhoard/detail/hashtable.ii:597-642", "include/libhoard/detail/pending.ii:15-42"]}
{"id": "C109", "title": "Memory order of the reference counts", "statement": "An entry is shared between the table and callbacks of running lookups, and destroyed by whichever drops its pointer last. In every execution it is destroyed once, exactly when no pointer is left, and nobody accesses it or copies a pointer to it afterwards. Every access to the entry, by any thread, should also happen before its destruction in the sense of the C++ memory model. That holds if the last pointer is dropped under the lock of the table and either the access or all later drops of pointers are under it too. Not true in general: the counter is decremented with release order and without acquire, so what the thread that erased the entry did to it need not happen before its destruction by the thread that drops the callback. With acquire-release order it would always hold.", "quantifier": "All numbers of threads and all interleavings of their accesses, copies and drops of pointers, and operations on the lock.", "why_tests_cant": "A missing acquire shows only on some processors, in few interleavings, and sanitizers see only the executions that happen.", "anchors": ["include/libhoard/detail/refcount.ii:6-12", "include/libhoard/detail/refcount.ii:195-206", "include/libhoard/detail/async_resolver_callback.h:25-27", "include/libhoard/detail/hashtable.ii:944-953", "include/libhoard/thread_safe_policy.ii:10-20"]}
{"id": "C110", "title": "A cache with a size limit evicts only when it is full", "statement": "A cache with size limit N (no age limit) to which values were added has N values, or every key for which a value was added is found: nothing is evicted while there is room. That holds if nothing was erased, no resolution failed, and the cache never had 2N entries (with dead ones, which it may keep); with the default load factor limit and no resolver the last is so for every N from 3 on except 4, 8, 16, .... Not true in general: erased or evicted entries and failed resolutions that are still in the table take up room, so values are evicted from a cache that has few; and with N = 4 a value that replaces one in a full cache is lost at once, leaving three.", "quantifier": "All sequences of calls of any length that only fill the cache, all limits, keys, hash functions and times.", "why_tests_cant": "Whether values are lost depends on which dead entries the table still has, which depends on hash values and on the order of all calls before; tests try a few sequences.", "anchors": ["include/libhoard/detail/queue.ii: on_create_, on_hit_, on_unlink_, lru_expire_", "include/libhoard/max_size_policy.ii", "include/libhoard/detail/hashtable.ii: emplace, get_or_emplace, maintenance_", "include/libhoard/detail/basic_hashtable.ii:405-427"]}
{"id": "C111", "title": "Entries of sets behave as entries of maps whose keys are the values", "statement": "The version of the entries for sets (key type `identity_t`: the value is the key) gives a lookup what an entry of a map gives whose key is the value, whatever calls were made on the two and whatever the lookup looks for. With policies this is so as long as no age limit has passed and no idle timer has run out. Not true after that: the entry of a map is no longer found, that of a set is found for ever, since it never asks the policies. Nor true of the question whether it matches: an erased or evicted entry of a set matches nothing, that of a map still matches its key.", "quantifier": "All values, all sequences of calls and of policy events of any length, all lists of policies, all lookup functions, all times.", "why_tests_cant": "The repository has no tests with sets; a test compares single lookups, not every sequence of calls with every combination of policies.", "anchors": ["include/libhoard/detail/value_type.h:85-130", "include/libhoard/detail/value_type.ii:178-265", "include/libhoard/detail/mapped_type.ii:121-133, 175-179, 375-393, 443-454"]}
{"id": "C112", "title": "Function references call the function they were made from", "statement": "A call of a function reference (the pair of pointers with which the cache hands on the functions that recognise keys and that remove dead entries) calls the function it was made from exactly once, with the same argument, on the function object itself, as const if it was made from a const one, and gives its result or exception; a reference to a noexcept function on the way ends the program instead of letting an exception through. So it is for references made from references, any number of times, exactly as long as all objects needed are there; it is always so if objects are destroyed in the opposite order of their construction, as in the cache. A copy does not need the original if this is const or moved from. Not true of `function_ref g = f` for an f that is not const: g refers to f, and calling it after f is destroyed is undefined though the function is there.", "quantifier": "All function objects, all programs of any length that make, copy, call and destroy functions and references in any order, all arguments.", "why_tests_cant": "A copy that refers to the original works in every test in which the original still exists, and mostly does when its memory has not been overwritten yet.", "anchors": ["include/libhoard/detail/function_ref.h", "include/libhoard/detail/function_ref.ii", "include/libhoard/detail/hashtable.ii:488-540, 661-671, 713-719"]}
{"id": "C113", "title": "The events that policies are told describe the table", "statement": "A policy written by a user that implements on_create_, on_assign_, on_hit_, on_miss_ and on_unlink_ can rely on the order of the calls, whatever is done with the cache: each entry is created once, assigned at most once, and hit, assigned and unlinked only between its creation and its unlinking; an assignment that does not come from a callback follows at once on the creation. The entries created and not yet unlinked are exactly those in the table, for entries with values policies were told so (and not that they got none), and when the cache is destroyed all were unlinked. The flags of assignments are right: the first says whether the result is a value, the second whether a callback object brought it. get and get_or_emplace report exactly one hit or miss each, all other operations (also get_if_exists and count) none; a hit names the entry that was found, and its value is the one returned; a resolver is called exactly when a miss is reported; without resolver a reported miss is answered with nothing and a value only after a hit. No lookup in flight is unlinked, except by the destructor (though detail/notes.txt says never). The policies of the library know nothing else: the recency order by which max_size_policy evicts and the order in which refreshes fall due are what these calls, in this order, make of them (a due refresh is taken off the front).", "quantifier": "All configurations of policies, all histories of any length of all operations, including completed, dropped, late and failed lookups, refreshes and failing allocations.", "why_tests_cant": "Calls out of order would only be seen by a policy that counts on them, after a particular sequence of expiries, refreshes and failed insertions.", "anchors": ["include/libhoard/detail/notes.txt:15-27, 63-83", "include/libhoard/detail/hashtable.ii:33-125, 216-240, 477-480, 514-565, 713-719, 944-953", "include/libhoard/detail/async_resolver_callback.h:29-60"]}
{"id": "C114", "title": "Policies also understand the calls when resolvers and handlers use the cache", "statement": "The calls that policies are told (C113) still make sense, the entries created and not yet unlinked are still exactly those in the table, and entries with values were reported as such, with the right flags, when synchronous resolvers use the cache at any depth of nesting, and when asynchronous ones use it, complete lookups before they return, or throw; also at the moments in which they run. With completion handlers that use the cache, entries are still created once, hit and unlinked only while they are in the table, and assigned at most once, and the table is still known; but an entry can be assigned a value after it was unlinked (a handler that erases the key whose value it is told), and a handler can find a value that was not announced yet. The queue of the refresh policy then keeps an entry that is not in the table; the recency queue of max_size_policy is in all these cases what it makes of the calls.", "quantifier": "All configurations (for handlers: without refresh policy), all nested histories of any length and depth.", "why_tests_cant": "Needs a policy that counts on the order of the calls, together with resolvers or handlers that use the cache in the middle of an operation.", "anchors": ["include/libhoard/detail/notes.txt:15-27, 63-83", "include/libhoard/detail/hashtable.ii:567-642", "include/libhoard/resolver_policy.ii:31-93", "include/libhoard/detail/async_resolver_callback.h:29-60", "include/libhoard/refresh_policy.ii:45-76"]}
{"id": "C115", "title": "Policies also understand the calls when operations fail", "statement": "The calls that policies are told (C113) make sense, the entries created and not yet unlinked are exactly those in the table, and entries with values were reported as such, with the right flags, when resolvers throw, values cannot be made, allocations fail, and when a comparison or a copy throws in the middle of a lookup or an erasure. A lookup that fails in its resolver was reported as a miss before; a call left in the middle of a walk reports the entries it dropped but neither hit nor miss. An entry whose value could not be made is never assigned, not even if its callback object is used again, but stays known. The queue of the size-limiting policy follows the calls in all of these, that of the refreshing policy in the calls that fail.", "quantifier": "All configurations, all histories of any length, all points of failure.", "why_tests_cant": "Needs failures injected at each point of each operation, and a policy that counts on the order of the calls after them.", "anchors": ["include/libhoard/detail/hashtable.ii:514-565, 567-642, 660-698", "include/libhoard/resolver_policy.ii:31-93", "include/libhoard/detail/async_resolver_callback.h:29-60", "include/libhoard/detail/basic_hashtable.ii:403-409"]}
{"id": "C116", "title": "Moving the recency queue", "statement": "A recency queue can be moved to another place at any time, and as often as one likes, without changing the order of its entries, which of them are protected, or the result of its self-check; the queue that was moved from is an empty list. This holds for queues that have entries. Moving an empty queue makes one that takes the head of the old queue for an entry, and its self-check is undefined behaviour. A queue that was moved from must not be used: its self-check does not end, and an entry that is added to it comes into the new queue, whose self-check then fails.", "quantifier": "All sequences of additions, hits, removals and moves, of any length and with any number of entries.", "why_tests_cant": "The project's tests never move a queue; the outcome depends on the number of entries at each of the moves.", "anchors": ["include/libhoard/detail/queue.h:42-47, 77-79", "include/libhoard/detail/queue.ii:11-83", "include/libhoard/detail/linked_list.ii:36-44"]}
{"id": "C117", "title": "Counted pointers return memory through the allocator it came from, also when operations fail", "statement": "In a program of counted pointers that use different allocators, whichever allocator copies, allocations, constructors, allocator assignments, and destructors run by a reset throw, the memory in use is always that of the objects with an owner, one block each, and every object that loses its last owner is destroyed once and its memory goes back through the allocator that it came from, or is lost if its destructor threw; then its owner is null. Every pointer that is not null keeps that allocator. The memory lost is exactly that of the objects whose destructor threw; once no pointer is left, all other memory went back. Making, copying and moving have no effect if they fail. An assignment whose allocator assignment throws leaves its target null, with the old object given up, and everything else unchanged. A plain pointer that is handed to a pointer with another allocator goes back through the wrong one. If all pointers, objects and disposals use one allocator, as in a cache, correct use of the pointers is enough.", "quantifier": "All programs of constructions, copies, moves, assignments, releases, adoptions, resets and disposals, of any length, with any allocators and failures at any places.", "why_tests_cant": "The project's tests use the standard allocator, which never fails when copied and of which any two are equal.", "anchors": ["include/libhoard/detail/refcount.ii:14-37, 53-216", "include/libhoard/detail/hashtable.ii:700-719, 944-953"]}
