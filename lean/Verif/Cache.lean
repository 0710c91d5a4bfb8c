import Verif.Queue
import Verif.Mapped
/-!
# The cache

Models the operations of `cache` (`/repo/include/libhoard/cache.h`,
`resolver_policy.ii`, `detail/cache_get.h`) and of the `hashtable` behind it
(`/repo/include/libhoard/detail/hashtable.ii`), with the policies for size
limit, age limit, weakening, refreshing and (synchronous or asynchronous)
resolving.

The table is a list of buckets; module `Verif.Chain` models the pointer
structure that implements it and `Verif.Props.HashChain` proves that the
pointer operations act on the buckets as used here.

Simplifications, for the whole module:
* Every public operation holds the lock of the table (`cache.h`,
  `resolver_policy.ii`), so operations are atomic steps (see C37).
* The refresh policy uses the steady clock.  An age limit uses the steady clock
  alone, or together with one other clock.
* Keys are stored as given; `KeyType = identity_t` is not modelled.
* Waiters and resolvers do not call back into the cache except by completing
  or dropping their own lookup (lifted in `Verif.Nested`, `Verif.NestedAsync`
  and `Verif.Handlers`).
-/
namespace Hoard

variable {K V E : Type}

/-- Which resolver policy the cache has (hashtable.h:229-230). -/
inductive Kind where
  | none
  | sync
  | async
deriving DecidableEq

/-- Static configuration of a cache: hash and equality functions, mapper, and
policies. -/
structure Cfg (K : Type) where
  hash : K → Nat
  eqv : K → K → Bool
  /-- `pointer_policy` present: the mapper is `mapped_pointer`. -/
  ptr : Bool := false
  /-- `weaken_policy` present (queue.ii:104). -/
  weaken : Bool := false
  /-- `max_size_policy` present. -/
  maxSize : Option Nat := none
  /-- `max_age_policy` present (values). -/
  maxAge : Option Int := none
  /-- `max_age_policy` for errors present. -/
  errAge : Option Int := none
  /-- The clock of the age limits is not steady, so deadlines are kept on both
  clocks (max_age_policy.h:16-19, max_age_policy.ii:23). -/
  wall : Bool := false
  /-- `refresh_policy(delay, idle_timer)` present; idle 0 means no idle timer. -/
  refresh : Option (Int × Int) := none
  resolver : Kind := .none
  /-- `float(n) / float(buckets) > max_load_factor()`, basic_hashtable.ii:404.
  Left abstract so that any rounding is covered. -/
  over : Nat → Nat → Bool := fun n b => decide (n > b)
  /-- `max_bucket_count()`, basic_hashtable.ii:343-348. -/
  maxBuckets : Nat := 2 ^ 60

/-- An entry (`value_type`, value_type.h): the key, the mapped variant, and the
members added by the policies' `value_base` classes: `expire_tp_`
(expire_at_policy.h), `refresh_tp`, `cancel_tp` (refresh_policy.h:46) and
`refresh_started_` (refresh_impl_policy.h).  `none` is `time_point::max()`.  The
deadline of the age limit is one on the steady clock and, if the policy has
another clock, one on that clock (`expire_at_policy<std::chrono::steady_clock>`,
`expire_at_policy<Clock>`, max_age_policy.h:16-19). -/
structure Entry (K V E : Type) where
  id : Nat
  key : K
  mapped : Mapped V E
  expTp : Option (Int × Option Int) := none
  refTp : Option Int := none
  canTp : Option Int := none
  refreshing : Bool := false

/-- `now >= tp`.  The comparison of expire_at_policy.ii:11-14, refresh_policy.ii:26, 117. -/
def reached (now : Int) : Option Int → Bool
  | none => false
  | some t => decide (t ≤ now)

/-- Minimum of two time points; `none` is the maximal one.  `std::min` in expire_at_policy.ii:16-19,
refresh_policy.ii:31, 58-60. -/
def tpMin : Option Int → Option Int → Option Int
  | none, b => b
  | a, none => a
  | some a, some b => some (min a b)

/-- One of the clocks has reached its deadline (expire_at_policy.ii:11-14, for
each clock). -/
def Time.past (now : Time) : Option (Int × Option Int) → Bool
  | none => false
  | some (t, w) => decide (t ≤ now.steady) || reached now.wall w

@[simp] theorem Time.past_none (now : Time) : now.past none = false := rfl

/-- Keep the earlier deadline (expire_at_policy.ii:16-19, for each clock). -/
def deadMin : Option (Int × Option Int) → Option (Int × Option Int) → Option (Int × Option Int)
  | none, b => b
  | a, none => a
  | some (a, v), some (b, w) => some (min a b, tpMin v w)

namespace Entry

/-- `value_type::expired` (value_type.ii:113-124) with `expire_at_policy`
(expire_at_policy.ii:11-14) and `refresh_policy` (refresh_policy.ii:24-27).
Errors always count as expired: the test
`is_base_of_v<negative_cache_policy, value_type>` is false for every cache, see
`Verif.Meta`. -/
def expired (env : Env V) (e : Entry K V E) : Bool :=
  e.mapped.expired env || e.mapped.holdsError || env.now.past e.expTp || reached env.now e.canTp

/-- `pending()` (value_type.ii:108-111). -/
def isPending (e : Entry K V E) : Bool := e.mapped.isPending

/-- Change the mapped part.  `mapped_` of `value_type` (value_type.h:36). -/
def upd (f : Mapped V E → Mapped V E) (e : Entry K V E) : Entry K V E := { e with mapped := f e.mapped }

end Entry

/-- State of a cache. -/
structure St (K V E : Type) where
  /-- Buckets of the hash table. -/
  tbl : List (List (Entry K V E)) := []
  /-- Recency queue; only used with a size limit. -/
  bq : BQ := {}
  /-- `delay_queue` of the refresh policy (refresh_policy.h), ids in order. -/
  delayQ : List Nat := []
  /-- Entries that were unlinked.  The objects can still be referenced by a
  resolver's callback object or by a refresh in flight. -/
  limbo : List (Entry K V E) := []
  nextId : Nat := 0
  /-- Lookups whose callback object is neither used nor dropped:
  `called == false` (async_resolver_callback.h:78). -/
  opens : List Nat := []
  /-- The cache object was destroyed. -/
  destroyed : Bool := false

/-- Return value of a call.  Return types of cache.h:38, 78, 85, resolver_policy.ii:104,
hashtable.ii:893 and async_resolver_callback.h:30, 46, 62. -/
inductive Ret (V E : Type) where
  | unit
  | miss
  | val (v : V)
  | err (e : E)
  /-- the call throws (allocation failure, `bad_variant_access`, logic error) -/
  | throws
  | bool (b : Bool)
  | num (n : Nat)

/-- Everything an operation does that is visible outside: the return value, the
waiters notified (in order), the waiters whose callback is destroyed without
being invoked, the resolver calls made, and whether a new value was made from
the arguments of the call (visible through the constructor of the value).  A record of the model;
the calls come from hashtable.ii:590, 621-638, resolver_policy.ii:38, 46, 91 and pending.ii:27, 39,
68. -/
structure Out (K V E : Type) where
  ret : Ret V E := .unit
  fired : List (Nat × Res V E) := []
  broken : List Nat := []
  calls : List (K × Nat) := []
  made : Bool := false

namespace St

/-- All linked entries, in chain order.  The chain from `head_` (basic_hashtable.h:112). -/
def ents (s : St K V E) : List (Entry K V E) := s.tbl.flatten

/-- `size()` (basic_hashtable.ii:39-41). -/
def size (s : St K V E) : Nat := s.ents.length

/-- `bucket_for` (basic_hashtable.ii:215-217). -/
def bucketFor (s : St K V E) (h : Nat) : Nat := if s.tbl.length = 0 then 0 else h % s.tbl.length

/-- The entries of a bucket (hashtable.ii:906-916). -/
def bucket (s : St K V E) (i : Nat) : List (Entry K V E) := (s.tbl[i]?).getD []

/-- Replace the entries of a bucket.  What unlinking in a bucket amounts to
(basic_hashtable.ii:223-233). -/
def setBucket (s : St K V E) (i : Nat) (b : List (Entry K V E)) : St K V E := { s with tbl := s.tbl.set i b }

/-- Find a linked entry by id.  Stands for following a pointer to an entry (basic_hashtable.h:112).
-/
def find (s : St K V E) (i : Nat) : Option (Entry K V E) := s.ents.find? (fun e => e.id == i)

/-- Find an entry, linked or not, by id.  Stands for following a counted pointer to an entry
(async_resolver_callback.h:77, refresh_impl_policy.ii:71). -/
def findAny (s : St K V E) (i : Nat) : Option (Entry K V E) :=
  (s.ents ++ s.limbo).find? (fun e => e.id == i)

/-- Apply `f` to the object with the given id, linked or not.  Stands for calling a member function
through a pointer, as in async_resolver_callback.h:35, 51, 67. -/
def modify (s : St K V E) (i : Nat) (f : Entry K V E → Entry K V E) : St K V E :=
  { s with
    tbl := s.tbl.map (fun b => b.map (fun e => if e.id = i then f e else e))
    limbo := s.limbo.map (fun e => if e.id = i then f e else e) }

end St

/-! ## Lookup -/

/-- The condition under which `get_` and `expire_` drop an entry in passing
(hashtable.ii:526, 540-548, 677): expired and not a pending lookup. -/
def stale (env : Env V) (e : Entry K V E) : Bool := e.expired env && !e.isPending

/-- `value_type::get_if_matching` (value_type.ii:81-91). -/
def getIfMatching (cfg : Cfg K) (env : Env V) (k : K) (incl : Bool) (e : Entry K V E) : Look V E :=
  if cfg.eqv e.key k then e.mapped.get env incl else .none

/-- Result of walking a bucket: the entries kept, the entries unlinked (in
order) and what was found.  Result of the loops hashtable.ii:521-561, 644-658, 664-687, 918-931. -/
structure Walk (K V E : Type) where
  kept : List (Entry K V E)
  removed : List (Entry K V E)
  hit : Option (Nat × Look V E)

/-- Put an entry in front of the kept ones.  `before_i = iter` (hashtable.ii:543, 560, 652, 686,
928). -/
def Walk.keep (e : Entry K V E) (w : Walk K V E) : Walk K V E := { w with kept := e :: w.kept }

/-- Put an entry in front of the removed ones.  `unlink_and_dispose` (hashtable.ii:529, 547, 655,
673, 680, 926). -/
def Walk.drop (e : Entry K V E) (w : Walk K V E) : Walk K V E := { w with removed := e :: w.removed }

/-- The loop of `get_` (hashtable.ii:521-561). -/
def getWalk (cfg : Cfg K) (env : Env V) (k : K) (incl : Bool) : List (Entry K V E) → Walk K V E
  | [] => ⟨[], [], none⟩
  | e :: es =>
    if cfg.hash e.key ≠ cfg.hash k then
      if stale env e then (getWalk cfg env k incl es).drop e
      else (getWalk cfg env k incl es).keep e
    else
      if e.expired env then
        if e.isPending then (getWalk cfg env k incl es).keep e
        else (getWalk cfg env k incl es).drop e
      else
        match getIfMatching cfg env k incl e with
        | .none => (getWalk cfg env k incl es).keep e
        | l => ⟨e :: es, [], some (e.id, l)⟩

/-- The loop of `expire_` (hashtable.ii:664-687).  The `hit` component is
unused. -/
def expireWalk (cfg : Cfg K) (env : Env V) (k : K) : List (Entry K V E) → Walk K V E
  | [] => ⟨[], [], none⟩
  | e :: es =>
    if cfg.hash e.key = cfg.hash k ∧ cfg.eqv e.key k = true then
      if e.isPending then (expireWalk cfg env k es).keep (e.upd .markExpired)
      else (expireWalk cfg env k es).drop e
    else
      if stale env e then (expireWalk cfg env k es).drop e
      else (expireWalk cfg env k es).keep e

/-- `unlink_expired_elements_` (hashtable.ii:918-931): one pass over the whole
chain. -/
def purgeWalk (env : Env V) (es : List (Entry K V E)) : Walk K V E :=
  ⟨es.filter (fun e => !stale env e), es.filter (fun e => stale env e), none⟩

/-- The loop of `expire_all` (hashtable.ii:644-658). -/
def expireAllWalk (es : List (Entry K V E)) : Walk K V E :=
  ⟨(es.filter (fun e => e.isPending)).map (·.upd .markExpired), es.filter (fun e => !e.isPending), none⟩

/-! ## Events -/

/-- The disposer for one unlinked entry (hashtable.ii:944-953): `cancel()`,
then `on_unlink_` of the recency queue (queue.ii:39-60) and of the refresh
policy (refresh_policy.ii:72-76). -/
def disposeOne (cfg : Cfg K) (s : St K V E) (e : Entry K V E) : St K V E :=
  { s with
    limbo := s.limbo ++ [e.upd .cancel]
    bq := if cfg.maxSize.isSome then s.bq.onUnlink e.id else s.bq
    delayQ := s.delayQ.erase e.id }

/-- Dispose of several unlinked entries in order.  The disposer as called by the loops
(hashtable.ii:529, 547, 655, 673, 680, 926, 479). -/
def dispose (cfg : Cfg K) (s : St K V E) (es : List (Entry K V E)) : St K V E := es.foldl (disposeOne cfg) s

/-- `on_hit_`: recency queue (queue.ii:24-37, 120-126) and refresh policy
(refresh_policy.ii:65-70). -/
def onHit (cfg : Cfg K) (env : Env V) (s : St K V E) (i : Nat) : St K V E :=
  let s1 := if cfg.maxSize.isSome then
      { s.modify i (·.upd (.strengthen env)) with bq := s.bq.onHit i }
    else s
  match cfg.refresh with
  | none => s1
  | some (_, idle) =>
    if idle = 0 then s1
    else s1.modify i (fun e => if e.mapped.holdsValue env then { e with canTp := some (env.now + idle) } else e)

/-- `on_create_` (queue.ii:11-22, 112-118). -/
def onCreate (cfg : Cfg K) (env : Env V) (s : St K V E) (i : Nat) : St K V E :=
  if cfg.maxSize.isSome then
    let (bq', str) := s.bq.onCreate i
    let s1 := { s with bq := bq' }
    match str with
    | none => s1
    | some m => s1.modify m (·.upd (.strengthen env))
  else s

/-- Deadline set by the age limit in `on_assign_` (max_age_policy.ii:18-25 with
expire_at_policy.ii:16-19, which keeps the earlier deadline). -/
def ageTp (cfg : Cfg K) (env : Env V) (value : Bool) (tp : Option (Int × Option Int)) : Option (Int × Option Int) :=
  match (if value then cfg.maxAge else cfg.errAge) with
  | none => tp
  | some a => deadMin tp (some (env.now.steady + a, if cfg.wall then some (env.now.wall + a) else none))

/-- Times set by `on_assign_` of the age policies and the refresh policy
(refresh_policy.ii:49-63). -/
def assignTimes (cfg : Cfg K) (env : Env V) (value : Bool) (e : Entry K V E) : Entry K V E :=
  let e1 := { e with expTp := ageTp cfg env value e.expTp }
  match cfg.refresh with
  | none => e1
  | some (delay, idle) =>
    if value then
      { e1 with
        refTp := some (env.now + delay)
        canTp := if idle = 0 then e1.canTp else tpMin e1.canTp (some (env.now + idle)) }
    else e1

/-- `on_assign_` (hashtable.ii:221-224 and the policies above): also appends the
entry to the delay queue (refresh_policy.ii:54). -/
def onAssign (cfg : Cfg K) (env : Env V) (s : St K V E) (i : Nat) (value : Bool) : St K V E :=
  let s1 := s.modify i (assignTimes cfg env value)
  if cfg.refresh.isSome && value then { s1 with delayQ := s1.delayQ ++ [i] } else s1

/-! ## Insertion -/

/-- New bucket count in `maybe_rehash_before_link_` (basic_hashtable.ii:412),
initial size 4 (basic_hashtable.h:215). -/
def grown (cfg : Cfg K) (nb : Nat) : Nat :=
  if nb = 0 then 4 else if nb > cfg.maxBuckets / 2 then cfg.maxBuckets else 2 * nb

/-- Append an entry to its bucket (basic_hashtable.ii:178-190). -/
def place (cfg : Cfg K) (tbl : List (List (Entry K V E))) (e : Entry K V E) : List (List (Entry K V E)) :=
  tbl.modify (cfg.hash e.key % tbl.length) (· ++ [e])

/-- `rehash_` (basic_hashtable.ii:192-209, 417-427). -/
def rehash (cfg : Cfg K) (s : St K V E) (n : Nat) : St K V E :=
  { s with tbl := s.ents.foldl (place cfg) (List.replicate n []) }

/-- `unlink_expired_elements_` (hashtable.ii:918-931): filters every bucket,
disposing in chain order. -/
def purge (cfg : Cfg K) (env : Env V) (s : St K V E) : St K V E :=
  dispose cfg { s with tbl := s.tbl.map (fun b => (purgeWalk env b).kept) } (purgeWalk env s.ents).removed

/-- The part of `maybe_rehash_before_link_` before the final decision
(basic_hashtable.ii:403-409). -/
def beforeLink (cfg : Cfg K) (env : Env V) (s : St K V E) : St K V E :=
  if cfg.over (s.size + 1) s.tbl.length then purge cfg env s else s

/-- The final decision (basic_hashtable.ii:411): must the table grow? -/
def mustGrow (cfg : Cfg K) (s : St K V E) : Bool :=
  decide (s.tbl.length = 0) || (cfg.over (s.size + 1) s.tbl.length && decide (s.tbl.length < cfg.maxBuckets))

/-- `maybe_rehash_before_link_` (basic_hashtable.ii:402-415). -/
def maybeRehash (cfg : Cfg K) (env : Env V) (s : St K V E) : St K V E :=
  let s1 := beforeLink cfg env s
  if mustGrow cfg s1 then rehash cfg s1 (grown cfg s1.tbl.length) else s1

/-- `hashtable::link` (hashtable.ii:713-719) of a new entry (its id is
`s.nextId`). -/
def link (cfg : Cfg K) (env : Env V) (s : St K V E) (e : Entry K V E) : St K V E :=
  let s1 := maybeRehash cfg env s
  let s2 := { s1 with tbl := place cfg s1.tbl e, nextId := s1.nextId + 1 }
  let s3 := onCreate cfg env s2 e.id
  if e.isPending then s3 else onAssign cfg env s3 e.id (e.mapped.holdsValue env)

/-- A new entry (`allocate_value_type`, hashtable.ii:700-704). -/
def newEntry (s : St K V E) (k : K) (m : Mapped V E) : Entry K V E := { id := s.nextId, key := k, mapped := m }

/-- `lru_expire_` applied to the chosen entries (queue.ii:104-107). -/
def evictAll (cfg : Cfg K) (s : St K V E) (vs : List Nat) : St K V E :=
  vs.foldl (fun s i => s.modify i (·.upd (if cfg.weaken then .weaken cfg.ptr else .markExpired))) s

/-- `maintenance_` (hashtable.ii:897-904) with `max_size_policy`
(max_size_policy.ii:16-20) and `lru_expire_` (queue.ii:95-110). -/
def maintenance (cfg : Cfg K) (s : St K V E) : St K V E :=
  match cfg.maxSize with
  | none => s
  | some m => evictAll cfg s (s.bq.victims (s.size - m))

/-! ## Public operations -/

/-- The first match of `get_if_exists_` (hashtable.ii:487-496). -/
def peekWalk (cfg : Cfg K) (env : Env V) (k : K) : List (Entry K V E) → Look V E
  | [] => .none
  | e :: es =>
    if cfg.hash e.key ≠ cfg.hash k then peekWalk cfg env k es
    else
      match getIfMatching cfg env k false e with
      | .none => peekWalk cfg env k es
      | l => if e.expired env then peekWalk cfg env k es else l

/-- What the caller sees of a lookup through an optional (cache.h:41-47,
detail/cache_get.h:31-37). -/
def optRet : Look V E → Ret V E
  | .val v => .val v
  | _ => .miss

/-- `cache::get_if_exists` (cache.h:35-48). -/
def getIfExists (cfg : Cfg K) (env : Env V) (s : St K V E) (k : K) : Out K V E :=
  { ret := optRet (peekWalk cfg env k (s.bucket (s.bucketFor (cfg.hash k)))) }

/-- Apply a walk of one bucket: store the kept entries, dispose of the others.  Simplified: the code
disposes of each entry as it unlinks it (hashtable.ii:529, 547, 673, 680), here after the walk; the
disposer does not look at the bucket. -/
def applyWalk (cfg : Cfg K) (s : St K V E) (i : Nat) (w : Walk K V E) : St K V E :=
  dispose cfg (s.setBucket i w.kept) w.removed

/-- `hashtable::get_` (hashtable.ii:514-565). -/
def get_ (cfg : Cfg K) (env : Env V) (s : St K V E) (k : K) (incl : Bool) : St K V E × Look V E :=
  let i := s.bucketFor (cfg.hash k)
  let w := getWalk cfg env k incl (s.bucket i)
  let s1 := applyWalk cfg s i w
  match w.hit with
  | none => (s1, .none)
  | some (id, l) => (onHit cfg env s1 id, l)

/-- `hashtable::expire_` (hashtable.ii:660-688). -/
def expire_ (cfg : Cfg K) (env : Env V) (s : St K V E) (k : K) : St K V E :=
  let i := s.bucketFor (cfg.hash k)
  applyWalk cfg s i (expireWalk cfg env k (s.bucket i))

/-- `cache::erase` (cache.h:56-61). -/
def erase (cfg : Cfg K) (env : Env V) (s : St K V E) (k : K) : St K V E := expire_ cfg env s k

/-- `cache::clear` (cache.h:50-54; hashtable.ii:644-658). -/
def clear (cfg : Cfg K) (s : St K V E) : St K V E :=
  dispose cfg { s with tbl := s.tbl.map (fun b => (expireAllWalk b).kept) } (expireAllWalk s.ents).removed

/-- Points at which an insertion can fail: construction of the entry, or
allocation of the bucket array.  The two lines marked `may throw`: allocate_refcount in
refcount.ii:20-25, growing in hashtable.ii:715 (basic_hashtable.ii:424). -/
inductive Fail where
  | none
  | alloc
  | grow

/-- Insertion of a value with possible failure: `allocate_value_type` may
throw before anything else happens; growing may throw after the dead entries
were purged and before the entry is linked (basic_hashtable.ii:379-380, 421). -/
def tryLink (cfg : Cfg K) (env : Env V) (s : St K V E) (e : Entry K V E) : Fail → St K V E × Bool
  | .none => (link cfg env s e, true)
  | .alloc => (s, false)
  | .grow =>
    let s1 := beforeLink cfg env s
    if mustGrow cfg s1 then (s1, false) else (link cfg env s e, true)

/-- `cache::emplace` (cache.h:63-75; hashtable.ii:768-795). -/
def emplace (cfg : Cfg K) (env : Env V) (s : St K V E) (k : K) (v : V) (f : Fail) : St K V E × Out K V E :=
  let s1 := expire_ cfg env s k
  let (s2, ok) := tryLink cfg env s1 (newEntry s1 k (.value v)) f
  if ok then (maintenance cfg s2, { made := true }) else (s2, { ret := .throws })

/-- `cache::get_or_emplace` (cache.h:77-89; hashtable.ii:797-890).
`std::get<1>` throws when the result holds no value. -/
def getOrEmplace (cfg : Cfg K) (env : Env V) (s : St K V E) (k : K) (v : V) (f : Fail) : St K V E × Out K V E :=
  let (s1, l) := get_ cfg env s k true
  match l with
  | .val v' => (maintenance cfg s1, { ret := .val v' })
  | .none =>
    let (s2, ok) := tryLink cfg env s1 (newEntry s1 k (.value v)) f
    if ok then (maintenance cfg s2, { ret := .val v, made := true }) else (s2, { ret := .throws })
  | _ => (maintenance cfg s1, { ret := .throws })

/-- Variant stored for the result of a synchronous lookup
(resolver_policy.ii:34-50). -/
def syncMapped : Res V E → Mapped V E
  | .ok v => .value v
  | .err e => .error e

/-- `resolver_policy::resolve` (resolver_policy.ii:31-53): call the resolver
(which returns or throws `r`), link the result. -/
def resolveSync (cfg : Cfg K) (env : Env V) (s : St K V E) (k : K) (r : Res V E) : St K V E × Nat :=
  (link cfg env s (newEntry s k (syncMapped r)), s.nextId)

/-- What `cache::get` makes of the variant it gets back
(resolver_policy.ii:107-118): a value is returned, an error rethrown, anything
else is reported as an internal error. -/
def syncRet : Look V E → Ret V E
  | .val v => .val v
  | .err e => .err e
  | _ => .throws

/-- `get` without resolver (detail/cache_get.h:24-39) and with a synchronous
resolver (resolver_policy.ii:101-120; hashtable.ii:567-595). `r` is what the
resolver would return.  The result of a lookup is read back from the new entry. -/
def get (cfg : Cfg K) (env : Env V) (s : St K V E) (k : K) (r : Res V E) : St K V E × Out K V E :=
  let (s1, l) := get_ cfg env s k false
  match cfg.resolver, l with
  | .sync, .none =>
    let (s2, tok) := resolveSync cfg env s1 k r
    (s2, { ret := syncRet ((syncMapped r).get env false), calls := [(k, tok)] })
  | .sync, l => (s1, { ret := syncRet l })
  | _, .val v => (s1, { ret := .val v })
  | _, _ => (s1, { ret := .miss })

/-- What an asynchronous resolver does with its callback object while it is
being called: keep it for later, complete it, or drop it.  What may happen during the call in
resolver_policy.ii:91. -/
inductive Beh (V E : Type) where
  | later
  | now (r : Res V E)
  | drop

/-- Effect of the callbacks of a lookup on the table: the callback of a refresh
copies the old entry's deadline (refresh_policy.ii:29-32) and marks it expired
(refresh_impl_policy.ii:70-75).  `i` is the entry of the lookup. -/
def runCb (s : St K V E) (i : Nat) : Cb → St K V E
  | .user _ => s
  | .refresh old =>
    let tp := match s.findAny old with
      | some o => o.canTp
      | none => none
    (s.modify i (fun e => { e with canTp := tpMin e.canTp tp })).modify old (·.upd .markExpired)

/-- Run all callbacks in order (pending.ii:20-42). -/
def runCbs (s : St K V E) (i : Nat) (cbs : List Cb) : St K V E := cbs.foldl (fun s cb => runCb s i cb) s

/-- The waiters among the callbacks.  Those added by hashtable.ii:628-638, as opposed to
refresh_impl_policy.ii:71-75. -/
def users (cbs : List Cb) : List Nat :=
  cbs.filterMap (fun | .user w => some w | .refresh _ => none)

/-- Variant of a pending lookup after completion.  `assign` and `assign_error` of
value_type.h:81-82, mapped_type.ii:32-48. -/
def completed (cfg : Cfg K) (r : Res V E) : Mapped V E → Mapped V E
  | .pending p => match r with
    | .ok v => .assigned cfg.ptr p v
    | .err e => .assignedError p e
  | m => m

/-- Whether the result is a value.  The argument `value` of `on_assign_`
(async_resolver_callback.h:36, 52). -/
def Res.isOk : Res V E → Bool
  | .ok _ => true
  | .err _ => false

/-- `async_resolver_callback::assign` and `assign_error`
(async_resolver_callback.h:29-60): run the callbacks, set the result, then
`on_assign_`.  Ignored when already used.  When the cache is gone
(`weak_self.lock()` fails) the lookup is just cancelled. -/
def complete (cfg : Cfg K) (env : Env V) (s : St K V E) (tok : Nat) (r : Res V E) : St K V E × Out K V E :=
  if tok ∈ s.opens then
    let s0 := { s with opens := s.opens.erase tok }
    if s.destroyed then
      let cbs := ((s0.findAny tok).map (·.mapped.cbs)).getD []
      (s0.modify tok (·.upd .cancel), { ret := .bool false, broken := users cbs })
    else
      let cbs := ((s0.findAny tok).map (·.mapped.cbs)).getD []
      let s1 := runCbs s0 tok cbs
      let s2 := s1.modify tok (·.upd (completed cfg r))
      (onAssign cfg env s2 tok r.isOk,
        { ret := .bool true, fired := (users cbs).map (fun w => (w, r)) })
  else (s, { ret := .bool false })

/-- `async_resolver_callback::cancel` and its destructor
(async_resolver_callback.h:25-27, 62-73): the waiters are discarded. -/
def drop (s : St K V E) (tok : Nat) : St K V E × Out K V E :=
  if tok ∈ s.opens then
    let cbs := ((s.findAny tok).map (·.mapped.cbs)).getD []
    ({ s with opens := s.opens.erase tok }.modify tok (·.upd .cancel),
      { ret := .bool true, broken := users cbs })
  else (s, { ret := .bool false })

/-- `async_resolver_policy::resolve` (resolver_policy.ii:80-93): link a pending
entry, call the resolver. -/
def resolveAsync (cfg : Cfg K) (env : Env V) (s : St K V E) (k : K) (b : Beh V E) : St K V E × Nat :=
  let tok := s.nextId
  let s1 := link cfg env s (newEntry s k (.pending {}))
  let s2 := { s1 with opens := s1.opens ++ [tok] }
  match b with
  | .later => (s2, tok)
  | .now r => ((complete cfg env s2 tok r).1, tok)
  | .drop => ((drop s2 tok).1, tok)

/-- Result seen by a waiter that is answered at once (hashtable.ii:620-625). -/
def lookRes : Look V E → Option (Res V E)
  | .val v => some (.ok v)
  | .err e => some (.err e)
  | _ => none

/-- The switch at the end of `async_get` (hashtable.ii:617-641): answer waiter
`w` now, or register it on the pending lookup `i`. -/
def answer (s : St K V E) (i : Nat) (w : Nat) : Look V E → St K V E × Out K V E
  | .val v => (s, { fired := [(w, .ok v)] })
  | .err e => (s, { fired := [(w, .err e)] })
  | .pend => (s.modify i (·.upd (.addCb (.user w))), {})
  | .none => (s, { broken := [w] })

/-- `get` of a cache with an asynchronous resolver (resolver_policy.ii:123-148;
hashtable.ii:597-642).  `w` names the waiter (the future returned). -/
def asyncGet (cfg : Cfg K) (env : Env V) (s : St K V E) (k : K) (w : Nat) (b : Beh V E) : St K V E × Out K V E :=
  let i := s.bucketFor (cfg.hash k)
  let hit := (getWalk cfg env k true (s.bucket i)).hit
  let (s1, _) := get_ cfg env s k true
  match hit with
  | some (id, l) => answer s1 id w l
  | none =>
    let (s2, tok) := resolveAsync cfg env s1 k b
    let l := match s2.find tok with
      | some e => e.mapped.get env true
      | none => .none
    let (s3, o) := answer s2 tok w l
    (s3, { o with calls := [(k, tok)] })

/-- `refresh` (refresh_impl_policy.ii:52-89) of the entry `e`.  The key is
always known (`key()`, value_type.ii:161-164). -/
def refresh (cfg : Cfg K) (env : Env V) (s : St K V E) (e : Entry K V E) (r : Res V E) (b : Beh V E) : St K V E × Out K V E :=
  if e.refreshing || e.expired env then (s, {}) else
  let (s1, tok) := if cfg.resolver = .async then resolveAsync cfg env s e.key b else resolveSync cfg env s e.key r
  let s2 := s1.modify e.id (fun x => { x with refreshing := true })
  match s2.find tok with
  | some n =>
    if n.isPending then (s2.modify tok (·.upd (.addCb (.refresh e.id))), { calls := [(e.key, tok)] })
    else (runCb s2 tok (.refresh e.id), { calls := [(e.key, tok)] })
  | none => (s2, { calls := [(e.key, tok)] })

/-- One iteration of the loop of the refresh worker (refresh_policy.ii:117-121):
if the first entry of the delay queue is due, unlink it from the queue and
refresh it. -/
def tick (cfg : Cfg K) (env : Env V) (s : St K V E) (r : Res V E) (b : Beh V E) : St K V E × Out K V E :=
  match s.delayQ with
  | [] => (s, {})
  | i :: q =>
    match s.find i with
    | none => (s, {})
    | some e =>
      if reached env.now e.refTp then refresh cfg env { s with delayQ := q } e r b
      else (s, {})

/-- `hashtable::count` (hashtable.ii:892-895). -/
def count (env : Env V) (s : St K V E) : Nat := (s.ents.filter (fun e => !e.expired env)).length

/-- Destructor of the table (hashtable.ii:477-480): every entry is disposed of,
which cancels the pending lookups (their waiters are discarded). -/
def destroy (cfg : Cfg K) (s : St K V E) : St K V E × Out K V E :=
  ({ dispose cfg { s with tbl := s.tbl.map (fun _ => []) } s.ents with destroyed := true },
   { broken := s.ents.flatMap (fun e => users e.mapped.cbs) })

/-- Operations, in the order they take the lock.  The member functions of cache.h:35-89,
detail/cache_get.h:24-39, resolver_policy.ii:101-148, async_resolver_callback.h:25-73, the worker
refresh_policy.ii:117-121 and the destructor hashtable.ii:477-480. -/
inductive Op (K V E : Type) where
  | getIfExists (k : K)
  | get (k : K) (r : Res V E)
  | asyncGet (k : K) (w : Nat) (b : Beh V E)
  | emplace (k : K) (v : V) (f : Fail)
  | getOrEmplace (k : K) (v : V) (f : Fail)
  | erase (k : K)
  | clear
  | count
  /-- a resolver completes the lookup `tok` -/
  | complete (tok : Nat) (r : Res V E)
  /-- the callback object of the lookup `tok` is destroyed unused -/
  | drop (tok : Nat)
  /-- the refresh worker gets to run -/
  | tick (r : Res V E) (b : Beh V E)
  | destroy

/-- One operation in a given environment.  Dispatch only; see the functions it calls for
cache.h:35-89, resolver_policy.ii:101-148, async_resolver_callback.h:25-73. -/
def step (cfg : Cfg K) (env : Env V) (s : St K V E) : Op K V E → St K V E × Out K V E
  | .getIfExists k => (s, getIfExists cfg env s k)
  | .get k r => get cfg env s k r
  | .asyncGet k w b => asyncGet cfg env s k w b
  | .emplace k v f => emplace cfg env s k v f
  | .getOrEmplace k v f => getOrEmplace cfg env s k v f
  | .erase k => (erase cfg env s k, {})
  | .clear => (clear cfg s, {})
  | .count => (s, { ret := .num (count env s) })
  | .complete tok r => complete cfg env s tok r
  | .drop tok => drop s tok
  | .tick r b => tick cfg env s r b
  | .destroy => destroy cfg s

/-- Operations that make sense for a cache with the given policies: `get`
exists without an asynchronous resolver, `asyncGet` only with one
(detail/cache_get.h:55-59, resolver_policy.h), and refreshing requires the
refresh policy and a resolver.  After destruction only callback objects remain. -/
def Op.ok (cfg : Cfg K) (s : St K V E) : Op K V E → Prop
  | .get _ _ => cfg.resolver ≠ .async ∧ s.destroyed = false
  | .asyncGet _ _ _ => cfg.resolver = .async ∧ s.destroyed = false
  | .tick _ _ => cfg.resolver ≠ .none ∧ cfg.refresh.isSome ∧ s.destroyed = false
  | .complete _ _ => True
  | .drop _ => True
  | _ => s.destroyed = false

/-- Initial state (hashtable.ii:451-475). -/
def St.init : St K V E := {}

/-- A history: operations with their environments.  The calls that a program makes to cache.h:35-89
and the rest of `Op`, in the order of their locks (cache.h:39, 51, 58, 65, 72, 79, 86). -/
abbrev Hist (K V E : Type) := List (Env V × Op K V E)

/-- Run a history; collects the outputs.  One call after the other, which is what the locks enforce
(cache.h:39, 51, 58, 65, 72, 79, 86). -/
def run (cfg : Cfg K) : St K V E → Hist K V E → St K V E × List (Out K V E)
  | s, [] => (s, [])
  | s, (env, o) :: h =>
    let (s1, out) := step cfg env s o
    let (s2, outs) := run cfg s1 h
    (s2, out :: outs)

/-- All operations of the history are possible when they happen.  The conditions of `Op.ok`
(detail/cache_get.h:55-59) throughout. -/
def HistOk (cfg : Cfg K) : St K V E → Hist K V E → Prop
  | _, [] => True
  | s, (env, o) :: h => o.ok cfg s ∧ HistOk cfg (step cfg env s o).1 h

end Hoard
