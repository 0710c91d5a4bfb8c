import Verif.Cache
import Verif.Chain
import Verif.PQueue
/-!
# The cache, pointer level

The same operations as `Verif.Cache`, executed on the real data structures: one
chain through all entries with a bucket array of addresses (`Verif.Chain`), the
recency list and the delay queue as intrusive lists (`Verif.PQueue`,
`Verif.DList`), and entry objects with reference counters that are freed when the
counter drops to zero.

Every function returns `none` on undefined behaviour: access to an object that is
not allocated, dereferencing null or a dangling address, releasing a reference
nobody holds, an index outside the bucket array.

Simplifications, besides those of `Verif.Cache`: an address is not reused once an
entry was linked; the recency list and the delay queue live in one address space
each (head at 0, links of entry `i` at `i + 1`), and their functions do not check
that neighbours are allocated (that they are is part of C50).
-/
namespace Hoard

variable {K V E : Type}

/-- State: the table with chain and buckets (basic_hashtable.h:112-115), the
contents of the entry objects, the reference counters (refcount.h:39; 0 means not
allocated), recency list, delay queue, the callback objects of resolvers that
exist (`handles`) and those among them with `called == false` (`opens`,
async_resolver_callback.h:78). -/
structure PSt (K V E : Type) where
  tab : Chain.Tab
  obj : Nat → Entry K V E
  rc : Nat → Nat
  pq : PQ
  dq : DL.Heap
  nextId : Nat
  handles : List Nat
  opens : List Nat
  destroyed : Bool

namespace PSt

/-- A new cache (hashtable.ii:451-475).  The memory of entries that do not exist
yet holds arbitrary contents `obj`; the successor field of a new element is null
(basic_hashtable.h:136). -/
def init (obj : Nat → Entry K V E) : PSt K V E :=
  { tab := Chain.Tab.init 0 (fun _ => none) (fun _ => 0)
    obj
    rc := fun _ => 0
    pq := PQ.init (fun _ => false)
    dq := DL.ctor ⟨fun _ => none, fun _ => none⟩ 0
    nextId := 0, handles := [], opens := [], destroyed := false }

/-- Read an object.  Dereferencing an entry pointer, as in hashtable.ii:526-554; not defined if the
object was destroyed (refcount.ii:204). -/
def rd (p : PSt K V E) (i : Nat) : Option (Entry K V E) := if p.rc i = 0 then none else some (p.obj i)

/-- Change an object.  Calling a member function through an entry pointer, as in hashtable.ii:651,
669; not defined if the object was destroyed (refcount.ii:204). -/
def wr (p : PSt K V E) (i : Nat) (f : Entry K V E → Entry K V E) : Option (PSt K V E) :=
  if p.rc i = 0 then none else some { p with obj := fun j => if j = i then f (p.obj i) else p.obj j }

/-- `refcount_inc` (refcount.ii:6-8). -/
def inc (p : PSt K V E) (i : Nat) : Option (PSt K V E) :=
  if p.rc i = 0 then none else some { p with rc := fun j => if j = i then p.rc i + 1 else p.rc j }

/-- `refcount_dec`, and destroying the object when the counter drops to zero
(refcount.ii:10-12, 195-207; hashtable.ii:944-953).  An object that is destroyed
while it still holds callbacks would release further objects; this is reported as
`none` here and proved not to happen. -/
def dec (p : PSt K V E) (i : Nat) : Option (PSt K V E) :=
  if p.rc i = 0 then none
  else if p.rc i = 1 ∧ (p.obj i).mapped.cbs.isEmpty = false then none
  else some { p with rc := fun j => if j = i then p.rc i - 1 else p.rc j }

/-- Destroy callbacks: the callback of a refresh owns the entry being refreshed
(refresh_impl_policy.ii:71). -/
def relCbs (p : PSt K V E) : List Cb → Option (PSt K V E)
  | [] => some p
  | .user _ :: cbs => p.relCbs cbs
  | .refresh old :: cbs => do
    let p1 ← p.dec old
    p1.relCbs cbs

/-- Is the address of a link still valid? It is `&head_` or the member `successor_` of an element
(basic_hashtable.h:112, 136). -/
def slotOk (p : PSt K V E) : Chain.Slot → Bool
  | .head t => t == p.tab.own
  | .node i => p.rc i != 0

/-- `on_unlink_` of the recency queue (queue.ii:39-60). -/
def unlinkPq (cfg : Cfg K) (p : PSt K V E) (i : Nat) : Option (PSt K V E) :=
  if cfg.maxSize.isSome then (p.pq.onUnlink i).map (fun q => { p with pq := q }) else some p

/-- `on_unlink_` of the refresh policy (refresh_policy.ii:72-76). -/
def unlinkDq (cfg : Cfg K) (p : PSt K V E) (i : Nat) : Option (PSt K V E) :=
  if cfg.refresh.isSome && DL.isLinked p.dq (i + 1) then (DL.unlink p.dq (i + 1)).map (fun r => { p with dq := r.1 })
  else some p

/-- The disposer (hashtable.ii:944-953). -/
def disposeElem (cfg : Cfg K) (p : PSt K V E) (i : Nat) : Option (PSt K V E) := do
  let e ← p.rd i
  let p1 ← p.wr i (·.upd .cancel)
  let p2 ← p1.relCbs e.mapped.cbs
  let p3 ← p2.unlinkPq cfg i
  let p4 ← p3.unlinkDq cfg i
  p4.dec i

/-- `unlink_and_dispose` (basic_hashtable.ii:77-80). -/
def unlinkDispose (cfg : Cfg K) (p : PSt K V E) (s : Chain.Slot) : Option (PSt K V E) := do
  let r ← p.tab.unlink s
  disposeElem cfg { p with tab := r.1 } r.2

end PSt

/-- What a walk does with an element.  The branches of hashtable.ii:526-560, 650-656, 667-686,
924-929. -/
inductive Act (V E : Type) where
  | keep
  | mark
  | drop
  | stop (l : Look V E)

/-- The common shape of the loops of `get_`, `expire_`, `expire_all` and
`unlink_expired_elements_` (hashtable.ii:520-561, 664-687, 647-657, 921-930): `bi`
is `before_i`, `be` is `before_e`, `act` decides from the stored hash and the
entry.  `fuel` bounds the iterations; running out of it is reported as `none`
and proved not to happen. -/
def pwalk (cfg : Cfg K) (act : Nat → Entry K V E → Act V E) :
    Nat → PSt K V E → Chain.Slot → Chain.Slot → Option (PSt K V E × Option (Nat × Look V E))
  | fuel, p, bi, be =>
    if bi = be then some (p, none) else
    match fuel with
    | 0 => none
    | fuel + 1 =>
      if p.slotOk bi = false then none else
      match p.tab.rd bi with
      | none => none
      | some none => none
      | some (some x) => do
        let e ← p.rd x
        match act (p.tab.hash x) e with
        | .keep => pwalk cfg act fuel p (.node x) be
        | .mark => do
          let p1 ← p.wr x (·.upd .markExpired)
          pwalk cfg act fuel p1 (.node x) be
        | .drop => do
          let be1 := if Chain.Slot.node x = be then bi else be
          let p1 ← p.unlinkDispose cfg bi
          pwalk cfg act fuel p1 bi be1
        | .stop l => some (p, some (x, l))

/-- Decision in `get_` (hashtable.ii:523-560). -/
def getAct (cfg : Cfg K) (env : Env V) (k : K) (incl : Bool) (h : Nat) (e : Entry K V E) : Act V E :=
  if h ≠ cfg.hash k then
    if stale env e then .drop else .keep
  else
    if e.expired env then
      if e.isPending then .keep else .drop
    else
      match getIfMatching cfg env k incl e with
      | .none => .keep
      | l => .stop l

/-- Decision in `expire_` (hashtable.ii:666-686). -/
def expireAct (cfg : Cfg K) (env : Env V) (k : K) (h : Nat) (e : Entry K V E) : Act V E :=
  if h = cfg.hash k ∧ cfg.eqv e.key k = true then
    if e.isPending then .mark else .drop
  else
    if stale env e then .drop else .keep

/-- Decision in `unlink_expired_elements_` (hashtable.ii:923-929). -/
def purgeAct (env : Env V) (_ : Nat) (e : Entry K V E) : Act V E := if stale env e then .drop else .keep

/-- Decision in `expire_all` (hashtable.ii:649-656). -/
def expireAllAct (_ : Nat) (e : Entry K V E) : Act V E := if e.isPending then .mark else .drop

namespace PSt

/-- Walk one bucket (hashtable.ii:517-520, 661-664). -/
def walkBucket (cfg : Cfg K) (p : PSt K V E) (h : Nat) (act : Nat → Entry K V E → Act V E) :
    Option (PSt K V E × Option (Nat × Look V E)) := do
  let bi ← p.tab.beforeBeginB (p.tab.bucketFor h)
  let be ← p.tab.beforeEndB (p.tab.bucketFor h)
  pwalk cfg act p.tab.size p bi be

/-- Walk the whole chain (hashtable.ii:645-647, 919-921). -/
def walkAll (cfg : Cfg K) (p : PSt K V E) (act : Nat → Entry K V E → Act V E) : Option (PSt K V E) := do
  let be ← p.tab.beforeEnd
  let r ← pwalk cfg act p.tab.size p p.tab.beforeBegin be
  some r.1

/-- `on_hit_` of the recency queue (queue.ii:24-37, 120-126). -/
def hitPq (cfg : Cfg K) (env : Env V) (p : PSt K V E) (i : Nat) : Option (PSt K V E) :=
  if cfg.maxSize.isSome then do
    let q ← p.pq.onHit i
    wr { p with pq := q } i (·.upd (.strengthen env))
  else some p

/-- `on_hit_` (also refresh_policy.ii:65-70). -/
def onHit (cfg : Cfg K) (env : Env V) (p : PSt K V E) (i : Nat) : Option (PSt K V E) := do
  let p1 ← p.hitPq cfg env i
  match cfg.refresh with
  | none => some p1
  | some (_, idle) =>
    if idle = 0 then some p1
    else p1.wr i (fun e => if e.mapped.holdsValue env then { e with canTp := some (env.now + idle) } else e)

/-- `on_create_` (queue.ii:11-22, 112-118). -/
def onCreate (cfg : Cfg K) (env : Env V) (p : PSt K V E) (i : Nat) : Option (PSt K V E) :=
  if cfg.maxSize.isSome then do
    let r ← p.pq.onCreate i
    match r.2 with
    | none => some { p with pq := r.1 }
    | some m => wr { p with pq := r.1 } m (·.upd (.strengthen env))
  else some p

/-- `on_assign_` (hashtable.ii:221-224, max_age_policy.ii:18-25,
refresh_policy.ii:49-63). -/
def onAssign (cfg : Cfg K) (env : Env V) (p : PSt K V E) (i : Nat) (value : Bool) : Option (PSt K V E) := do
  let p1 ← p.wr i (assignTimes cfg env value)
  if cfg.refresh.isSome && value then do
    let H ← DL.linkBack p1.dq 0 (i + 1)
    some { p1 with dq := H }
  else some p1

/-- `allocate_value_type` (hashtable.ii:700-704): the new object has one owner. -/
def alloc (p : PSt K V E) (k : K) (m : Mapped V E) : PSt K V E :=
  { p with
    obj := fun j => if j = p.nextId then { id := p.nextId, key := k, mapped := m } else p.obj j
    rc := fun j => if j = p.nextId then 1 else p.rc j }

/-- The part of `maybe_rehash_before_link_` before the final decision
(basic_hashtable.ii:403-409). -/
def beforeLink (cfg : Cfg K) (env : Env V) (p : PSt K V E) : Option (PSt K V E) :=
  if cfg.over (p.tab.size + 1) p.tab.slots.length then p.walkAll cfg (purgeAct env) else some p

/-- The final decision (basic_hashtable.ii:411). -/
def mustGrow (cfg : Cfg K) (p : PSt K V E) : Bool :=
  decide (p.tab.slots.length = 0) ||
    (cfg.over (p.tab.size + 1) p.tab.slots.length && decide (p.tab.slots.length < cfg.maxBuckets))

/-- `maybe_rehash_before_link_` (basic_hashtable.ii:402-415). -/
def maybeRehash (cfg : Cfg K) (env : Env V) (p : PSt K V E) : Option (PSt K V E) := do
  let p1 ← p.beforeLink cfg env
  if p1.mustGrow cfg then do
    let t ← p1.tab.rehash (grown cfg p1.tab.slots.length)
    some { p1 with tab := t }
  else some p1

/-- `hashtable::link` (hashtable.ii:713-719) of the object `p.nextId`; the reference
of the argument passes to the table (`release`).  The bucket's entry must be a
valid address. -/
def link (cfg : Cfg K) (env : Env V) (p : PSt K V E) : Option (PSt K V E) := do
  let i := p.nextId
  let p1 ← p.maybeRehash cfg env
  let e ← p1.rd i
  let s ← p1.tab.slots[p1.tab.bucketFor (cfg.hash e.key)]?
  if p1.slotOk s = false then none else do
  let t ← p1.tab.link (cfg.hash e.key) i
  let p3 ← onCreate cfg env { p1 with tab := t, nextId := i + 1 } i
  if e.isPending then some p3 else p3.onAssign cfg env i (e.mapped.holdsValue env)

/-- `lru_expire_` applied to the chosen entries (queue.ii:104-107). -/
def evictAll (cfg : Cfg K) (p : PSt K V E) : List Nat → Option (PSt K V E)
  | [] => some p
  | i :: vs => do
    let p1 ← p.wr i (·.upd (if cfg.weaken then .weaken cfg.ptr else .markExpired))
    p1.evictAll cfg vs

/-- `maintenance_` (hashtable.ii:897-904; max_size_policy.ii:16-20; queue.ii:95-110). -/
def maintenance (cfg : Cfg K) (p : PSt K V E) : Option (PSt K V E) :=
  match cfg.maxSize with
  | none => some p
  | some m => do
    let vs ← p.pq.victims p.tab.size (p.tab.size - m)
    p.evictAll cfg vs

/-- Read several objects.  The loop of hashtable.ii:489-494. -/
def rds (p : PSt K V E) : List Nat → Option (List (Entry K V E))
  | [] => some []
  | i :: is => do
    let e ← p.rd i
    let es ← p.rds is
    some (e :: es)

/-- `cache::get_if_exists` (cache.h:35-48; hashtable.ii:487-496).  Reads the whole
bucket, also the part after the first match. -/
def getIfExists (cfg : Cfg K) (env : Env V) (p : PSt K V E) (k : K) : Option (Out K V E) := do
  let is ← p.tab.visitBucket (p.tab.bucketFor (cfg.hash k))
  let es ← p.rds is
  some { ret := optRet (peekWalk cfg env k es) }

/-- `hashtable::get_` (hashtable.ii:514-565); also the entry found. -/
def get_ (cfg : Cfg K) (env : Env V) (p : PSt K V E) (k : K) (incl : Bool) :
    Option (PSt K V E × Option (Nat × Look V E)) := do
  let r ← p.walkBucket cfg (cfg.hash k) (getAct cfg env k incl)
  match r.2 with
  | none => some (r.1, none)
  | some (i, l) => do
    let p1 ← r.1.onHit cfg env i
    some (p1, some (i, l))

/-- `hashtable::expire_` (hashtable.ii:660-688). -/
def expire_ (cfg : Cfg K) (env : Env V) (p : PSt K V E) (k : K) : Option (PSt K V E) := do
  let r ← p.walkBucket cfg (cfg.hash k) (expireAct cfg env k)
  some r.1

/-- Copying a counted pointer, if the caller does.  refcount.ii:75-81. -/
def incIf (p : PSt K V E) (c : Bool) (i : Nat) : Option (PSt K V E) := if c then p.inc i else some p

/-- The copy goes away.  refcount.ii:89-92. -/
def decIf (p : PSt K V E) (c : Bool) (i : Nat) : Option (PSt K V E) := if c then p.dec i else some p

/-- Does the insertion fail while growing?  Only if it has to grow.  basic_hashtable.ii:411, 424. -/
def fails (cfg : Cfg K) (env : Env V) (p : PSt K V E) : Fail → Option Bool
  | .grow => (p.beforeLink cfg env).map (fun q => q.mustGrow cfg)
  | _ => some false

/-- Insertion of a value with possible failure, as in `tryLink`.  With `copy`, the
caller keeps a pointer to the new entry until the end (hashtable.ii:839-843),
otherwise it passes its only one (hashtable.ii:781).  When growing fails, the
pointers to the new entry go away. -/
def tryLink (cfg : Cfg K) (env : Env V) (p : PSt K V E) (k : K) (m : Mapped V E) (copy : Bool) (f : Fail) :
    Option (PSt K V E × Bool) :=
  if f matches .alloc then some (p, false) else do
  let p2 ← (p.alloc k m).incIf copy p.nextId
  let b ← p2.fails cfg env f
  if b then do
    let q ← p2.beforeLink cfg env
    let q1 ← q.dec p.nextId
    let q2 ← q1.decIf copy p.nextId
    some (q2, false)
  else do
    let p3 ← p2.link cfg env
    let p4 ← p3.decIf copy p.nextId
    some (p4, true)

/-- `cache::emplace` (cache.h:63-75; hashtable.ii:768-795). -/
def emplace (cfg : Cfg K) (env : Env V) (p : PSt K V E) (k : K) (v : V) (f : Fail) : Option (PSt K V E × Out K V E) := do
  let p1 ← p.expire_ cfg env k
  let r ← p1.tryLink cfg env k (.value v) false f
  if r.2 then do
    let p2 ← r.1.maintenance cfg
    some (p2, { made := true })
  else some (r.1, { ret := .throws })

/-- `cache::get_or_emplace` (cache.h:77-89; hashtable.ii:797-890). -/
def getOrEmplace (cfg : Cfg K) (env : Env V) (p : PSt K V E) (k : K) (v : V) (f : Fail) :
    Option (PSt K V E × Out K V E) := do
  let r ← p.get_ cfg env k true
  match r.2 with
  | some (_, .val v') => do
    let p1 ← r.1.maintenance cfg
    some (p1, { ret := .val v' })
  | none => do
    let r2 ← r.1.tryLink cfg env k (.value v) true f
    if r2.2 then do
      let p2 ← r2.1.maintenance cfg
      some (p2, { ret := .val v, made := true })
    else some (r2.1, { ret := .throws })
  | some _ => do
    let p1 ← r.1.maintenance cfg
    some (p1, { ret := .throws })

/-- `resolver_policy::resolve` (resolver_policy.ii:31-53): the returned pointer to the
new entry is an owner. -/
def resolveSync (cfg : Cfg K) (env : Env V) (p : PSt K V E) (k : K) (r : Res V E) : Option (PSt K V E × Nat) := do
  let i := p.nextId
  let p1 ← (p.alloc k (syncMapped r)).inc i
  let p2 ← p1.link cfg env
  some (p2, i)

/-- `get` without resolver (detail/cache_get.h:24-39) and with a synchronous resolver
(resolver_policy.ii:101-120; hashtable.ii:567-595). -/
def get (cfg : Cfg K) (env : Env V) (p : PSt K V E) (k : K) (res : Res V E) : Option (PSt K V E × Out K V E) := do
  let r ← p.get_ cfg env k false
  match cfg.resolver, r.2 with
  | .sync, none => do
    let r2 ← r.1.resolveSync cfg env k res
    let e ← r2.1.rd r2.2
    let p3 ← r2.1.dec r2.2
    some (p3, { ret := syncRet (e.mapped.get env false), calls := [(k, r2.2)] })
  | .sync, some (_, l) => some (r.1, { ret := syncRet l })
  | _, some (_, .val v) => some (r.1, { ret := .val v })
  | _, _ => some (r.1, { ret := .miss })

/-- One callback of the lookup `i` (refresh_impl_policy.ii:71-74; refresh_policy.ii:29-32). -/
def runCb (p : PSt K V E) (i : Nat) : Cb → Option (PSt K V E)
  | .user _ => some p
  | .refresh old => do
    let o ← p.rd old
    let p1 ← p.wr i (fun e => { e with canTp := tpMin e.canTp o.canTp })
    p1.wr old (·.upd .markExpired)

/-- All callbacks in order (pending.ii:20-42). -/
def runCbs (p : PSt K V E) (i : Nat) : List Cb → Option (PSt K V E)
  | [] => some p
  | cb :: cbs => do
    let p1 ← p.runCb i cb
    p1.runCbs i cbs

/-- `async_resolver_callback::assign` and `assign_error`
(async_resolver_callback.h:29-60; mapped_type.ii:32-48, 221-263): run the
callbacks, set the result, destroy the callbacks, `on_assign_`. -/
def complete (cfg : Cfg K) (env : Env V) (p : PSt K V E) (tok : Nat) (r : Res V E) : Option (PSt K V E × Out K V E) :=
  if tok ∈ p.opens then do
    let p0 := { p with opens := p.opens.erase tok }
    let e ← p0.rd tok
    if p.destroyed then do
      let p1 ← p0.wr tok (·.upd .cancel)
      let p2 ← p1.relCbs e.mapped.cbs
      some (p2, { ret := .bool false, broken := users e.mapped.cbs })
    else do
      let p1 ← p0.runCbs tok e.mapped.cbs
      let p2 ← p1.wr tok (·.upd (completed cfg r))
      let p3 ← p2.relCbs e.mapped.cbs
      let p4 ← p3.onAssign cfg env tok r.isOk
      some (p4, { ret := .bool true, fired := (users e.mapped.cbs).map (fun w => (w, r)) })
  else some (p, { ret := .bool false })

/-- Destructor of the callback object (async_resolver_callback.h:25-27, 62-73): cancel
if not yet used, then release the entry. -/
def drop (p : PSt K V E) (tok : Nat) : Option (PSt K V E × Out K V E) :=
  if tok ∈ p.handles then
    if tok ∈ p.opens then do
      let p0 := { p with opens := p.opens.erase tok }
      let e ← p0.rd tok
      let p1 ← p0.wr tok (·.upd .cancel)
      let p2 ← p1.relCbs e.mapped.cbs
      let p3 ← dec { p2 with handles := p2.handles.erase tok } tok
      some (p3, { ret := .bool true, broken := users e.mapped.cbs })
    else do
      let p3 ← dec { p with handles := p.handles.erase tok } tok
      some (p3, { ret := .bool false })
  else some (p, { ret := .bool false })

/-- `async_resolver_policy::resolve` (resolver_policy.ii:80-93): owners of the new
entry are the table, the callback object and the returned pointer. -/
def resolveAsync (cfg : Cfg K) (env : Env V) (p : PSt K V E) (k : K) (b : Beh V E) : Option (PSt K V E × Nat) := do
  let i := p.nextId
  let p1 ← (p.alloc k (.pending {})).inc i
  let p2 ← p1.link cfg env
  let p3 ← p2.inc i
  let p4 := { p3 with handles := p3.handles ++ [i], opens := p3.opens ++ [i] }
  match b with
  | .later => some (p4, i)
  | .now r => do
    let q ← p4.complete cfg env i r
    some (q.1, i)
  | .drop => do
    let q ← p4.drop i
    some (q.1, i)

/-- The switch at the end of `async_get` (hashtable.ii:617-641). -/
def answer (p : PSt K V E) (i : Nat) (w : Nat) : Look V E → Option (PSt K V E × Out K V E)
  | .val v => some (p, { fired := [(w, .ok v)] })
  | .err e => some (p, { fired := [(w, .err e)] })
  | .pend => do
    let p1 ← p.wr i (·.upd (.addCb (.user w)))
    some (p1, {})
  | .none => some (p, { broken := [w] })

/-- `get` of a cache with an asynchronous resolver (resolver_policy.ii:123-148;
hashtable.ii:597-642). -/
def asyncGet (cfg : Cfg K) (env : Env V) (p : PSt K V E) (k : K) (w : Nat) (b : Beh V E) :
    Option (PSt K V E × Out K V E) := do
  let r ← p.get_ cfg env k true
  match r.2 with
  | some (i, l) => r.1.answer i w l
  | none => do
    let r2 ← r.1.resolveAsync cfg env k b
    let e ← r2.1.rd r2.2
    let a ← r2.1.answer r2.2 w (e.mapped.get env true)
    let p3 ← a.1.dec r2.2
    some (p3, { a.2 with calls := [(k, r2.2)] })

/-- Resolve, as the resolver policy does.  resolver_policy.ii:31-53 or 80-93. -/
def resolve (cfg : Cfg K) (env : Env V) (p : PSt K V E) (k : K) (res : Res V E) (b : Beh V E) : Option (PSt K V E × Nat) :=
  if cfg.resolver = .async then p.resolveAsync cfg env k b else p.resolveSync cfg env k res

/-- The end of `refresh` (refresh_impl_policy.ii:69-79): register a callback on the
lookup `tok`, which captures a copy of the pointer to the entry `i`, or, if the
lookup is done, do at once what the callback does. -/
def hook (p : PSt K V E) (tok i : Nat) : Option (PSt K V E) := do
  let n ← p.rd tok
  if n.isPending then do
    let q ← p.inc i
    q.wr tok (·.upd (.addCb (.refresh i)))
  else p.runCb tok (.refresh i)

/-- `refresh` (refresh_impl_policy.ii:52-89) of the entry `i`; `value_ptr` and
`lookup_ptr` are owners for the duration of the call. -/
def refresh (cfg : Cfg K) (env : Env V) (p : PSt K V E) (i : Nat) (res : Res V E) (b : Beh V E) :
    Option (PSt K V E × Out K V E) := do
  let e ← p.rd i
  if e.refreshing || e.expired env then some (p, {}) else do
  let p0 ← p.inc i
  let r ← p0.resolve cfg env e.key res b
  let p1 ← r.1.wr i (fun x => { x with refreshing := true })
  let p2 ← p1.hook r.2 i
  let p3 ← p2.dec r.2
  let p4 ← p3.dec i
  some (p4, { calls := [(e.key, r.2)] })

/-- One iteration of the loop of the refresh worker (refresh_policy.ii:117-121). -/
def tick (cfg : Cfg K) (env : Env V) (p : PSt K V E) (res : Res V E) (b : Beh V E) : Option (PSt K V E × Out K V E) := do
  let a ← p.dq.succ 0
  match a with
  | 0 => some (p, {})
  | i + 1 => do
    let e ← p.rd i
    if reached env.now e.refTp then do
      let r ← DL.unlink p.dq (i + 1)
      refresh cfg env { p with dq := r.1 } i res b
    else some (p, {})

/-- `hashtable::count` (hashtable.ii:892-895). -/
def count (env : Env V) (p : PSt K V E) : Option Nat := do
  let is ← p.tab.visitAll
  let es ← p.rds is
  some (es.filter (fun e => !e.expired env)).length

/-- The loop of `clear_and_dispose` for a callback that does not throw
(basic_hashtable.ii:60-64), in the destructor of the table (hashtable.ii:477-480);
also the waiters whose callbacks are destroyed. -/
def destroyLoop (cfg : Cfg K) : Nat → PSt K V E → Option (PSt K V E × List Nat)
  | fuel, p =>
    match p.tab.head with
    | none => some (p, [])
    | some i =>
      match fuel with
      | 0 => none
      | fuel + 1 => do
        let e ← p.rd i
        let t := { p.tab with head := p.tab.next i, next := fun x => if x = i then none else p.tab.next x }
        let p1 ← disposeElem cfg { p with tab := t } i
        let r ← destroyLoop cfg fuel p1
        some (r.1, users e.mapped.cbs ++ r.2)

/-- Destructor of the table (hashtable.ii:477-480; basic_hashtable.ii:59-66). -/
def destroy (cfg : Cfg K) (p : PSt K V E) : Option (PSt K V E × Out K V E) := do
  let r ← destroyLoop cfg p.tab.size p
  some ({ r.1 with tab := r.1.tab.clear, destroyed := true }, { broken := r.2 })

/-- One operation.  Dispatch only; see the functions it calls for cache.h:35-89,
resolver_policy.ii:101-148, async_resolver_callback.h:25-73. -/
def step (cfg : Cfg K) (env : Env V) (p : PSt K V E) : Op K V E → Option (PSt K V E × Out K V E)
  | .getIfExists k => do
    let o ← p.getIfExists cfg env k
    some (p, o)
  | .get k r => p.get cfg env k r
  | .asyncGet k w b => p.asyncGet cfg env k w b
  | .emplace k v f => p.emplace cfg env k v f
  | .getOrEmplace k v f => p.getOrEmplace cfg env k v f
  | .erase k => do
    let p1 ← p.expire_ cfg env k
    some (p1, {})
  | .clear => do
    let p1 ← p.walkAll cfg expireAllAct
    some (p1, {})
  | .count => do
    let n ← p.count env
    some (p, { ret := .num n })
  | .complete tok r => p.complete cfg env tok r
  | .drop tok => p.drop tok
  | .tick r b => p.tick cfg env r b
  | .destroy => p.destroy cfg

/-- A history.  One call after the other, which is what the locks enforce (cache.h:39, 51, 58, 65,
72, 79, 86). -/
def run (cfg : Cfg K) : PSt K V E → Hist K V E → Option (PSt K V E × List (Out K V E))
  | p, [] => some (p, [])
  | p, (env, o) :: h => do
    let r ← p.step cfg env o
    let r2 ← run cfg r.1 h
    some (r2.1, r.2 :: r2.2)

end PSt
end Hoard
