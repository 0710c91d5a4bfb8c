import Verif.Compare
/-!
# Which entries a call looks at

The loops of `Verif.Cache` and `Verif.Queue` once more, with a record of the entries (their ids) at which they look
(`/repo/include/libhoard/detail/hashtable.ii`, `queue.ii`).  A loop looks at an entry if its body runs for it.

Simplification: the loops that copy entries into a new bucket array when the table grows (counted in `Verif.Cost`), and the
destructors of waiters, are left out.
-/
namespace Hoard.Visits
variable {K V E : Type}
open Compare (bucketOf)

/-- The loop of `get_` over a bucket (hashtable.ii:521-561; compare `Hoard.getWalk`): it ends at the entry that answers. -/
def getWalk (cfg : Cfg K) (env : Env V) (k : K) (incl : Bool) : List (Entry K V E) → Walk K V E × List Nat
  | [] => (⟨[], [], none⟩, [])
  | e :: es =>
    if cfg.hash e.key ≠ cfg.hash k then
      let (w, l) := getWalk cfg env k incl es
      if stale env e then (w.drop e, e.id :: l)
      else (w.keep e, e.id :: l)
    else
      if e.expired env then
        let (w, l) := getWalk cfg env k incl es
        if e.isPending then (w.keep e, e.id :: l)
        else (w.drop e, e.id :: l)
      else
        match getIfMatching cfg env k incl e with
        | .none =>
          let (w, l) := getWalk cfg env k incl es
          (w.keep e, e.id :: l)
        | r => (⟨e :: es, [], some (e.id, r)⟩, [e.id])

/-- The loop of `expire_` over a bucket (hashtable.ii:664-687; compare `Hoard.expireWalk`). -/
def expireWalk (cfg : Cfg K) (env : Env V) (k : K) : List (Entry K V E) → Walk K V E × List Nat
  | [] => (⟨[], [], none⟩, [])
  | e :: es =>
    let (w, l) := expireWalk cfg env k es
    if cfg.hash e.key = cfg.hash k ∧ cfg.eqv e.key k = true then
      if e.isPending then (w.keep (e.upd .markExpired), e.id :: l)
      else (w.drop e, e.id :: l)
    else
      if stale env e then (w.drop e, e.id :: l)
      else (w.keep e, e.id :: l)

/-- The loop of `get_if_exists_` over a bucket (hashtable.ii:489-494; compare `Hoard.peekWalk`). -/
def peekWalk (cfg : Cfg K) (env : Env V) (k : K) : List (Entry K V E) → Look V E × List Nat
  | [] => (.none, [])
  | e :: es =>
    if cfg.hash e.key ≠ cfg.hash k then
      let (r, l) := peekWalk cfg env k es
      (r, e.id :: l)
    else
      match getIfMatching cfg env k false e with
      | .none => let (r, l) := peekWalk cfg env k es; (r, e.id :: l)
      | x => if e.expired env then (let (r, l) := peekWalk cfg env k es; (r, e.id :: l)) else (x, [e.id])

/-- The loop of `unlink_expired_elements_` over all entries (hashtable.ii:921-929; compare `Hoard.purgeWalk`). -/
def purgeWalk (env : Env V) : List (Entry K V E) → Walk K V E × List Nat
  | [] => (⟨[], [], none⟩, [])
  | e :: es =>
    let (w, l) := purgeWalk env es
    if stale env e then (w.drop e, e.id :: l) else (w.keep e, e.id :: l)

/-- The pass over all entries before an insertion, which is made only if the table is full (basic_hashtable.ii:403-409;
compare `Hoard.beforeLink`). -/
def pass (cfg : Cfg K) (env : Env V) (s : St K V E) : List Nat :=
  if cfg.over (s.size + 1) s.tbl.length then (purgeWalk env s.ents).2 else []

/-- The loop of `lru_expire_` from the tail of the recency queue (queue.ii:96-109; compare `Hoard.BQ.lruGo`): what it expires,
and at what it looks.  It looks at the hot element that ends it. -/
def lruGo (hot : Nat → Bool) : List Nat → Nat → List Nat × List Nat
  | [], _ => ([], [])
  | _ :: _, 0 => ([], [])
  | x :: xs, c + 1 => if hot x then ([], [x]) else ((x :: (lruGo hot xs c).1), (x :: (lruGo hot xs c).2))

/-- `maintenance_` (hashtable.ii:897-904, max_size_policy.ii:16-20, queue.ii:95-110; compare `Hoard.maintenance`). -/
def tail (cfg : Cfg K) (s : St K V E) : List Nat :=
  match cfg.maxSize with
  | none => []
  | some m => (lruGo s.bq.hot s.bq.q.reverse (s.size - m)).2

/-- The entries at which an operation looks: in the bucket of its key, in a pass over all entries, and at the tail of the
recency queue.  The three loops hashtable.ii:489-494, 521-561, 664-687; hashtable.ii:644-658, 892-895, 921-929; queue.ii:96-109. -/
structure Seen where
  bucket : List Nat := []
  all : List Nat := []
  tail : List Nat := []

/-- An insertion with possible failure, and the maintenance after it (hashtable.ii:713-719, 783, 794, 842, 888; compare
`Hoard.tryLink`). -/
def insertion (cfg : Cfg K) (env : Env V) (s : St K V E) (k : K) (v : V) (f : Fail) : List Nat × List Nat :=
  match f with
  | .alloc => ([], [])
  | f => (pass cfg env s, if (tryLink cfg env s (newEntry s k (.value v)) f).2 then tail cfg (tryLink cfg env s (newEntry s k (.value v)) f).1 else [])

/-- What an operation looks at.  `get_if_exists` (hashtable.ii:487-512), `get` (hashtable.ii:578-594, resolver_policy.ii:101-120), `get`
with an asynchronous resolver (hashtable.ii:597-642), `emplace` (hashtable.ii:768-795), `get_or_emplace` (hashtable.ii:797-889),
`erase` (hashtable.ii:660-698), `clear` (hashtable.ii:644-658), `count` (hashtable.ii:892-895), a refresh
(refresh_impl_policy.ii:52-89), the destructor (hashtable.ii:477-480). -/
def seen (cfg : Cfg K) (env : Env V) (s : St K V E) : Op K V E → Seen
  | .getIfExists k => { bucket := (peekWalk cfg env k (bucketOf cfg s k)).2 }
  | .get k _ =>
    let w := getWalk cfg env k false (bucketOf cfg s k)
    { bucket := w.2, all := if cfg.resolver = .sync ∧ w.1.hit.isNone = true then pass cfg env (get_ cfg env s k false).1 else [] }
  | .asyncGet k _ _ =>
    let w := getWalk cfg env k true (bucketOf cfg s k)
    { bucket := w.2, all := if w.1.hit.isNone = true then pass cfg env (get_ cfg env s k true).1 else [] }
  | .emplace k v f =>
    let i := insertion cfg env (expire_ cfg env s k) k v f
    { bucket := (expireWalk cfg env k (bucketOf cfg s k)).2, all := i.1, tail := i.2 }
  | .getOrEmplace k v f =>
    let w := getWalk cfg env k true (bucketOf cfg s k)
    let s1 := (get_ cfg env s k true).1
    if w.1.hit.isNone = true then
      let i := insertion cfg env s1 k v f
      { bucket := w.2, all := i.1, tail := i.2 }
    else { bucket := w.2, tail := tail cfg s1 }
  | .erase k => { bucket := (expireWalk cfg env k (bucketOf cfg s k)).2 }
  | .clear => { all := s.ents.map (·.id) }
  | .count => { all := s.ents.map (·.id) }
  | .destroy => { all := s.ents.map (·.id) }
  | .tick _ _ =>
    match s.delayQ with
    | [] => {}
    | i :: q =>
      match s.find i with
      | none => {}
      | some e => { all := if reached env.now e.refTp && !e.refreshing && !e.expired env then pass cfg env { s with delayQ := q } else [] }
  | .complete _ _ => {}
  | .drop _ => {}

/-- What the operations of a history look at, one after the other (cache.h:39, 51, 58, 65, 72, 79, 86). -/
def seenAll (cfg : Cfg K) : St K V E → Hist K V E → List Seen
  | _, [] => []
  | s, (env, o) :: h => seen cfg env s o :: seenAll cfg (Hoard.step cfg env s o).1 h

end Hoard.Visits
