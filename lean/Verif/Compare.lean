import Verif.Cache
/-!
# Calls of the user's hash function and comparison

The walks of `Verif.Cache` once more, with a record of the calls they make to the hash function and
to the comparison given by the user (`/repo/include/libhoard/detail/hashtable.ii`).  The hash code of
an entry is stored in it (basic_hashtable.h:137), so growing the table, refreshing and maintenance call
neither.
-/
namespace Hoard.Compare
variable {K V E : Type}

/-- A call of user code.  `hash`: hashtable.ii:508, 578, 601, 694, 771, 790, 809, 859.  `equal`: hashtable.ii:510,
582, 605, 696, 777, 815, 863, with the stored key first. -/
inductive Use (K : Type) where
  | hash (given : K)
  | equal (stored given : K)
deriving DecidableEq

/-- The loop of `get_` (hashtable.ii:521-561; compare `Hoard.getWalk`).  The comparison (hashtable.ii:537, in
`get_if_matching`, value_type.ii:82-91) comes before the test for expired entries. -/
def getWalk (cfg : Cfg K) (env : Env V) (k : K) (incl : Bool) : List (Entry K V E) → Walk K V E × List (Use K)
  | [] => (⟨[], [], none⟩, [])
  | e :: es =>
    if cfg.hash e.key ≠ cfg.hash k then
      let (w, us) := getWalk cfg env k incl es
      if stale env e then (w.drop e, us)
      else (w.keep e, us)
    else
      let val := getIfMatching cfg env k incl e
      let u := Use.equal e.key k
      if e.expired env then
        let (w, us) := getWalk cfg env k incl es
        if e.isPending then (w.keep e, u :: us)
        else (w.drop e, u :: us)
      else
        match val with
        | .none =>
          let (w, us) := getWalk cfg env k incl es
          (w.keep e, u :: us)
        | l => (⟨e :: es, [], some (e.id, l)⟩, [u])

/-- The loop of `expire_` (hashtable.ii:664-687; compare `Hoard.expireWalk`).  The comparison (hashtable.ii:667) is
made only if the hash codes are equal. -/
def expireWalk (cfg : Cfg K) (env : Env V) (k : K) : List (Entry K V E) → Walk K V E × List (Use K)
  | [] => (⟨[], [], none⟩, [])
  | e :: es =>
    let (w, us) := expireWalk cfg env k es
    let us := if cfg.hash e.key = cfg.hash k then Use.equal e.key k :: us else us
    if cfg.hash e.key = cfg.hash k ∧ cfg.eqv e.key k = true then
      if e.isPending then (w.keep (e.upd .markExpired), us)
      else (w.drop e, us)
    else
      if stale env e then (w.drop e, us)
      else (w.keep e, us)

/-- The loop of `get_if_exists_` (hashtable.ii:489-494; compare `Hoard.peekWalk`). -/
def peekWalk (cfg : Cfg K) (env : Env V) (k : K) : List (Entry K V E) → Look V E × List (Use K)
  | [] => (.none, [])
  | e :: es =>
    if cfg.hash e.key ≠ cfg.hash k then peekWalk cfg env k es
    else
      let u := Use.equal e.key k
      match getIfMatching cfg env k false e with
      | .none => let r := peekWalk cfg env k es; (r.1, u :: r.2)
      | l =>
        if e.expired env then let r := peekWalk cfg env k es; (r.1, u :: r.2)
        else (l, [u])

/-- The entries of the bucket of a key (hashtable.ii:489, 521-524, 661-663). -/
def bucketOf (cfg : Cfg K) (s : St K V E) (k : K) : List (Entry K V E) := s.bucket (s.bucketFor (cfg.hash k))

/-- The calls of user code made by one operation.  `get_if_exists` (hashtable.ii:500-512), `get` (hashtable.ii:578-584),
`async_get` (hashtable.ii:601-607), `get_or_emplace` (hashtable.ii:809-819, 859-866), `expire` (hashtable.ii:690-698),
and `emplace` with a key and a value (hashtable.ii:790-791), which computes the hash code twice: once itself and once
in `expire`.  `emplace` with `piecewise_construct` (hashtable.ii:771-780) computes it once; here it counts as the
former. -/
def uses (cfg : Cfg K) (env : Env V) (s : St K V E) : Op K V E → List (Use K)
  | .getIfExists k => .hash k :: (peekWalk cfg env k (bucketOf cfg s k)).2
  | .get k _ => .hash k :: (getWalk cfg env k false (bucketOf cfg s k)).2
  | .asyncGet k _ _ => .hash k :: (getWalk cfg env k true (bucketOf cfg s k)).2
  | .emplace k _ _ => .hash k :: .hash k :: (expireWalk cfg env k (bucketOf cfg s k)).2
  | .getOrEmplace k _ _ => .hash k :: (getWalk cfg env k true (bucketOf cfg s k)).2
  | .erase k => .hash k :: (expireWalk cfg env k (bucketOf cfg s k)).2
  | _ => []

end Hoard.Compare
