import Verif.Cache
/-!
# The events that policies are told

A policy may have functions `on_create_`, `on_assign_`, `on_hit_`, `on_miss_` and `on_unlink_`, which the table calls
(`/repo/include/libhoard/detail/hashtable.ii:33-275`; described in `/repo/include/libhoard/detail/notes.txt:21-37, 63-83`).  Here are the calls that each operation
of `Verif.Cache` makes, in order, as a policy written by a user sees them.

Simplification: entries are told apart by the numbers that `Verif.Cache` gives them; the code passes pointers.
-/
namespace Hoard.Events
variable {K V E : Type}

/-- One call (hashtable.ii:216-240); `value` and `callback` are the arguments of `on_assign_`. -/
inductive Ev where
  | create (i : Nat)
  | assign (i : Nat) (value callback : Bool)
  | hit (i : Nat)
  | miss
  | unlink (i : Nat)
deriving DecidableEq

/-- The disposer calls `on_unlink_` (hashtable.ii:944-953; compare `Hoard.dispose`). -/
def unlinks (es : List (Entry K V E)) : List Ev := es.map fun e => .unlink e.id

/-- `get_` (hashtable.ii:514-565; compare `Hoard.get_`): the entries dropped in passing (529, 547), then `on_hit_` (554) or `on_miss_` (563). -/
def lookup (cfg : Cfg K) (env : Env V) (s : St K V E) (k : K) (incl : Bool) : List Ev :=
  let w := getWalk cfg env k incl (s.bucket (s.bucketFor (cfg.hash k)))
  unlinks w.removed ++ [match w.hit with
    | none => .miss
    | some (i, _) => .hit i]

/-- The entries dropped by `expire_` (hashtable.ii:660-688; compare `Hoard.expire_`). -/
def expire (cfg : Cfg K) (env : Env V) (s : St K V E) (k : K) : List Ev :=
  unlinks (expireWalk cfg env k (s.bucket (s.bucketFor (cfg.hash k)))).removed

/-- The entries dropped before an insertion (basic_hashtable.ii:403-409, hashtable.ii:918-931; compare `Hoard.beforeLink`). -/
def before (cfg : Cfg K) (env : Env V) (s : St K V E) : List Ev :=
  if cfg.over (s.size + 1) s.tbl.length then unlinks (purgeWalk env s.ents).removed else []

/-- `link` (hashtable.ii:713-719; compare `Hoard.link`). -/
def linked (cfg : Cfg K) (env : Env V) (s : St K V E) (e : Entry K V E) : List Ev :=
  before cfg env s ++ .create e.id :: (if e.isPending then [] else [.assign e.id (e.mapped.holdsValue env) false])

/-- Insertion with possible failure (hashtable.ii:700-719, basic_hashtable.ii:379-427; compare `Hoard.tryLink`). -/
def tried (cfg : Cfg K) (env : Env V) (s : St K V E) (e : Entry K V E) : Fail → List Ev
  | .none => linked cfg env s e
  | .alloc => []
  | .grow => if mustGrow cfg (beforeLink cfg env s) then before cfg env s else linked cfg env s e

/-- Completion of a lookup (async_resolver_callback.h:29-60; compare `Hoard.complete`): `on_assign_` at 36 and 52, if the lookup is still open and the cache there. -/
def completed (s : St K V E) (tok : Nat) (r : Res V E) : List Ev :=
  if tok ∈ s.opens then (if s.destroyed then [] else [.assign tok r.isOk true]) else []

/-- An asynchronous lookup (resolver_policy.ii:80-93; compare `Hoard.resolveAsync`). -/
def resolveAsync (cfg : Cfg K) (env : Env V) (s : St K V E) (k : K) (b : Beh V E) : List Ev :=
  let s1 := link cfg env s (newEntry s k (.pending {}))
  linked cfg env s (newEntry s k (.pending {})) ++
    match b with
    | .now r => completed { s1 with opens := s1.opens ++ [s.nextId] } s.nextId r
    | _ => []

/-- A synchronous lookup (resolver_policy.ii:31-53; compare `Hoard.resolveSync`). -/
def resolveSync (cfg : Cfg K) (env : Env V) (s : St K V E) (k : K) (r : Res V E) : List Ev := linked cfg env s (newEntry s k (syncMapped r))

/-- A refresh (refresh_impl_policy.ii:52-89; compare `Hoard.refresh`). -/
def refresh (cfg : Cfg K) (env : Env V) (s : St K V E) (e : Entry K V E) (r : Res V E) (b : Beh V E) : List Ev :=
  if e.refreshing || e.expired env then []
  else if cfg.resolver = .async then resolveAsync cfg env s e.key b else resolveSync cfg env s e.key r

/-- The calls made by an operation: `get_if_exists` (hashtable.ii:487-512) and `count` (892-895) make none; `get` (567-595, 597-642), `emplace` (768-795),
`get_or_emplace` (797-889), `erase` (660-698), `clear` (644-658), the callback object (async_resolver_callback.h:25-73), the refresh worker
(refresh_policy.ii:117-121), the destructor (hashtable.ii:477-480). -/
def events (cfg : Cfg K) (env : Env V) (s : St K V E) : Op K V E → List Ev
  | .getIfExists _ => []
  | .get k r =>
    let w := getWalk cfg env k false (s.bucket (s.bucketFor (cfg.hash k)))
    lookup cfg env s k false ++ if cfg.resolver = .sync ∧ w.hit.isNone = true then resolveSync cfg env (get_ cfg env s k false).1 k r else []
  | .asyncGet k _ b =>
    let w := getWalk cfg env k true (s.bucket (s.bucketFor (cfg.hash k)))
    lookup cfg env s k true ++ if w.hit.isNone = true then resolveAsync cfg env (get_ cfg env s k true).1 k b else []
  | .emplace k v f =>
    let s1 := expire_ cfg env s k
    expire cfg env s k ++ tried cfg env s1 (newEntry s1 k (.value v)) f
  | .getOrEmplace k v f =>
    let w := getWalk cfg env k true (s.bucket (s.bucketFor (cfg.hash k)))
    let s1 := (get_ cfg env s k true).1
    lookup cfg env s k true ++ if w.hit.isNone = true then tried cfg env s1 (newEntry s1 k (.value v)) f else []
  | .erase k => expire cfg env s k
  | .clear => unlinks (expireAllWalk s.ents).removed
  | .count => []
  | .complete tok r => completed s tok r
  | .drop _ => []
  | .tick r b =>
    match s.delayQ with
    | [] => []
    | i :: q =>
      match s.find i with
      | none => []
      | some e => if reached env.now e.refTp then refresh cfg env { s with delayQ := q } e r b else []
  | .destroy => unlinks s.ents

/-- The calls made in a history (cache.h:39, 51, 58, 65, 72, 79, 86: one operation after the other). -/
def trace (cfg : Cfg K) : St K V E → Hist K V E → List Ev
  | _, [] => []
  | s, (env, o) :: h => events cfg env s o ++ trace cfg (step cfg env s o).1 h

end Hoard.Events
