import Verif.Cache
/-!
# Calls that are left in the middle of a walk

Comparisons of keys, and copying of results, are code of the user and may throw.  `get_` and `expire_`
call them while they walk along a bucket and have changed entries before, so what they leave depends
on how far they got.

* The hash function runs before anything is touched (hashtable.ii:508, 578, 601, 694, 771, 790, 809, 859): if it
  throws, nothing has happened, and there is nothing to model.
* `get_if_exists` is `const` (hashtable.ii:487): if it throws, nothing has happened.
* `erase` is `noexcept` (cache.h:57): if it throws, the program ends.  There is no state afterwards.
* All callers hold the lock by a guard (cache.h:65, 79; resolver_policy.ii:103, 128), which gives it back.

Simplified: a copy made after the walk (of the result, on its way to the caller) is not modelled, it
comes after all effects.
-/
namespace Hoard.Abort
variable {K V E : Type}

/-- The loop of `get_` (hashtable.ii:521-561) when the comparison with, or the copying of (hashtable.ii:537),
the `n`-th entry with this hash code throws.  `none`: the walk does not get there. -/
def lookStop (cfg : Cfg K) (env : Env V) (k : K) (incl : Bool) : Nat → List (Entry K V E) → Option (Walk K V E)
  | _, [] => none
  | n, e :: es =>
    if cfg.hash e.key ≠ cfg.hash k then
      if stale env e then (lookStop cfg env k incl n es).map (·.drop e)
      else (lookStop cfg env k incl n es).map (·.keep e)
    else match n with
      | 0 => some ⟨e :: es, [], none⟩
      | n + 1 =>
        if e.expired env then
          if e.isPending then (lookStop cfg env k incl n es).map (·.keep e)
          else (lookStop cfg env k incl n es).map (·.drop e)
        else
          match getIfMatching cfg env k incl e with
          | .none => (lookStop cfg env k incl n es).map (·.keep e)
          | _ => none

/-- The loop of `expire_` (hashtable.ii:664-687) when the comparison with the `n`-th entry with this hash
code (hashtable.ii:667) throws.  `none`: there is no such entry. -/
def removeStop (cfg : Cfg K) (env : Env V) (k : K) : Nat → List (Entry K V E) → Option (Walk K V E)
  | _, [] => none
  | n, e :: es =>
    if cfg.hash e.key = cfg.hash k then
      match n with
      | 0 => some ⟨e :: es, [], none⟩
      | n + 1 =>
        if cfg.eqv e.key k then
          if e.isPending then (removeStop cfg env k n es).map (·.keep (e.upd .markExpired))
          else (removeStop cfg env k n es).map (·.drop e)
        else if stale env e then (removeStop cfg env k n es).map (·.drop e)
        else (removeStop cfg env k n es).map (·.keep e)
    else if stale env e then (removeStop cfg env k n es).map (·.drop e)
    else (removeStop cfg env k n es).map (·.keep e)

/-- Operations: those of Cache.lean and the calls that are left.  `look`: a `get` or `get_or_emplace`
(cache.h:77-89, resolver_policy.ii:101-148, hashtable.ii:567-642, 797-890; `incl`: one that also finds
lookups in flight).  `emplace` (cache.h:63-75, hashtable.ii:768-795) removes first, so nothing is stored. -/
inductive AOp (K V E : Type) where
  | plain (o : Op K V E)
  | look (k : K) (incl : Bool) (n : Nat)
  | emplace (k : K) (n : Nat)

/-- What is done to the bucket by a call that is left (hashtable.ii:514-561, 660-687). -/
def stopWalk (cfg : Cfg K) (env : Env V) (s : St K V E) : AOp K V E → Option (Nat × Walk K V E)
  | .plain _ => none
  | .look k incl n => (lookStop cfg env k incl n (s.bucket (s.bucketFor (cfg.hash k)))).map (fun w => (s.bucketFor (cfg.hash k), w))
  | .emplace k n => (removeStop cfg env k n (s.bucket (s.bucketFor (cfg.hash k)))).map (fun w => (s.bucketFor (cfg.hash k), w))

/-- One operation.  A call that is left has done the first part of its walk and throws
(hashtable.ii:514-561, 660-687). -/
def astep (cfg : Cfg K) (env : Env V) (s : St K V E) : AOp K V E → St K V E × Out K V E
  | .plain o => step cfg env s o
  | o => match stopWalk cfg env s o with
    | some (i, w) => (applyWalk cfg s i w, { ret := .throws })
    | none => (s, {})

/-- The operations that make sense: as `Op.ok` (cache_get.h:55-59), and a call is left at an entry that
its walk reaches (hashtable.ii:537, 667). -/
def AOp.ok (cfg : Cfg K) (env : Env V) (s : St K V E) : AOp K V E → Prop
  | .plain o => o.ok cfg s
  | o => s.destroyed = false ∧ (stopWalk cfg env s o).isSome = true

/-- Histories with calls that are left; the calls of cache.h:35-89 in the order of their locks. -/
abbrev AHist (K V E : Type) := List (Env V × AOp K V E)

/-- Run a history.  One call after the other, as the locks enforce (cache.h:39, 51, 58, 65). -/
def arun (cfg : Cfg K) : St K V E → AHist K V E → St K V E × List (Out K V E)
  | s, [] => (s, [])
  | s, (env, o) :: h =>
    let (s1, out) := astep cfg env s o
    let (s2, outs) := arun cfg s1 h
    (s2, out :: outs)

/-- All operations of the history are possible when they happen (cache_get.h:55-59). -/
def AHistOk (cfg : Cfg K) : St K V E → AHist K V E → Prop
  | _, [] => True
  | s, (env, o) :: h => o.ok cfg env s ∧ AHistOk cfg (astep cfg env s o).1 h

end Hoard.Abort
