import Verif.Cache
/-!
# Times of 64 bits

The functions of `Verif.Cache` that add a duration to the time of a clock, and all that call them, once more, with
arithmetic of 64 bits.  Durations and time points of `std::chrono` hold signed integers of 64 bits; a sum or product that
does not fit is undefined behaviour, here `none`.

`time_point::max()`, the initial value of deadlines, is `none` as in `Verif.Cache`.

Simplifications: all clocks count in the same unit (nanoseconds in the usual libraries).  No clock ever shows
`time_point::max()`.  The functions that do no arithmetic are those of `Verif.Cache`.
-/
namespace Hoard.MachineTime
variable {K V E : Type}

/-- The smallest number of 64 bits.  `Clock::duration::min()`, for the members max_age_policy.h:46, refresh_policy.h:65. -/
def lo : Int := -(2 ^ 63)

/-- The largest number of 64 bits.  `Clock::time_point::max()` (expire_at_policy.h:29, refresh_policy.h:46). -/
def hi : Int := 2 ^ 63 - 1

/-- A result of 64 bits; `none` is signed overflow.  The additions of max_age_policy.ii:22-23, refresh_policy.ii:53, 60, 69. -/
def chk (x : Int) : Option Int := if lo ≤ x ∧ x ≤ hi then some x else none

/-- `Clock::now() + max_age_` (max_age_policy.ii:22-23): milliseconds are converted to the unit of the clock, with `ticks` to
the millisecond, and then added. -/
def sumMs (ticks now ms : Int) : Option Int := do
  let d ← chk (ms * ticks)
  chk (now + d)

/-- `Clock::now() + delay`, `Clock::now() + idle_timer` (refresh_policy.ii:53, 60, 69). -/
def sum (now d : Int) : Option Int := chk (now + d)

/-- The arguments of the policies: age limits in milliseconds (max_age_policy.h:31-34, 46), delay and idle timer in the unit of
the clock (refresh_policy.h:25-28, 65), and the number of units in a millisecond. -/
structure Limits where
  maxAge : Option Int := none
  errAge : Option Int := none
  refresh : Option (Int × Int) := none
  ticks : Int := 1000000

/-- The results of the additions of `on_assign_`: the deadlines of the age limit, the time of the refresh and the end of the
idle time (max_age_policy.ii:18-25, refresh_policy.ii:49-63). -/
structure Sums where
  age : Option (Int × Option Int)
  ref : Option Int
  can : Option Int

/-- The additions of the age limit (max_age_policy.ii:21-24). -/
def ageSums (lim : Limits) (wall : Bool) (now : Time) (value : Bool) : Option (Option (Int × Option Int)) :=
  match (if value then lim.maxAge else lim.errAge) with
  | none => some none
  | some ms =>
    if wall then do
      let w ← sumMs lim.ticks now.wall ms
      let t ← sumMs lim.ticks now.steady ms
      some (some (t, some w))
    else do
      let t ← sumMs lim.ticks now.steady ms
      some (some (t, none))

/-- The additions of the refresh policy (refresh_policy.ii:52-62). -/
def refreshSums (lim : Limits) (now : Time) (value : Bool) : Option (Option Int × Option Int) :=
  match lim.refresh with
  | none => some (none, none)
  | some (delay, idle) =>
    if value then do
      let r ← sum now.steady delay
      if idle = 0 then some (some r, none)
      else do
        let c ← sum now.steady idle
        some (some r, some c)
    else some (none, none)

/-- All additions of `on_assign_` (max_age_policy.ii:21-24, refresh_policy.ii:52-62). -/
def assignSums (lim : Limits) (wall : Bool) (now : Time) (value : Bool) : Option Sums := do
  let a ← ageSums lim wall now value
  let r ← refreshSums lim now value
  some ⟨a, r.1, r.2⟩

/-- Store them in the entry, the earlier deadline being kept (expire_at_policy.ii:16-19, refresh_policy.ii:53, 58-60). -/
def setTimes (m : Sums) (e : Entry K V E) : Entry K V E :=
  { e with
    expTp := deadMin e.expTp m.age
    refTp := match m.ref with
      | none => e.refTp
      | some r => some r
    canTp := tpMin e.canTp m.can }

/-- `on_assign_` (hashtable.ii:221-224; compare `Hoard.onAssign`). -/
def onAssign (lim : Limits) (cfg : Cfg K) (env : Env V) (s : St K V E) (i : Nat) (value : Bool) : Option (St K V E) := do
  let m ← assignSums lim cfg.wall env.now value
  let s1 := s.modify i (setTimes m)
  some (if lim.refresh.isSome && value then { s1 with delayQ := s1.delayQ ++ [i] } else s1)

/-- `on_hit_` (queue.ii:24-37, 120-126, refresh_policy.ii:65-70; compare `Hoard.onHit`).  The addition is made only if the
entry holds a value. -/
def onHit (lim : Limits) (cfg : Cfg K) (env : Env V) (s : St K V E) (i : Nat) : Option (St K V E) :=
  let s1 := if cfg.maxSize.isSome then
      { s.modify i (·.upd (.strengthen env)) with bq := s.bq.onHit i }
    else s
  match lim.refresh with
  | none => some s1
  | some (_, idle) =>
    if idle ≠ 0 ∧ (s1.ents ++ s1.limbo).any (fun e => e.id == i && e.mapped.holdsValue env) = true then do
      let t ← sum env.now.steady idle
      some (s1.modify i (fun e => if e.mapped.holdsValue env then { e with canTp := some t } else e))
    else some s1

/-- `hashtable::link` (hashtable.ii:713-719; compare `Hoard.link`). -/
def link (lim : Limits) (cfg : Cfg K) (env : Env V) (s : St K V E) (e : Entry K V E) : Option (St K V E) :=
  let s1 := maybeRehash cfg env s
  let s2 := { s1 with tbl := place cfg s1.tbl e, nextId := s1.nextId + 1 }
  let s3 := onCreate cfg env s2 e.id
  if e.isPending then some s3 else onAssign lim cfg env s3 e.id (e.mapped.holdsValue env)

/-- `hashtable::get_` (hashtable.ii:514-565; compare `Hoard.get_`). -/
def get_ (lim : Limits) (cfg : Cfg K) (env : Env V) (s : St K V E) (k : K) (incl : Bool) : Option (St K V E × Look V E) :=
  let i := s.bucketFor (cfg.hash k)
  let w := getWalk cfg env k incl (s.bucket i)
  let s1 := applyWalk cfg s i w
  match w.hit with
  | none => some (s1, .none)
  | some (id, l) => (onHit lim cfg env s1 id).map (fun s2 => (s2, l))

/-- Insertion with possible failure (basic_hashtable.ii:379-380, 421; compare `Hoard.tryLink`). -/
def tryLink (lim : Limits) (cfg : Cfg K) (env : Env V) (s : St K V E) (e : Entry K V E) : Fail → Option (St K V E × Bool)
  | .none => (link lim cfg env s e).map (fun s' => (s', true))
  | .alloc => some (s, false)
  | .grow =>
    let s1 := beforeLink cfg env s
    if mustGrow cfg s1 then some (s1, false) else (link lim cfg env s e).map (fun s' => (s', true))

/-- `cache::emplace` (cache.h:63-75; compare `Hoard.emplace`). -/
def emplace (lim : Limits) (cfg : Cfg K) (env : Env V) (s : St K V E) (k : K) (v : V) (f : Fail) : Option (St K V E × Out K V E) := do
  let s1 := expire_ cfg env s k
  let x ← tryLink lim cfg env s1 (newEntry s1 k (.value v)) f
  some (if x.2 then (maintenance cfg x.1, { made := true }) else (x.1, { ret := .throws }))

/-- `cache::get_or_emplace` (cache.h:77-89; compare `Hoard.getOrEmplace`). -/
def getOrEmplace (lim : Limits) (cfg : Cfg K) (env : Env V) (s : St K V E) (k : K) (v : V) (f : Fail) : Option (St K V E × Out K V E) := do
  let g ← get_ lim cfg env s k true
  match g.2 with
  | .val v' => some (maintenance cfg g.1, { ret := .val v' })
  | .none => do
    let x ← tryLink lim cfg env g.1 (newEntry g.1 k (.value v)) f
    some (if x.2 then (maintenance cfg x.1, { ret := .val v, made := true }) else (x.1, { ret := .throws }))
  | _ => some (maintenance cfg g.1, { ret := .throws })

/-- `resolver_policy::resolve` (resolver_policy.ii:31-53; compare `Hoard.resolveSync`). -/
def resolveSync (lim : Limits) (cfg : Cfg K) (env : Env V) (s : St K V E) (k : K) (r : Res V E) : Option (St K V E × Nat) :=
  (link lim cfg env s (newEntry s k (syncMapped r))).map (fun s' => (s', s.nextId))

/-- `get` without resolver and with a synchronous one (detail/cache_get.h:24-39, resolver_policy.ii:101-120; compare
`Hoard.get`). -/
def get (lim : Limits) (cfg : Cfg K) (env : Env V) (s : St K V E) (k : K) (r : Res V E) : Option (St K V E × Out K V E) := do
  let g ← get_ lim cfg env s k false
  match cfg.resolver, g.2 with
  | .sync, .none => do
    let x ← resolveSync lim cfg env g.1 k r
    some (x.1, { ret := syncRet ((syncMapped r).get env false), calls := [(k, x.2)] })
  | .sync, l => some (g.1, { ret := syncRet l })
  | _, .val v => some (g.1, { ret := .val v })
  | _, _ => some (g.1, { ret := .miss })

/-- `assign` and `assign_error` of the handle (async_resolver_callback.h:29-60; compare `Hoard.complete`). -/
def complete (lim : Limits) (cfg : Cfg K) (env : Env V) (s : St K V E) (tok : Nat) (r : Res V E) : Option (St K V E × Out K V E) :=
  if tok ∈ s.opens ∧ s.destroyed = false then
    let s0 := { s with opens := s.opens.erase tok }
    let cbs := ((s0.findAny tok).map (·.mapped.cbs)).getD []
    let s1 := runCbs s0 tok cbs
    let s2 := s1.modify tok (·.upd (completed cfg r))
    (onAssign lim cfg env s2 tok r.isOk).map (fun s3 => (s3, { ret := .bool true, fired := (users cbs).map (fun w => (w, r)) }))
  else some (Hoard.complete cfg env s tok r)

/-- `async_resolver_policy::resolve` (resolver_policy.ii:80-93; compare `Hoard.resolveAsync`). -/
def resolveAsync (lim : Limits) (cfg : Cfg K) (env : Env V) (s : St K V E) (k : K) (b : Beh V E) : Option (St K V E × Nat) := do
  let tok := s.nextId
  let s1 ← link lim cfg env s (newEntry s k (.pending {}))
  let s2 := { s1 with opens := s1.opens ++ [tok] }
  match b with
  | .later => some (s2, tok)
  | .now r => (complete lim cfg env s2 tok r).map (fun x => (x.1, tok))
  | .drop => some ((drop s2 tok).1, tok)

/-- `get` of a cache with an asynchronous resolver (resolver_policy.ii:123-148, hashtable.ii:597-642; compare
`Hoard.asyncGet`). -/
def asyncGet (lim : Limits) (cfg : Cfg K) (env : Env V) (s : St K V E) (k : K) (w : Nat) (b : Beh V E) : Option (St K V E × Out K V E) := do
  let i := s.bucketFor (cfg.hash k)
  let hit := (getWalk cfg env k true (s.bucket i)).hit
  let g ← get_ lim cfg env s k true
  match hit with
  | some (id, l) => some (answer g.1 id w l)
  | none => do
    let x ← resolveAsync lim cfg env g.1 k b
    let l := match x.1.find x.2 with
      | some e => e.mapped.get env true
      | none => .none
    let a := answer x.1 x.2 w l
    some (a.1, { a.2 with calls := [(k, x.2)] })

/-- The call of the resolver in `refresh` (refresh_impl_policy.ii:64). -/
def resolve (lim : Limits) (cfg : Cfg K) (env : Env V) (s : St K V E) (k : K) (r : Res V E) (b : Beh V E) : Option (St K V E × Nat) :=
  if cfg.resolver = .async then resolveAsync lim cfg env s k b else resolveSync lim cfg env s k r

/-- `refresh` (refresh_impl_policy.ii:52-89; compare `Hoard.refresh`). -/
def refresh (lim : Limits) (cfg : Cfg K) (env : Env V) (s : St K V E) (e : Entry K V E) (r : Res V E) (b : Beh V E) : Option (St K V E × Out K V E) :=
  if e.refreshing || e.expired env then some (s, {}) else do
  let x ← resolve lim cfg env s e.key r b
  let s2 := x.1.modify e.id (fun y => { y with refreshing := true })
  match s2.find x.2 with
  | some n =>
    if n.isPending then some (s2.modify x.2 (·.upd (.addCb (.refresh e.id))), { calls := [(e.key, x.2)] })
    else some (runCb s2 x.2 (.refresh e.id), { calls := [(e.key, x.2)] })
  | none => some (s2, { calls := [(e.key, x.2)] })

/-- One round of the loop of the refresh worker (refresh_policy.ii:117-121; compare `Hoard.tick`). -/
def tick (lim : Limits) (cfg : Cfg K) (env : Env V) (s : St K V E) (r : Res V E) (b : Beh V E) : Option (St K V E × Out K V E) :=
  match s.delayQ with
  | [] => some (s, {})
  | i :: q =>
    match s.find i with
    | none => some (s, {})
    | some e =>
      if reached env.now e.refTp then refresh lim cfg env { s with delayQ := q } e r b
      else some (s, {})

/-- One operation, or undefined behaviour.  Dispatch as in `Hoard.step`; the operations named here are those that can add
times (cache.h:63-89, resolver_policy.ii:101-148, async_resolver_callback.h:29-60, refresh_policy.ii:117-121). -/
def step (lim : Limits) (cfg : Cfg K) (env : Env V) (s : St K V E) : Op K V E → Option (St K V E × Out K V E)
  | .get k r => get lim cfg env s k r
  | .asyncGet k w b => asyncGet lim cfg env s k w b
  | .emplace k v f => emplace lim cfg env s k v f
  | .getOrEmplace k v f => getOrEmplace lim cfg env s k v f
  | .complete tok r => complete lim cfg env s tok r
  | .tick r b => tick lim cfg env s r b
  | o => some (Hoard.step cfg env s o)

/-- Run a history; `none` once behaviour is undefined.  One call after the other (cache.h:39, 51, 58, 65, 72, 79, 86). -/
def run (lim : Limits) (cfg : Cfg K) : St K V E → Hist K V E → Option (St K V E × List (Out K V E))
  | s, [] => some (s, [])
  | s, (env, o) :: h => do
    let x ← step lim cfg env s o
    let y ← run lim cfg x.1 h
    some (y.1, x.2 :: y.2)

end Hoard.MachineTime
