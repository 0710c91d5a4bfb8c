import Verif.Cache
import Verif.Meta
/-!
# Dispatch of events to the policies

A cache does not know its policies: it derives from the `table_base` of every policy of the
effective list (`Verif.Meta`), and sends each event to all of them that can take it, in the order
of that list (`/repo/include/libhoard/detail/hashtable.ii` lines 33-275).  Likewise an entry asks all its
bases whether it is expired (`detail/value_type.ii` 113-124).  Here the events are modelled in this way, for any
list of policies, any number of clocks, and with the policies of `asio/`.  `Verif.Cache` has the same events
written out for the policies it knows; `Props/Dispatch` proves that they are the same.

Entries are numbered; what policies keep in an entry is a function of its number.  Left out: the handlers
that timers call (`Verif.Timers`), the notification of the worker (`Verif.Worker`), and policies that are
defined by the user (they take no events).
-/
namespace Hoard.Dispatch
open Hoard.Meta (Pol Clock Cls allPolicies lib valueBases keepsErrors)

variable {V E : Type}

/-- What all clocks show (`Clock::now()`, max_age_policy.ii:22-23, refresh_policy.ii:53, 59, 69), and which objects
have an owner outside, as in `Env`. -/
structure PEnv (V : Type) where
  now : Clock → Int
  alive : V → Bool

/-- For the functions of `Verif.Mapped`, which do not look at clocks.  mapped_type.ii:294-431. -/
def PEnv.env (pe : PEnv V) : Env V := ⟨⟨pe.now .steady, pe.now .system⟩, pe.alive⟩

/-- The arguments of the constructors of the policies: max_size_policy.h:20, max_age_policy.h:30,
refresh_policy.h:25, asio/refresh_policy.h:23 and 72.  `due p v t` is the time for which the timer of an
`asio_refresh_fn_policy` is set at time `t` for the value `v`: `t` plus a duration, or a time point
(asio/refresh_policy.ii:168-183). -/
structure Args (V : Type) where
  size : Nat := 0
  age : Clock → Int := fun _ => 0
  errAge : Clock → Int := fun _ => 0
  delay : Pol → Int := fun _ => 0
  due : Pol → V → Int → Int := fun _ _ t => t
  idle : Pol → Int := fun _ => 0

/-- What the policies keep.  For every entry: the variant of the value, `expire_tp_` of each clock
(expire_at_policy.h:29), `refresh_tp` or the time of the timer, and `cancel_tp`, of each refresh policy
(refresh_policy.h:45-46, asio/refresh_policy.h:40-41, 90-91).  For the table: `delay_queue` of each refresh
policy (refresh_policy.h:66) and the recency queue (queue.h:77-79).  A time `none` is `time_point::max()`, or a
timer that does not run. -/
structure Data (V E : Type) where
  mapped : Nat → Mapped V E
  exp : Nat → Clock → Option Int
  refT : Nat → Pol → Option Int
  can : Nat → Pol → Option Int
  dq : Pol → List Nat
  bq : BQ

/-- Change a member of one entry.  An assignment such as refresh_policy.ii:53. -/
def set1 {A : Type} (f : Nat → A) (i : Nat) (a : A) : Nat → A := fun j => if j = i then a else f j

/-- Change a member that one policy keeps in one entry.  An assignment such as refresh_policy.ii:53. -/
def set2 {A B : Type} [DecidableEq B] (f : Nat → B → A) (i : Nat) (b : B) (a : A) : Nat → B → A :=
  fun j c => if j = i ∧ c = b then a else f j c

/-- Change what one policy keeps in the table.  An assignment such as refresh_policy.ii:54. -/
def setP {A : Type} (f : Pol → A) (p : Pol) (a : A) : Pol → A := fun q => if q = p then a else f q

/-- `expire_at` (expire_at_policy.ii:16-19): keeps the earlier deadline. -/
def expireAt (d : Data V E) (i : Nat) (c : Clock) (t : Int) : Data V E :=
  { d with exp := set2 d.exp i c (tpMin (d.exp i c) (some t)) }

/-- The part of `on_assign_` that is the same for values and for errors (max_age_policy.ii:22-23). -/
def limitAge (pe : PEnv V) (i : Nat) (c : Clock) (a : Int) (d : Data V E) : Data V E :=
  let d1 := expireAt d i c (pe.now c + a)
  if c.isSteady then d1 else expireAt d1 i .steady (pe.now .steady + a)

/-- `cancel_tp = min(cancel_tp, now + idle_timer)`, unless the idle timer is zero (refresh_policy.ii:57-61,
asio/refresh_policy.ii:69-73, 148-152). -/
def startIdle (a : Args V) (pe : PEnv V) (i : Nat) (p : Pol) (c : Clock) (d : Data V E) : Data V E :=
  if a.idle p = 0 then d else { d with can := set2 d.can i p (tpMin (d.can i p) (some (pe.now c + a.idle p))) }

/-- `on_create_` of a policy: queue.ii:11-22, 112-118.  No other policy has one. -/
def onCreate (pe : PEnv V) (i : Nat) (d : Data V E) : Pol → Data V E
  | .queue =>
    let r := d.bq.onCreate i
    match r.2 with
    | none => { d with bq := r.1 }
    | some m => { d with bq := r.1, mapped := set1 d.mapped m ((d.mapped m).strengthen pe.env) }
  | _ => d

/-- `on_assign_` of a policy: max_age_policy.ii:20-25, refresh_policy.ii:51-63, asio/refresh_policy.ii:54-75 and 133-154.
Simplified: if `asio_refresh_fn_policy` finds no value to read the program ends (C62), here nothing happens. -/
def onAssign (a : Args V) (pe : PEnv V) (i : Nat) (value : Bool) (d : Data V E) : Pol → Data V E
  | .maxAge c => if value then limitAge pe i c (a.age c) d else d
  | .errMaxAge c => if value then d else limitAge pe i c (a.errAge c) d
  | .refresh c =>
    if value then
      startIdle a pe i (.refresh c) c
        { d with
          refT := set2 d.refT i (.refresh c) (some (pe.now c + a.delay (.refresh c)))
          dq := setP d.dq (.refresh c) (d.dq (.refresh c) ++ [i]) }
    else d
  | .asioRefresh c n =>
    if value then
      startIdle a pe i (.asioRefresh c n) c
        { d with refT := set2 d.refT i (.asioRefresh c n) (some (pe.now c + a.delay (.asioRefresh c n))) }
    else d
  | .asioRefreshFn c n =>
    if value then
      match (d.mapped i).get pe.env false with
      | .val v =>
        startIdle a pe i (.asioRefreshFn c n) c
          { d with refT := set2 d.refT i (.asioRefreshFn c n) (some (a.due (.asioRefreshFn c n) v (pe.now c))) }
      | _ => d
    else d
  | _ => d

/-- `cancel_tp = now + idle_timer`, unless the idle timer is zero or there is no value (refresh_policy.ii:67-70,
asio/refresh_policy.ii:78-81, 157-160). -/
def moveIdle (a : Args V) (pe : PEnv V) (i : Nat) (p : Pol) (c : Clock) (d : Data V E) : Data V E :=
  if a.idle p ≠ 0 ∧ (d.mapped i).holdsValue pe.env = true then { d with can := set2 d.can i p (some (pe.now c + a.idle p)) } else d

/-- `on_hit_` of a policy: queue.ii:24-37 and 120-126, refresh_policy.ii:65-70, asio/refresh_policy.ii:76-81 and 155-160. -/
def onHit (a : Args V) (pe : PEnv V) (i : Nat) (d : Data V E) : Pol → Data V E
  | .queue => { d with bq := d.bq.onHit i, mapped := set1 d.mapped i ((d.mapped i).strengthen pe.env) }
  | .refresh c => moveIdle a pe i (.refresh c) c d
  | .asioRefresh c n => moveIdle a pe i (.asioRefresh c n) c d
  | .asioRefreshFn c n => moveIdle a pe i (.asioRefreshFn c n) c d
  | _ => d

/-- `on_unlink_` of a policy: queue.ii:39-60, refresh_policy.ii:72-76, asio/refresh_policy.ii:83-87 and 162-166 (the
timer is stopped). -/
def onUnlink (i : Nat) (d : Data V E) : Pol → Data V E
  | .queue => { d with bq := d.bq.onUnlink i }
  | .refresh c => { d with dq := setP d.dq (.refresh c) ((d.dq (.refresh c)).erase i) }
  | .asioRefresh c n => { d with refT := set2 d.refT i (.asioRefresh c n) none }
  | .asioRefreshFn c n => { d with refT := set2 d.refT i (.asioRefreshFn c n) none }
  | _ => d

/-- `policy_removal_check_` of a policy, if it has one, when the table has `n` entries: max_size_policy.ii:16-20. -/
def removalCheck (a : Args V) (n : Nat) : Pol → Option Nat
  | .maxSize => some (if n > a.size then n - a.size else 0)
  | _ => none

/-- `base_invoke_` (hashtable.ii:270-275) with meta.h:138-161: one policy after the other. -/
def invoke (l : List Pol) (h : Data V E → Pol → Data V E) (d : Data V E) : Data V E := l.foldl h d

/-- `policy_removal_check_` of the table (hashtable.ii:144-161, 246-252): the largest of the answers. -/
def removal (a : Args V) (n : Nat) (l : List Pol) : Nat :=
  l.foldl (fun m p => match removalCheck a n p with
    | some k => if k > m then k else m
    | none => m) 0

/-- The pointer policy is there: `is_pointer_policy_`, hashtable.h:219-220. -/
def isPointer : Pol → Bool
  | .pointer _ => true
  | _ => false

/-- `maintenance_` (hashtable.ii:897-904) with `lru_expire_` (queue.ii:95-110), when the table has `n` entries. -/
def maintain (a : Args V) (n : Nat) (l : List Pol) (d : Data V E) : Data V E :=
  if l.any (fun p => (removalCheck a n p).isSome) then
    (d.bq.victims (removal a n l)).foldl (fun d i =>
      { d with mapped := set1 d.mapped i (if l.any (fun p => p = .weaken) then (d.mapped i).weaken (l.any isPointer) else (d.mapped i).markExpired) }) d
  else d

/-- `expired` of a base of the entries, if it has one: expire_at_policy.ii:11-14, refresh_policy.ii:24-27,
asio/refresh_policy.ii:25-28 and 104-107. -/
def baseExpired (pe : PEnv V) (d : Data V E) (i : Nat) : Cls → Bool
  | .expireAtBase c => reached (pe.now c) (d.exp i c)
  | .refreshBase c => reached (pe.now c) (d.can i (.refresh c))
  | .asioRefreshBase c n => reached (pe.now c) (d.can i (.asioRefresh c n))
  | .asioRefreshFnBase c n => reached (pe.now c) (d.can i (.asioRefreshFn c n))
  | _ => false

/-- `value_type::expired` (value_type.ii:113-124, 9-25): the value itself, an error that is not to be kept, or one of the bases. -/
def expired (user : List Pol) (pe : PEnv V) (d : Data V E) (i : Nat) : Bool :=
  (valueBases user).foldl (fun b c => if baseExpired pe d i c then true else b)
    (if !keepsErrors user && (d.mapped i).holdsError then true else (d.mapped i).expired pe.env)

/-- `on_refresh` of a base of the entries: the refreshed entry is idle no later than the old one (refresh_policy.ii:29-32,
asio/refresh_policy.ii:30-33, 109-112). -/
def onRefresh (new old : Nat) (d : Data V E) : Cls → Data V E
  | .refreshBase c => { d with can := set2 d.can new (.refresh c) (tpMin (d.can new (.refresh c)) (d.can old (.refresh c))) }
  | .asioRefreshBase c n => { d with can := set2 d.can new (.asioRefresh c n) (tpMin (d.can new (.asioRefresh c n)) (d.can old (.asioRefresh c n))) }
  | .asioRefreshFnBase c n =>
    { d with can := set2 d.can new (.asioRefreshFn c n) (tpMin (d.can new (.asioRefreshFn c n)) (d.can old (.asioRefreshFn c n))) }
  | _ => d

/-- The events (hashtable.h:152-168, refresh_impl_policy.h:24).  `maintain n`: maintenance when the table has `n` entries. -/
inductive Ev where
  | create (i : Nat)
  | assign (i : Nat) (value : Bool)
  | hit (i : Nat)
  | unlink (i : Nat)
  | maintain (n : Nat)
  | refreshed (new old : Nat)
deriving DecidableEq, Repr

/-- An event of a cache with the named policies: hashtable.ii:217-252, 897-904, refresh_impl_policy.ii:36-40. -/
def event (user : List Pol) (a : Args V) (pe : PEnv V) (d : Data V E) : Ev → Data V E
  | .create i => invoke (allPolicies lib user) (onCreate pe i) d
  | .assign i v => invoke (allPolicies lib user) (onAssign a pe i v) d
  | .hit i => invoke (allPolicies lib user) (onHit a pe i) d
  | .unlink i => invoke (allPolicies lib user) (onUnlink i) d
  | .maintain n => maintain a n (allPolicies lib user) d
  | .refreshed new old => (valueBases user).foldl (onRefresh new old) d

/-- Events one after the other, each at its time.  As they come from hashtable.ii:554, 716-717, 732, 897-904, 948. -/
def events (user : List Pol) (a : Args V) (d : Data V E) (es : List (PEnv V × Ev)) : Data V E :=
  es.foldl (fun d e => event user a e.1 d e.2) d

end Hoard.Dispatch
