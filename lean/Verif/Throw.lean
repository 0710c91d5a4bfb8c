import Verif.Cache
/-!
# Calls that fail

The model of Cache.lean with the failures of the code that belongs to the user: a constructor of
the value that throws, a resolver functor that throws, an allocation that fails.  `emplace` and
`get_or_emplace` can fail in Cache.lean already; here the lookups can.

* An exception leaves the call (`ret := .throws`), or ends the program where it reaches a
  `noexcept` function (`ended`).
* When making the value fails in `assign`, the callbacks of the lookup are already taken out of
  the entry (mapped_type.ii:35) and die with the stack frame.  What is left in the entry depends
  on the type of the value: a variant that holds nothing, or the lookup without its callbacks
  (`keeps`).  The standard library decides: it keeps the old contents if the value is made before
  they are destroyed, as for scalars and for the arguments that `mpca_` computes (mapped_type.ii:229).

Simplified: exceptions of hash functions, of comparisons and of copying results are in Abort.lean,
those during a refresh (refresh_policy.ii:120) in RefreshFail.lean.  A functor that calls `assign` of
the handle, gets its exception and lets it pass behaves as one that keeps the handle and throws,
followed by the failing `assign` and the destruction of the handle.
-/
namespace Hoard.Throw
variable {K V E : Type}

/-- The state: that of the cache; the handles (`async_resolver_callback`) that can still be used
but whose entry holds no lookup any more, because making its value failed
(async_resolver_callback.h:35 left by an exception, `called` not set); and whether `std::terminate`
was called.  async_resolver_callback.h:75-78. -/
structure XSt (K V E : Type) where
  s : St K V E := St.init
  dead : List Nat := []
  ended : Bool := false

/-- Where a lookup with a synchronous resolver fails: allocation of the entry
(resolver_policy.ii:38 or 40, before the resolver is called); making the value inside the new entry
(resolver_policy.ii:38, a resolver that is `noexcept`); making the value in `assign`
(resolver_policy.ii:44, any other resolver) when nothing is left of the lookup; growing the table
(resolver_policy.ii:51).  If `assign` fails and the lookup is left, the exception is stored as the
result (resolver_policy.ii:48): that is `get` with this error as the result in Cache.lean. -/
inductive SyncFail where
  | alloc
  | build
  | assign
  | grow

/-- Where a lookup with an asynchronous resolver fails: allocation of the entry or of the handle
(resolver_policy.ii:87, 89); growing the table (resolver_policy.ii:90); the functor throws
(resolver_policy.ii:91); registering the callback of the caller (hashtable.ii:628-638). -/
inductive AsyncFail where
  | alloc
  | grow
  | functor
  | register

/-- What is left in the entry when making the value fails in `assign` (mapped_type.ii:35-36,
221-229). -/
def failed (ptr keeps : Bool) : Mapped V E → Mapped V E
  | .pending p => if keeps then .pending { p with cbs := [] } else if ptr then .gone else .void
  | m => m

/-- `async_resolver_callback::assign` (async_resolver_callback.h:29-44) when making the value
fails.  If the cache is gone no value is made. -/
def assignFail (cfg : Cfg K) (env : Env V) (x : XSt K V E) (tok : Nat) (keeps : Bool) (v : V) : XSt K V E × Out K V E :=
  if tok ∈ x.s.opens then
    if x.s.destroyed then
      let (s1, o) := complete cfg env x.s tok (.ok v)
      ({ x with s := s1 }, o)
    else
      let cbs := ((x.s.findAny tok).map (·.mapped.cbs)).getD []
      ({ x with
          s := { x.s with opens := if keeps then x.s.opens else x.s.opens.erase tok }.modify tok (·.upd (failed cfg.ptr keeps))
          dead := if keeps then x.dead else x.dead ++ [tok] },
        { ret := .throws, broken := users cbs })
  else if tok ∈ x.dead then
    if x.s.destroyed then ({ x with dead := x.dead.filter (· ≠ tok) }, { ret := .bool false }) else (x, { ret := .throws })
  else (x, { ret := .bool false })

/-- `assign` and `assign_error` (async_resolver_callback.h:29-60) of a handle whose entry holds no
lookup any more: `std::get<pending_type>` throws (mapped_type.ii:35, 42), which ends the program in
`assign_error`, because that is `noexcept` (mapped_type.ii:41). -/
def completeDead (x : XSt K V E) (tok : Nat) (r : Res V E) : XSt K V E × Out K V E :=
  if x.s.destroyed then ({ x with dead := x.dead.filter (· ≠ tok) }, { ret := .bool false })
  else match r with
    | .ok _ => (x, { ret := .throws })
    | .err _ => ({ x with ended := true }, {})

/-- `cancel` (async_resolver_callback.h:62-73) or the destructor of such a handle: nothing to cancel
(mapped_type.ii:93-97). -/
def dropDead (x : XSt K V E) (tok : Nat) : XSt K V E × Out K V E :=
  ({ x with dead := x.dead.filter (· ≠ tok) }, { ret := .bool true })

/-- `get` with a synchronous resolver (resolver_policy.ii:31-53, 101-120; hashtable.ii:567-595) that
fails at `f`, if it gets there: nothing is stored and, at `.grow`, new buckets are needed.  `r` is what
the resolver returns.  `nx`: `hashtable::get` is `noexcept`, because hash function, comparison and
copying of values are (hashtable.ii:569-574), so the exception ends the program.  A call that ends
the program does not return; what `ret` says of it means nothing. -/
def getFail (cfg : Cfg K) (env : Env V) (nx : Bool) (x : XSt K V E) (k : K) (r : Res V E) (f : SyncFail) : XSt K V E × Out K V E :=
  let (s1, l) := get_ cfg env x.s k false
  match l with
  | .none =>
    match f with
    | .alloc => ({ x with s := s1, ended := nx }, { ret := .throws })
    | .build => ({ x with s := s1, ended := nx }, { ret := .throws, calls := [(k, s1.nextId)] })
    | .assign => ({ x with s := s1, ended := true }, { ret := .throws, calls := [(k, s1.nextId)] })
    | .grow =>
      if mustGrow cfg (beforeLink cfg env s1) then
        ({ x with s := beforeLink cfg env s1, ended := nx }, { ret := .throws, calls := [(k, s1.nextId)] })
      else
        let (s2, o) := get cfg env x.s k r
        ({ x with s := s2 }, o)
  | l => ({ x with s := s1 }, { ret := syncRet l })

/-- `get` with an asynchronous resolver (resolver_policy.ii:80-93, 123-148; hashtable.ii:597-642) that
fails at `f`, if it gets there.  `b` is what the functor does with the handle (before it throws, if
it does). -/
def asyncFail (cfg : Cfg K) (env : Env V) (s : St K V E) (k : K) (w : Nat) (b : Beh V E) (f : AsyncFail) : St K V E × Out K V E :=
  let hit := (getWalk cfg env k true (s.bucket (s.bucketFor (cfg.hash k)))).hit
  let (s1, _) := get_ cfg env s k true
  match hit with
  | some (id, l) =>
    match f, l with
    | .register, .pend => (s1, { ret := .throws })
    | _, _ => answer s1 id w l
  | none =>
    match f with
    | .alloc => (s1, { ret := .throws })
    | .grow =>
      if mustGrow cfg (beforeLink cfg env s1) then (beforeLink cfg env s1, { ret := .throws })
      else asyncGet cfg env s k w b
    | .functor => ((resolveAsync cfg env s1 k b).1, { ret := .throws, calls := [(k, s1.nextId)] })
    | .register =>
      match b with
      | .now _ => asyncGet cfg env s k w b
      | _ => ((resolveAsync cfg env s1 k b).1, { ret := .throws, calls := [(k, s1.nextId)] })

/-- Operations: those of Cache.lean and the failing ones.  `assignFail tok keeps v`: the value `v` is
to be made and that fails.  cache.h:35-89, resolver_policy.ii:101-148, async_resolver_callback.h:25-73. -/
inductive XOp (K V E : Type) where
  | plain (o : Op K V E)
  | getFail (k : K) (r : Res V E) (f : SyncFail)
  | asyncFail (k : K) (w : Nat) (b : Beh V E) (f : AsyncFail)
  | assignFail (tok : Nat) (keeps : Bool) (v : V)

/-- One operation.  Dispatch only; a handle whose entry holds no lookup is treated apart.
async_resolver_callback.h:25-73, resolver_policy.ii:101-148. -/
def xstep (cfg : Cfg K) (nx : Bool) (env : Env V) (x : XSt K V E) : XOp K V E → XSt K V E × Out K V E
  | .plain (.complete tok r) =>
    if tok ∈ x.dead then completeDead x tok r
    else let (s1, o) := complete cfg env x.s tok r; ({ x with s := s1 }, o)
  | .plain (.drop tok) =>
    if tok ∈ x.dead then dropDead x tok
    else let (s1, o) := drop x.s tok; ({ x with s := s1 }, o)
  | .plain o => let (s1, out) := step cfg env x.s o; ({ x with s := s1 }, out)
  | .getFail k r f => getFail cfg env nx x k r f
  | .asyncFail k w b f => let (s1, o) := asyncFail cfg env x.s k w b f; ({ x with s := s1 }, o)
  | .assignFail tok keeps v => assignFail cfg env x tok keeps v

/-- The operations that make sense (as `Op.ok`): the program has not ended, and the cache has the
resolver (resolver_policy.h:24-46). -/
def XOp.ok (cfg : Cfg K) (x : XSt K V E) : XOp K V E → Prop
  | .plain o => x.ended = false ∧ o.ok cfg x.s
  | .getFail _ _ _ => x.ended = false ∧ cfg.resolver = .sync ∧ x.s.destroyed = false
  | .asyncFail _ _ _ _ => x.ended = false ∧ cfg.resolver = .async ∧ x.s.destroyed = false
  | .assignFail _ _ _ => x.ended = false

/-- Histories with failing calls: the calls of cache.h:35-89 and async_resolver_callback.h:25-73 in the
order of their locks. -/
abbrev XHist (K V E : Type) := List (Env V × XOp K V E)

/-- Run a history.  One call after the other, as the locks enforce (cache.h:39, 51, 58, 65). -/
def xrun (cfg : Cfg K) (nx : Bool) : XSt K V E → XHist K V E → XSt K V E × List (Out K V E)
  | x, [] => (x, [])
  | x, (env, o) :: h =>
    let (x1, out) := xstep cfg nx env x o
    let (x2, outs) := xrun cfg nx x1 h
    (x2, out :: outs)

/-- All operations of the history are possible when they happen (resolver_policy.h:24-46). -/
def XHistOk (cfg : Cfg K) (nx : Bool) : XSt K V E → XHist K V E → Prop
  | _, [] => True
  | x, (env, o) :: h => o.ok cfg x ∧ XHistOk cfg nx (xstep cfg nx env x o).1 h

end Hoard.Throw
