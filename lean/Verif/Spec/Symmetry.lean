import Verif.Spec.Waiters
/-!
# Specification: the same history in other words

A history can be rewritten: other keys, other values, other errors, other names
for the waiters, other starting points of the clocks.  Nothing here mentions the
inside of the cache.
-/
namespace Hoard

/-- How to rewrite: what each key, value, error and waiter becomes, and by how
much the two clocks are set differently. -/
structure Renaming (K V E K' V' E' : Type) where
  key : K → K'
  val : V → V'
  err : E → E'
  waiter : Nat → Nat := id
  steady : Int := 0
  wall : Int := 0

/-- The same cache with another type of keys, which brings its own hash and
equality functions. -/
def Cfg.rekey {K K' : Type} (cfg : Cfg K) (hash : K' → Nat) (eqv : K' → K' → Bool) : Cfg K' where
  hash := hash
  eqv := eqv
  ptr := cfg.ptr
  weaken := cfg.weaken
  maxSize := cfg.maxSize
  maxAge := cfg.maxAge
  errAge := cfg.errAge
  wall := cfg.wall
  refresh := cfg.refresh
  resolver := cfg.resolver
  over := cfg.over
  maxBuckets := cfg.maxBuckets

namespace Renaming
variable {K V E K' V' E' : Type} (σ : Renaming K V E K' V' E')

def time (t : Time) : Time := ⟨t.steady + σ.steady, t.wall + σ.wall⟩

def res : Res V E → Res V' E'
  | .ok v => .ok (σ.val v)
  | .err e => .err (σ.err e)

def beh : Beh V E → Beh V' E'
  | .later => .later
  | .now r => .now (σ.res r)
  | .drop => .drop

def op : Op K V E → Op K' V' E'
  | .getIfExists k => .getIfExists (σ.key k)
  | .get k r => .get (σ.key k) (σ.res r)
  | .asyncGet k w b => .asyncGet (σ.key k) (σ.waiter w) (σ.beh b)
  | .emplace k v f => .emplace (σ.key k) (σ.val v) f
  | .getOrEmplace k v f => .getOrEmplace (σ.key k) (σ.val v) f
  | .erase k => .erase (σ.key k)
  | .clear => .clear
  | .count => .count
  | .complete tok r => .complete tok (σ.res r)
  | .drop tok => .drop tok
  | .tick r b => .tick (σ.res r) (σ.beh b)
  | .destroy => .destroy

def ret : Ret V E → Ret V' E'
  | .unit => .unit
  | .miss => .miss
  | .val v => .val (σ.val v)
  | .err e => .err (σ.err e)
  | .throws => .throws
  | .bool b => .bool b
  | .num n => .num n

def out (o : Out K V E) : Out K' V' E' where
  ret := σ.ret o.ret
  fired := o.fired.map (fun p => (σ.waiter p.1, σ.res p.2))
  broken := o.broken.map σ.waiter
  calls := o.calls.map (fun p => (σ.key p.1, p.2))
  made := o.made

/-- The surroundings of a call, rewritten: the clocks are set differently, and
the object that stands for a value is alive exactly if the value was. -/
structure EnvOk (env : Env V) (env' : Env V') : Prop where
  now : env'.now = σ.time env.now
  alive : ∀ v, env'.alive (σ.val v) = env.alive v

/-- The history `h'` is the history `h` rewritten. -/
inductive HistOf : Hist K V E → Hist K' V' E' → Prop where
  | nil : HistOf [] []
  | cons {env : Env V} {env' : Env V'} {o : Op K V E} {h : Hist K V E} {h' : Hist K' V' E'} :
      σ.EnvOk env env' → HistOf h h' → HistOf ((env, o) :: h) ((env', σ.op o) :: h')

end Renaming

/-- The same cache with another type of keys answers the keys that stand for the
old ones in the same way: they have the same hash codes and are equal when the
old ones are. -/
structure KeysOk {K K' : Type} (cfg : Cfg K) (cfg' : Cfg K') (f : K → K') : Prop where
  same : cfg' = cfg.rekey cfg'.hash cfg'.eqv
  hash : ∀ k, cfg'.hash (f k) = cfg.hash k
  eqv : ∀ a b, cfg'.eqv (f a) (f b) = cfg.eqv a b

end Hoard
