import Verif.Member
/-! # Specification: an entry that stores the pointers it is given -/
namespace Hoard.Member
variable {V M E : Type}

/-- What becomes of a pointer that is stored as a member pointer and read back. -/
def Conv.round (c : Conv V M) (v : V) : V := c.back (c.wrap v)

/-- The same several times in a row. -/
def Conv.rounds (c : Conv V M) : Nat → V → V
  | 0, v => v
  | n + 1, v => c.rounds n (c.round v)

/-- How an entry comes to be: with a value, with an error, or as a lookup. -/
inductive Start (V E : Type) where
  | value (v : V)
  | error (e : E)
  | lookup

def Start.held (c : Conv V M) : Start V E → Held V M E
  | .value v => .ofValue c v
  | .error e => .error e
  | .lookup => .pending {}

def Start.plain : Start V E → Mapped V E
  | .value v => .value v
  | .error e => .error e
  | .lookup => .pending {}

def Start.on (f : V → V) : Start V E → Start V E
  | .value v => .value (f v)
  | .error e => .error e
  | .lookup => .lookup

def Act.on (f : V → V) : Act V E → Act V E
  | .assign v => .assign (f v)
  | a => a

/-- The same calls on an entry without member pointers, as in `Verif.Cache`. -/
def plainAct (env : Env V) (m : Mapped V E) : Act V E → Option (Mapped V E × List (Cb × Res V E))
  | .markExpired => some (m.markExpired, [])
  | .weaken => some (m.weaken true, [])
  | .strengthen => some (m.strengthen env, [])
  | .cancel => some (m.cancel, [])
  | .addCb cb => some (m.addCb cb, [])
  | .assign v => match m with
    | .pending p => some (.assigned true p v, p.cbs.map (fun cb => (cb, .ok v)))
    | _ => none
  | .assignError e => match m with
    | .pending p => some (.assignedError p e, p.cbs.map (fun cb => (cb, .err e)))
    | _ => none

def plainActs (m : Mapped V E) : List (Env V × Act V E) → Option (Mapped V E × List (Cb × Res V E))
  | [] => some (m, [])
  | (env, a) :: as =>
    match plainAct env m a with
    | none => none
    | some (m1, l1) => (plainActs m1 as).map (fun p => (p.1, l1 ++ p.2))

/-- Whatever is asked of the two entries, they answer alike. -/
structure Alike (c : Conv V M) (h : Held V M E) (m : Mapped V E) : Prop where
  get : ∀ env incl, h.get c env incl = m.get env incl
  expired : ∀ env, h.expired env = m.expired env
  holdsValue : ∀ env, h.holdsValue env = m.holdsValue env
  holdsError : h.holdsError = m.holdsError
  pending : h.isPending = m.isPending

end Hoard.Member
