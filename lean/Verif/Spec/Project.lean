import Verif.Spec.Reference
/-! # Specification: the part of a history that is about one key -/
namespace Hoard.Spec
variable {K V E : Type}

/-- A number was given to a lookup or a value. -/
def numbered (out : Out K V E) : Bool := !out.calls.isEmpty || out.made

/-- The operation, if it is about `a`: it names an equal key, or it removes everything, or it completes or drops a lookup for such a key.
`ren` gives these lookups the numbers they have when the other keys are left out. -/
def onlyAbout (eqv : K → K → Bool) (a : K) (ren : List (Nat × Nat)) : Op K V E → Option (Op K V E)
  | .getIfExists k => if eqv a k then some (.getIfExists k) else none
  | .get k r => if eqv a k then some (.get k r) else none
  | .asyncGet k w b => if eqv a k then some (.asyncGet k w b) else none
  | .emplace k v f => if eqv a k then some (.emplace k v f) else none
  | .getOrEmplace k v f => if eqv a k then some (.getOrEmplace k v f) else none
  | .erase k => if eqv a k then some (.erase k) else none
  | .clear => some .clear
  | .complete t r => (ren.lookup t).map (fun t' => .complete t' r)
  | .drop t => (ren.lookup t).map (fun t' => .drop t')
  | .count | .tick _ _ | .destroy => none

/-- Leave out of a history what is not about `a`, and of the outputs likewise.  `n` and `m` are the numbers of the next lookup or value, with and
without the other keys. -/
def project (eqv : K → K → Bool) (a : K) : Nat → Nat → List (Nat × Nat) → Hist K V E → List (Out K V E) → Hist K V E × List (Out K V E)
  | n, m, ren, (env, o) :: h, out :: outs =>
    let n' := if numbered out then n + 1 else n
    match onlyAbout eqv a ren o with
    | none => project eqv a n' m ren h outs
    | some o' =>
      let r := project eqv a n' (if numbered out then m + 1 else m) (if numbered out then (n, m) :: ren else ren) h outs
      ((env, o') :: r.1, { out with calls := out.calls.map (fun p => (p.1, m)) } :: r.2)
  | _, _, _, _, _ => ([], [])

end Hoard.Spec
