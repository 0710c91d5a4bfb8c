import Verif.Cache
/-! # The example program

`examples/fibonacci/fibonacci.cc`: a cache of Fibonacci numbers that is filled by its resolver.  The numbers are `std::uintmax_t`; `M` is how many
values that type has (2^64 on the usual platforms), so that sums are taken modulo `M`.  An error is represented by the number that its message
names; the rest of the text, the stream the lines go to and the measured times are left out. -/
namespace Hoard.Fibonacci

/-- The loop of the fast algorithm (examples/fibonacci/fibonacci.cc:22-30): `n` rounds are left, `v` is the argument of the call.  A sum that
is less than its second summand has overflown. -/
def fastLoop (M v : Nat) : Nat → Nat → Nat → Res Nat Nat
  | 0, _, b => .ok b
  | n + 1, a, b =>
    let s := (a + b) % M
    if s < b then .err v else fastLoop M v n b s

/-- `fib_resolver::operator()` with `use_fast_fibonacci` (examples/fibonacci/fibonacci.cc:19-31). -/
def fast (M v : Nat) : Res Nat Nat := fastLoop M v v 0 1

/-- `fib_resolver::operator()` without `use_fast_fibonacci` (examples/fibonacci/fibonacci.cc:32-50).  The two recursive calls are made in
this order, and what they throw is passed on. -/
def slow (M : Nat) : Nat → Res Nat Nat
  | 0 => .ok 1
  | 1 => .ok 1
  | v + 2 =>
    match slow M v with
    | .err x => .err x
    | .ok a =>
      match slow M (v + 1) with
      | .err x => .err x
      | .ok b =>
        let s := (a + b) % M
        if s < b then .err (v + 2) else .ok s

/-- `fib_cache` (examples/fibonacci/fibonacci.cc:17,53): a resolver called inside `get`, no locks, no other policy.  The hash function is that of
the standard library, here any function. -/
def cfg (hash : Nat → Nat) : Cfg Nat := { hash := hash, eqv := fun a b => a == b, resolver := .sync }

/-- Calls of `example_lookup` (examples/fibonacci/fibonacci.cc:55-68), one after the other: each asks the cache once, and prints the value, or the
message of the exception.  What is printed is the result of the call. -/
def lookups (f : Nat → Res Nat Nat) (vs : List (Env Nat × Nat)) : Hist Nat Nat Nat := vs.map (fun p => (p.1, .get p.2 (f p.2)))

/-- The arguments for which `main` with `use_fast_fibonacci` calls `example_lookup` (examples/fibonacci/fibonacci.cc:70-88): 0 to 90, 100 to 120, and
the same again. -/
def mainArgs : List Nat :=
  let once := List.range 91 ++ (List.range 21).map (· + 100)
  once ++ once

end Hoard.Fibonacci
