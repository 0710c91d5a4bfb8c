/-!
# Model: type lists and the selection of policies

Everything here happens at compile time in the library.  A type list is modelled
as a list; `std::is_same` is equality.

* `detail/meta.h` lines 14-121, 164-212: the type-list operations,
* `detail/hashtable.h` lines 31-55: transitive dependencies of a policy,
* `detail/hashtable.h` lines 223-287: the effective list of policies of a cache.
-/
namespace Hoard.Meta
variable {τ σ : Type} [DecidableEq τ]

/-- `type_list_remove_all_`, meta.h:14-29: the first argument is the part already looked at. -/
def removeAllAux (r : τ) : List τ → List τ → List τ
  | done, [] => done
  | done, t :: ts => removeAllAux r (if r = t then done else done ++ [t]) ts

/-- `type_list::remove_all_t`, meta.h:184-185. -/
def removeAll (l : List τ) (r : τ) : List τ := removeAllAux r [] l

/-- `type_list_remove_`, meta.h:32-45. -/
def removeAux (r : τ) : List τ → List τ → List τ
  | done, [] => done
  | done, t :: ts => if r = t then done ++ ts else removeAux r (done ++ [t]) ts

/-- `type_list::remove_t`, meta.h:180-181. -/
def remove (l : List τ) (r : τ) : List τ := removeAux r [] l

/-- `type_list_distinct_`, meta.h:48-61. -/
def distinctAux : List τ → List τ → List τ
  | done, [] => done
  | done, t :: ts => if done.any (fun x => t = x) then distinctAux done ts else distinctAux (done ++ [t]) ts

/-- `type_list::distinct_t`, meta.h:188. -/
def distinct (l : List τ) : List τ := distinctAux [] l

omit [DecidableEq τ] in
/-- `type_list_extend_`, meta.h:64-74, used as `extend_t`, meta.h:170-171. -/
def extend : List τ → List (List τ) → List τ
  | l, [] => l
  | l, a :: u => extend (l ++ a) u

/-- `type_list_reverse_`, meta.h:77-87. -/
def reverseAux : List τ → List τ → List τ
  | done, [] => done
  | done, t :: ts => reverseAux (t :: done) ts

/-- `type_list::reverse_t`, meta.h:191. -/
def reverse (l : List τ) : List τ := reverseAux [] l

/-- `type_list_filter_`, meta.h:90-103. -/
def filterAux (f : τ → Bool) : List τ → List τ → List τ
  | done, [] => done
  | done, t :: ts => if f t then filterAux f (done ++ [t]) ts else filterAux f done ts

/-- `type_list::filter_t`, meta.h:194-195. -/
def filter (l : List τ) (f : τ → Bool) : List τ := filterAux f [] l

/-- `type_list_exclude_` for one list of types to exclude, meta.h:113-121. -/
def excludeOne : List τ → List τ → List τ
  | l, [] => l
  | l, t :: ts => excludeOne (removeAll l t) ts

/-- `type_list::exclude_t`, meta.h:106-121, 208-209. -/
def exclude : List τ → List (List τ) → List τ
  | l, [] => l
  | l, a :: u => exclude (excludeOne l a) u

/-- `type_list::has_type_t`, meta.h:174-175. -/
def hasType (l : List τ) (t : τ) : Bool := l.any (fun x => t = x)

/-- `type_list::transform_t`, meta.h:202-203. -/
def transform (l : List τ) (f : τ → σ) : List σ := l.map f

/-- The policies there are and what the library asks of them.  A policy without a
member `dependencies` has an empty list.  The library would not compile if a policy
depended on itself through a chain of others, hence `rank`. -/
structure World (τ : Type) where
  /-- `Policy::dependencies` -/
  deps : τ → List τ
  rank : τ → Nat
  acyclic : ∀ p d, d ∈ deps p → rank d < rank p
  /-- `thread_safe_policy` -/
  ts : τ
  /-- `thread_unsafe_policy` -/
  tu : τ
  /-- `has_equal`, `has_hash`, `has_allocator`, traits.h -/
  isEqual : τ → Bool
  isHash : τ → Bool
  isAlloc : τ → Bool
  /-- `has_error_policy_`, hashtable.h:97-105 -/
  isError : τ → Bool
  /-- the defaults of hashtable.h:232-250 and 270-272 -/
  dflEqual : τ
  dflHash : τ
  dflAlloc : τ
  dflError : τ

/-- The defaults are what they replace, a lock policy is none of them, and none of these
depends on anything.  What holds of equal.h:13-50, hash.h:13-50, allocator.h:11-15,
error_policy.h:8-12, thread_safe_policy.h:14-35 and thread_unsafe_policy.h:13-32. -/
structure World.Ok (W : World τ) : Prop where
  ts_tu : W.ts ≠ W.tu
  equal : W.isEqual W.dflEqual = true
  hash : W.isHash W.dflHash = true
  alloc : W.isAlloc W.dflAlloc = true
  error : W.isError W.dflError = true
  ts_plain : W.isEqual W.ts = false ∧ W.isHash W.ts = false ∧ W.isAlloc W.ts = false ∧ W.isError W.ts = false
  tu_plain : W.isEqual W.tu = false ∧ W.isHash W.tu = false ∧ W.isAlloc W.tu = false ∧ W.isError W.tu = false
  bare : ∀ p ∈ [W.ts, W.dflEqual, W.dflHash, W.dflAlloc, W.dflError], W.deps p = []

variable (W : World τ)

/-- `dependent_policies_`, hashtable.h:31-55: first the dependencies of the
dependencies, then the dependencies themselves. -/
def dependent (p : τ) : List τ :=
  extend [] [extend [] ((W.deps p).attach.map fun d => dependent d.1), W.deps p]
termination_by W.rank p
decreasing_by exact W.acyclic p d.1 d.2

/-- `policy_dependencies`, hashtable.h:256. -/
def policyDependencies (user : List τ) : List τ :=
  distinct (exclude (extend [] (user.map (dependent W))) [user])

/-- `has_thread_safe_policy`, hashtable.h:258-262. -/
def hasLock (user : List τ) : Bool :=
  hasType user W.ts || hasType (policyDependencies W user) W.ts ||
  hasType user W.tu || hasType (policyDependencies W user) W.tu

/-- `maybe_extra_mutex_policies`, hashtable.h:263-266. -/
def extraMutex (user : List τ) : List τ := if hasLock W user then [] else [W.ts]

/-- `maybe_extra_allocator_policy`, hashtable.h:228, 242-250: looks at the named policies only. -/
def extraAlloc (user : List τ) : List τ := if user.any W.isAlloc then [] else [W.dflAlloc]

/-- `maybe_default_equal`, hashtable.h:226, 232-235: looks at the named policies only. -/
def extraEqual (user : List τ) : List τ := if user.any W.isEqual then [] else [W.dflEqual]

/-- `maybe_default_hash`, hashtable.h:227, 237-240: looks at the named policies only. -/
def extraHash (user : List τ) : List τ := if user.any W.isHash then [] else [W.dflHash]

/-- `maybe_extra_error_policies`, hashtable.h:268-272. -/
def extraError (user : List τ) : List τ :=
  if (transform (extend user [policyDependencies W user]) W.isError).any (fun b => b) then [] else [W.dflError]

/-- `all_policies`, hashtable.h:274-281: the effective list of policies. -/
def allPolicies (user : List τ) : List τ :=
  extend [] [extraMutex W user, extraAlloc W user, extraEqual W user, extraHash W user, extraError W user,
    policyDependencies W user, user]

/-! ## The policies of the library -/

/-- A clock; `isSteady` is its member `is_steady`.  The template argument of max_age_policy.h:13 and
refresh_policy.h:15. -/
inductive Clock where
  | steady
  | system
  | other (n : Nat) (isSteady : Bool)
deriving DecidableEq, Repr

/-- `Clock::is_steady`.  As used in max_age_policy.h:16-19. -/
def Clock.isSteady : Clock → Bool
  | .steady => true
  | .system => false
  | .other _ b => b

/-- The policies in include/libhoard; a number stands for the remaining template
arguments (functors, executors, allocators, ...).  `user n` is a policy of the
user's own which has no dependencies.  Collected in policies.h:1-26. -/
inductive Pol where
  | threadSafe | threadUnsafe | queue | sharedFromThis | refreshImpl | negative | weaken | maxSize
  | maxAge (c : Clock) | errMaxAge (c : Clock) | expireAt (c : Clock) | refresh (c : Clock)
  | asioRefresh (c : Clock) (n : Nat) | asioRefreshFn (c : Clock) (n : Nat)
  | resolver (n : Nat) | asyncResolver (n : Nat) | asioResolver (n : Nat)
  | equal (n : Nat) | hash (n : Nat) | allocator (n : Nat) | error (n : Nat) | pointer (n : Nat)
  | user (n : Nat)
deriving DecidableEq, Repr

/-- `clock_dependencies`, max_age_policy.h:16-19. -/
def clockDeps (c : Clock) : List Pol :=
  if c.isSteady then [.expireAt c] else [.expireAt c, .expireAt .steady]

/-- The member `dependencies` of the policies: max_size_policy.h:16, resolver_policy.h:51,
asio/resolver_policy.h:28, refresh_policy.h:21, asio/refresh_policy.h:18 and 67,
max_age_policy.h:16-26.  The others have none. -/
def libDeps : Pol → List Pol
  | .maxSize => [.queue]
  | .asyncResolver _ => [.sharedFromThis]
  | .asioResolver _ => [.sharedFromThis]
  | .refresh _ => [.refreshImpl, .threadSafe]
  | .asioRefresh _ _ => [.refreshImpl]
  | .asioRefreshFn _ _ => [.refreshImpl]
  | .maxAge c => extend (clockDeps c) [[]]
  | .errMaxAge c => extend (clockDeps c) [[.negative]]
  | _ => []

/-- Policies with dependencies come above those without.  Of the model only: `libDeps`
(max_size_policy.h:16, resolver_policy.h:51, refresh_policy.h:21, max_age_policy.h:16-26) has no
cycles. -/
def libRank : Pol → Nat
  | .maxSize | .asyncResolver _ | .asioResolver _ | .refresh _ | .asioRefresh _ _ | .asioRefreshFn _ _ | .maxAge _ | .errMaxAge _ => 1
  | _ => 0

theorem lib_acyclic (p d : Pol) (h : d ∈ libDeps p) : libRank d < libRank p := by
  cases p <;> simp only [libDeps, extend, clockDeps, List.append_nil, List.not_mem_nil] at h <;> (try split at h) <;> simp at h <;>
    grind [libRank]

/-- The library.  Number 0 stands for the default argument: `equal<std::equal_to<..>>`,
`hash<std::hash<..>>`, `allocator<std::allocator<int>>`, `error_policy<>`.  hashtable.h:232-250,
270-272. -/
def lib : World Pol where
  deps := libDeps
  rank := libRank
  acyclic := lib_acyclic
  ts := .threadSafe
  tu := .threadUnsafe
  isEqual := fun p => match p with | .equal _ => true | _ => false
  isHash := fun p => match p with | .hash _ => true | _ => false
  isAlloc := fun p => match p with | .allocator _ => true | _ => false
  isError := fun p => match p with | .error _ => true | _ => false
  dflEqual := .equal 0
  dflHash := .hash 0
  dflAlloc := .allocator 0
  dflError := .error 0

/-! ## The classes an entry derives from -/

/-- Classes that matter for what an entry (`value_type`) derives from.  hashtable.h:287-290.  `queueLink` and
`refreshLink` are the instances of `linked_list_link` with the tags of queue.h:19 and refresh_policy.h:17, 33;
the latter is a member of the class template, so that there is one for every clock. -/
inductive Cls where
  | element | refcount | queueLink | refreshLink (c : Clock) | queueBase | refreshImplBase | refreshBase (c : Clock) | expireAtBase (c : Clock)
  | asioRefreshBase (c : Clock) (n : Nat) | asioRefreshFnBase (c : Clock) (n : Nat)
  | negativeImpl | negativePolicy
deriving DecidableEq, Repr

/-- A member `value_base` of a policy.  As found by hashtable.h:58-72. -/
inductive Member where
  | absent
  | cls (c : Cls)
  | aliasTemplate (c : Cls)
deriving DecidableEq, Repr

/-- The member `value_base` of the policies: queue.h:129, refresh_impl_policy.h:19,
refresh_policy.h:22, expire_at_policy.h:16, asio/refresh_policy.h:19 and 68, and
negative_cache_policy.h:23-24, where it is a template. -/
def member : Pol → Member
  | .queue => .cls .queueBase
  | .refreshImpl => .cls .refreshImplBase
  | .refresh c => .cls (.refreshBase c)
  | .expireAt c => .cls (.expireAtBase c)
  | .asioRefresh c n => .cls (.asioRefreshBase c n)
  | .asioRefreshFn c n => .cls (.asioRefreshFnBase c n)
  | .negative => .aliasTemplate .negativeImpl
  | _ => .absent

/-- `figure_out_hashtable_value_base_`, hashtable.h:58-72: `typename T::value_base` names a
class; for a missing member and for a template it is ill-formed and the result is `void`. -/
def valueBase (p : Pol) : Option Cls :=
  match member p with
  | .cls c => some c
  | .absent | .aliasTemplate _ => none

/-- `vt_base_types`, hashtable.h:287. -/
def valueBases (user : List Pol) : List Cls :=
  (removeAll (transform (allPolicies lib user) valueBase) none).filterMap (fun x => x)

/-- A class with everything it derives from: queue.h:19-20, refresh_policy.h:31-34; the
wrapper `hashtable_dfl_constructible_` (hashtable.h:119-127) is left out. -/
def withBases : Cls → List Cls
  | .queueBase => [.queueBase, .queueLink]
  | .refreshBase c => [.refreshBase c, .refreshLink c]
  | c => [c]

/-- What `value_type` derives from, directly or not: hashtable.h:290, value_type.h:18-20. -/
def entryBases (user : List Pol) : List Cls :=
  (extend [.element, .refcount] [valueBases user]).flatMap withBases

/-- `std::is_base_of_v<negative_cache_policy, value_type>`, value_type.ii:118: if not, an entry
holding an error counts as expired. -/
def keepsErrors (user : List Pol) : Bool := hasType (entryBases user) .negativePolicy

/-! ## The lock functions of a cache -/

/-- The policies among the effective ones which give the cache members `lock` and `unlock`:
thread_safe_policy.h:14-36, thread_unsafe_policy.h:13-33.  With two of them a call of `lock`
is ambiguous. -/
def lockers (user : List Pol) : List Pol :=
  filter (allPolicies lib user) (fun p => p = .threadSafe || p = .threadUnsafe)

end Hoard.Meta
