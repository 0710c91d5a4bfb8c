import Verif.ValueLemmas
/-! # Age limits and deadlines -/
namespace Hoard.Props
open Hoard Spec Demo
variable {K V E : Type} {cfg : Cfg K}

/-! ## C14 -/

/-- C14, first half.  With an age limit `A`, a value returned from the store was
written less than `A` ago, whatever happened in between (in particular hits do
not extend its life): less than `A` on the steady clock, and if the limit is
measured on another clock, less than `A` on that clock too.  All other policies,
whatever the clocks show. -/
theorem C14_never_too_old (hc : cfg.Ok) (A : Int) (hA : cfg.maxAge = some A) (h : Hist K V E) (hok : HistOk cfg St.init h)
    (env : Env V) (o : Op K V E) (ho : o.ok cfg (stateAfter cfg h)) (k : K) (v : V) (ha : StoredAnswer cfg k v h env o) :
    ∃ h1 e1 o1 h2, h = h1 ++ (e1, o1) :: h2 ∧ WritesAt cfg k v h1 e1 o1 ∧ Kept cfg k (h1 ++ [(e1, o1)]) h2 ∧
      env.now.steady < e1.now.steady + A ∧ (cfg.wall = true → env.now.wall < e1.now.wall + A) := by
  have hv := stored_valid hc (good_any hc h hok env) (fun h => h) ho ha.1 ha.2.1 ha.2.2
  obtain ⟨h1, e1, o1, h2, rfl, hw, hk⟩ := last_write h hv.1
  refine ⟨h1, e1, o1, h2, rfl, hw, hk, ?_⟩
  have ht := (kept_facts hk).2.1
  rw [ledgerAfter_snoc, (after_writes hw).2.1] at ht
  have hl := hv.2.1
  have := (not_or.1 hl).1
  simp only [Ledger.ageLimit, hA, Option.map_some] at this
  rw [show h1 ++ (e1, o1) :: h2 = h1 ++ [(e1, o1)] ++ h2 by simp, ht] at this
  exact (not_past _ _ _ _).1 this

/-- C14, both halves.  With an age limit `A`, where nothing else ends a value's
life (no eviction, no idle timer, no weakening): a value written at time `t` and
neither overwritten nor removed since is returned at time `now` exactly when
`now < t + A`, on the steady clock and, if the limit is measured on another
clock, on that clock too. -/
theorem C14_exact_window (hc : cfg.Ok) (A : Int) (hA : cfg.maxAge = some A) (hidle : ∀ d i, cfg.refresh = some (d, i) → i = 0)
    (hweak : cfg.maxSize = none ∨ cfg.weaken = false ∨ cfg.ptr = false)
    (h1 h2 : Hist K V E) (e1 : Env V) (o1 : Op K V E) (hok : HistOk cfg St.init (h1 ++ (e1, o1) :: h2))
    (hx : NoEvictH cfg St.init (h1 ++ (e1, o1) :: h2)) (k : K) (v : V)
    (hw : WritesAt cfg k v h1 e1 o1) (hk : Kept cfg k (h1 ++ [(e1, o1)]) h2) (env : Env V)
    (hm : Mono ((h1 ++ (e1, o1) :: h2).map (·.1) ++ [env])) :
    (outAt cfg (h1 ++ (e1, o1) :: h2) env (.getIfExists k)).ret =
      if env.now.steady < e1.now.steady + A ∧ (cfg.wall = true → env.now.wall < e1.now.wall + A) then .val v else .miss := by
  have g := good_exact hc _ hok env hm hx
  have hkf := kept_facts hk
  rw [ledgerAfter_snoc, (after_writes hw).2.1, (after_writes hw).1, show h1 ++ [(e1, o1)] ++ h2 = h1 ++ (e1, o1) :: h2 by simp] at hkf
  rcases (getIfExists_ok hc g k).2 with ⟨u, hu, hv, hl, _⟩ | ⟨hmiss, hd⟩
  · rw [hkf.1] at hv; cases hv
    rw [if_pos]
    · exact hu
    · have := (not_or.1 hl).1
      simp only [Ledger.ageLimit, hA, Option.map_some, hkf.2.1] at this
      exact (not_past _ _ _ _).1 this
  · rw [if_neg]
    · exact hmiss
    · rcases hd trivial v hkf.1 with h | h | ⟨h3, h4, h5, _⟩
      · simp only [Ledger.ageLimit, hA, Option.map_some, hkf.2.1] at h
        exact fun h' => (not_past _ _ _ _).2 h' h
      · exfalso
        simp only [Ledger.idleLimit] at h
        cases hr : cfg.refresh with
        | none => simp [hr, reached] at h
        | some p => obtain ⟨d, i⟩ := p; simp [hr, hidle d i hr, reached] at h
      · rcases hweak with h | h | h
        · simp [h] at h3
        · rw [h] at h4; cases h4
        · rw [h] at h5; cases h5

def aged : Cfg Nat := { plain with maxAge := some 5 }

/-- A value written at 1 and hit at 4: still there at 5, gone at 6. -/
example : aged.Ok ∧ HistOk aged St.init ([(at_ 1, .emplace 0 9 .none), (at_ 4, .get 0 (.ok 0))] : Hist Nat Nat Nat) ∧
    Mono ([1, 4, 6].map at_) ∧
    (outAt aged ([(at_ 1, .emplace 0 9 .none), (at_ 4, .get 0 (.ok 0))] : Hist Nat Nat Nat) (at_ 5) (.getIfExists 0)).ret = .val 9 ∧
    (outAt aged ([(at_ 1, .emplace 0 9 .none), (at_ 4, .get 0 (.ok 0))] : Hist Nat Nat Nat) (at_ 6) (.getIfExists 0)).ret = .miss :=
  ⟨nat_ok rfl (by intro d i h; cases h), by decide, mono_at _ (by decide), by decide, by decide⟩

example : WritesAt aged 0 9 ([] : Hist Nat Nat Nat) (at_ 1) (.emplace 0 9 .none) ∧
    Kept aged 0 ([] ++ [(at_ 1, .emplace 0 9 .none)] : Hist Nat Nat Nat) [(at_ 4, .get 0 (.ok 0))] := by
  refine ⟨⟨rfl, rfl, rfl⟩, ?_⟩
  intro h1 e o h2 hh
  cases h1 with
  | nil => cases hh; rintro ⟨_, h⟩; exact h rfl
  | cons p h1 => simp at hh

/-! ## C15 -/

/-- Written at 1, found until 6 and not later, although it is looked up in between. -/
example := C14_exact_window (cfg := aged) (nat_ok rfl (by intro d i h; cases h)) 5 rfl (by intro d i h; cases h) (.inl rfl) ([(at_ 0, .emplace 4 8 .none)] : Hist Nat Nat Nat) [(at_ 4, .get 0 (.ok 0))]
  (at_ 1) (.emplace 0 9 .none) (by decide) (by decide) 0 9 (by decide) (by decide) (at_ 5) (mono_at [0, 1, 4, 5] (by decide))

/-- C15.  With a clock that does not run backwards (and objects that do not come back to life): if
a lookup of `k` finds nothing, then no later lookup of `k` returns a stored value,
unless something was written to `k` in between.  So whatever made the value
expire (age, eviction, idle timer, weakening, refresh) is final. -/
theorem C15_expiry_is_irreversible (hc : cfg.Ok) (h1 h2 : Hist K V E) (e1 : Env V) (k : K) (o1 : Op K V E)
    (ho1 : o1 = .getIfExists k ∨ ∃ r, o1 = .get k r)
    (hmiss : (outAt cfg h1 e1 o1).ret = .miss ∧ (outAt cfg h1 e1 o1).calls = [])
    (hok : HistOk cfg St.init (h1 ++ (e1, o1) :: h2)) (hkept : Kept cfg k (h1 ++ [(e1, o1)]) h2)
    (env : Env V) (hm : Mono ((h1 ++ (e1, o1) :: h2).map (·.1) ++ [env]))
    (o : Op K V E) (ho : o.ok cfg (stateAfter cfg (h1 ++ (e1, o1) :: h2))) (v : V) :
    ¬ StoredAnswer cfg k v (h1 ++ (e1, o1) :: h2) env o := by
  intro ha
  have hv := stored_valid hc (good_mono hc _ hok env hm) (fun h => h) ho ha.1 ha.2.1 ha.2.2
  have hg := hv.2.2 trivial
  have hgone := (kept_facts hkept).2.2
  rw [ledgerAfter_snoc] at hgone
  have := hgone (after_missed (hc.refl k) hmiss.1 hmiss.2 ho1)
  rw [show h1 ++ [(e1, o1)] ++ h2 = h1 ++ (e1, o1) :: h2 by simp, hg] at this
  cases this

/-- A value has expired; another key is written and the clocks go on. -/
example := C15_expiry_is_irreversible (cfg := { plain with maxAge := some 5 }) (nat_ok rfl (by intro d i h; cases h)) ([(at_ 1, .emplace 0 9 .none)] : Hist Nat Nat Nat)
  [(at_ 7, .emplace 4 8 .none), (at_ 7, .get 0 (.ok 0))] (at_ 6) 0 (.getIfExists 0) (.inl rfl) (by decide) (by decide) (by decide) (at_ 8)
  (mono_at [1, 6, 7, 7, 8] (by decide)) (.get 0 (.ok 0)) (by decide) 9

/-- Without the assumption on the clock it is false: a clock that goes back brings
the value back. -/
theorem C15_needs_monotone_clock :
    ∃ (h : Hist Nat Nat Nat), aged.Ok ∧ HistOk aged St.init (h ++ [(at_ 6, .getIfExists 0)]) ∧
      (outAt aged h (at_ 6) (.getIfExists 0)).ret = .miss ∧ (outAt aged (h ++ [(at_ 6, .getIfExists 0)]) (at_ 5) (.getIfExists 0)).ret = .val 9 :=
  ⟨[(at_ 1, .emplace 0 9 .none)], nat_ok rfl (by intro d i h; cases h), by decide, by decide, by decide⟩

/-- The hypotheses are met by an evicted value. -/
example : ({ plain with maxSize := some 2 } : Cfg Nat).Ok ∧
    HistOk { plain with maxSize := some 2 } St.init
      ([(at_ 0, .emplace 0 1 .none), (at_ 1, .emplace 1 2 .none), (at_ 2, .emplace 2 3 .none), (at_ 2, .getIfExists 1)] : Hist Nat Nat Nat) ∧
    (outAt { plain with maxSize := some 2 }
      ([(at_ 0, .emplace 0 1 .none), (at_ 1, .emplace 1 2 .none), (at_ 2, .emplace 2 3 .none)] : Hist Nat Nat Nat) (at_ 2) (.getIfExists 1)).ret = .miss :=
  ⟨nat_ok rfl (by intro d i h; cases h), by decide, by decide⟩

/-! ## C16 -/

/-- `expire_at` (expire_at_policy.ii:16-19): keeps the earlier of the deadlines.  A
deadline is a time on the steady clock and perhaps one on another clock; in the
code these are two copies of the policy, one for each clock, and the age limit
sets both at once.  The same function is used by `on_assign_` of the age limit,
see `ageTp`. -/
def expireAt (e : Entry K V E) (d : Int × Option Int) : Entry K V E := { e with expTp := deadMin e.expTp (some d) }

/-- The age limit sets its deadline with `expire_at`. -/
theorem ageTp_is_expireAt (env : Env V) (e : Entry K V E) (A : Int) (hA : cfg.maxAge = some A) :
    ({ e with expTp := ageTp cfg env true e.expTp } : Entry K V E) =
      expireAt e (env.now.steady + A, if cfg.wall then some (env.now.wall + A) else none) := by
  simp [ageTp, hA, expireAt]

/-- C16.  Setting any number of deadlines on an entry, in any order: it is expired
at a time exactly when it would be without them or one of them has been reached,
on either clock. -/
theorem C16_earliest_deadline_wins (env : Env V) (ds : List (Int × Option Int)) (e : Entry K V E) :
    (ds.foldl expireAt e).expired env =
      (e.expired env || ds.any (fun d => decide (d.1 ≤ env.now.steady) || d.2.any (fun w => decide (w ≤ env.now.wall)))) := by
  induction ds generalizing e with
  | nil => simp
  | cons d ds ih =>
    rw [List.foldl_cons, ih]
    have hw : ∀ a b, reached env.now.wall (tpMin a b) = (reached env.now.wall a || reached env.now.wall b) := by
      intro a b
      cases a <;> cases b <;> simp only [tpMin, reached, Bool.or_false, Bool.false_or]
      rename_i t d
      by_cases h1 : t ≤ env.now.wall <;> by_cases h2 : d ≤ env.now.wall <;> simp [h1, h2] <;> omega
    have hany : d.2.any (fun w => decide (w ≤ env.now.wall)) = reached env.now.wall d.2 := by cases d.2 <;> rfl
    have hmin : env.now.past (deadMin e.expTp (some d)) =
        (env.now.past e.expTp || (decide (d.1 ≤ env.now.steady) || d.2.any (fun w => decide (w ≤ env.now.wall)))) := by
      rw [hany]
      obtain ⟨d, w⟩ := d
      cases e.expTp with
      | none => simp [deadMin, Time.past]
      | some p =>
        obtain ⟨t, u⟩ := p
        have : decide (min t d ≤ env.now.steady) = (decide (t ≤ env.now.steady) || decide (d ≤ env.now.steady)) := by
          by_cases h1 : t ≤ env.now.steady <;> by_cases h2 : d ≤ env.now.steady <;> simp [h1, h2] <;> omega
        simp only [deadMin, Time.past, hw, this]
        cases decide (t ≤ env.now.steady) <;> cases decide (d ≤ env.now.steady) <;> cases reached env.now.wall u <;> rfl
    have : (expireAt e d).expired env =
        (e.expired env || (decide (d.1 ≤ env.now.steady) || d.2.any (fun w => decide (w ≤ env.now.wall)))) := by
      simp only [Entry.expired, expireAt, hmin]
      generalize reached env.now.steady e.canTp = rc
      generalize (decide (d.1 ≤ env.now.steady) || d.2.any (fun w => decide (w ≤ env.now.wall))) = rd
      cases e.mapped.expired env <;> cases e.mapped.holdsError <;> cases env.now.past e.expTp <;> cases rd <;> cases rc <;> rfl
    rw [this, List.any_cons, Bool.or_assoc]

/-- C16: the order does not matter. -/
theorem C16_order_is_irrelevant (env : Env V) (ds ds' : List (Int × Option Int)) (hp : ds.Perm ds') (e : Entry K V E) :
    (ds.foldl expireAt e).expired env = (ds'.foldl expireAt e).expired env := by
  rw [C16_earliest_deadline_wins, C16_earliest_deadline_wins, hp.any_eq]

/-- Two orders, the boundary included, and a deadline on the other clock. -/
example : (([(7, none), (3, some 9), (5, none)].foldl expireAt ({ id := 0, key := 1, mapped := .value 2 } : Entry Nat Nat Nat)).expired (at_ 2) = false) ∧
    (([(3, some 9), (5, none), (7, none)].foldl expireAt ({ id := 0, key := 1, mapped := .value 2 } : Entry Nat Nat Nat)).expired (at_ 3) = true) ∧
    (([(3, some 9), (5, none)].foldl expireAt ({ id := 0, key := 1, mapped := .value 2 } : Entry Nat Nat Nat)).expired
      { at_ 0 with now := ⟨2, 9⟩ } = true) := by decide

end Hoard.Props
