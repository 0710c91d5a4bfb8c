import Verif.DispatchSim
/-! # Lemmas for C97: what becomes of the deadlines of one entry -/
namespace Hoard.Dispatch
open Hoard Hoard.Props
open Hoard.Meta (Pol Clock Cls allPolicies lib valueBases valueBase keepsErrors Required Needs libDeps)

variable {V E : Type} {user : List Pol} {a : Args V} {pe : PEnv V}

theorem refreshes_iff (p : Pol) (c : Clock) : Refreshes p c ↔ refreshClock p = some c := by
  cases p <;> simp [Refreshes, refreshClock]

theorem reached_min (n : Int) (x y : Option Int) : reached n (tpMin x y) = true ↔ reached n x = true ∨ reached n y = true := by
  cases x <;> cases y <;> simp [reached, tpMin]
  omega

/-- A variant that held a value at some time. -/
def WasValue : Mapped V E → Prop
  | .value _ | .weak _ | .gone => True
  | _ => False

theorem WasValue.strengthen {m : Mapped V E} (h : WasValue m) (env : Env V) : WasValue (m.strengthen env) := by
  cases m <;> first | exact h | exact h.elim | (simp only [Mapped.strengthen]; split <;> trivial)

theorem WasValue.weaken {m : Mapped V E} (h : WasValue m) (ptr : Bool) : WasValue (m.weaken ptr) := by
  cases m <;> cases ptr <;> simp [WasValue, Mapped.weaken] at h ⊢

theorem WasValue.markExpired {m : Mapped V E} (h : WasValue m) : WasValue m.markExpired := by
  cases m <;> simp [WasValue, Mapped.markExpired] at h ⊢

theorem WasValue.holds {m : Mapped V E} (h : WasValue m) (env : Env V) : m.expired env = false → m.holdsValue env = true := by
  cases m <;> simp [WasValue, Mapped.expired, Mapped.holdsValue] at h ⊢

theorem WasValue.noError {m : Mapped V E} (h : WasValue m) : m.holdsError = false := by
  cases m <;> simp [WasValue, Mapped.holdsError] at h ⊢

theorem assign_exp (l : List Pol) (i : Nat) (d : Data V E) (c' : Clock) (t : Int) :
    reached t ((l.foldl (onAssign a pe i true) d).exp i c') = true ↔
      reached t (d.exp i c') = true ∨
      ∃ c, .maxAge c ∈ l ∧ ((c' = c ∧ pe.now c + a.age c ≤ t) ∨ (c.isSteady = false ∧ c' = .steady ∧ pe.now .steady + a.age c ≤ t)) := by
  induction l generalizing d with
  | nil => simp
  | cons p l ih =>
    rw [List.foldl_cons, ih]
    have h1 : reached t ((onAssign a pe i true d p).exp i c') = true ↔
        reached t (d.exp i c') = true ∨
        ∃ c, p = .maxAge c ∧ ((c' = c ∧ pe.now c + a.age c ≤ t) ∨ (c.isSteady = false ∧ c' = .steady ∧ pe.now .steady + a.age c ≤ t)) := by
      rw [onAssign_eq]
      by_cases hp : ∃ c, p = .maxAge c
      · obtain ⟨c, rfl⟩ := hp
        have hset : ∀ (f : Nat → Clock → Option Int) (k : Clock) (x : Int), reached t (set2 f i k (tpMin (f i k) (some x)) i c') = true ↔
            reached t (f i c') = true ∨ (c' = k ∧ x ≤ t) := by
          intro f k x
          by_cases hk : c' = k
          · subst hk; rw [set2_self, reached_min]; simp [reached]
          · rw [set2_ne _ _ (fun g => hk g.2)]; simp [hk]
        simp only [ageOf, if_true, limitF]
        cases hs : c.isSteady
        · simp only [Bool.false_eq_true, if_false, hset]
          constructor
          · rintro ((g | g) | g)
            · exact .inl g
            · exact .inr ⟨c, rfl, .inl g⟩
            · exact .inr ⟨c, rfl, .inr ⟨hs, g⟩⟩
          · rintro (g | ⟨k, hk, g | ⟨_, g⟩⟩)
            · exact .inl (.inl g)
            · cases hk; exact .inl (.inr g)
            · cases hk; exact .inr g
        · simp only [if_true, hset]
          constructor
          · rintro (g | g)
            · exact .inl g
            · exact .inr ⟨c, rfl, .inl g⟩
          · rintro (g | ⟨k, hk, g | ⟨h', g⟩⟩)
            · exact .inl g
            · cases hk; exact .inr g
            · cases hk; rw [hs] at h'; cases h'
      · have hn : ageOf a true p = none := by
          cases p <;> simp [ageOf] at hp ⊢
        simp only [hn]
        constructor
        · exact .inl
        · rintro (g | ⟨c, hc, _⟩)
          · exact g
          · exact absurd ⟨c, hc⟩ hp
    rw [h1]
    constructor
    · rintro ((g | ⟨c, hc, g⟩) | ⟨c, hc, g⟩)
      · exact .inl g
      · exact .inr ⟨c, by simp [hc], g⟩
      · exact .inr ⟨c, by simp [hc], g⟩
    · rintro (g | ⟨c, hc, g⟩)
      · exact .inl (.inl g)
      · rcases List.mem_cons.1 hc with hc | hc
        · exact .inl (.inr ⟨c, hc.symm, g⟩)
        · exact .inr ⟨c, hc, g⟩

theorem assign_mapped (l : List Pol) (i : Nat) (v : Bool) (d : Data V E) : (l.foldl (onAssign a pe i v) d).mapped = d.mapped := by
  induction l generalizing d with
  | nil => rfl
  | cons p l ih => rw [List.foldl_cons, ih, onAssign_eq]

theorem assign_can (l : List Pol) (i : Nat) (d : Data V E) (x : V) (hm : d.mapped i = .value x) (p : Pol) (c : Clock) (hp : refreshClock p = some c) :
    (l.foldl (onAssign a pe i true) d).can i p = if p ∈ l ∧ a.idle p ≠ 0 then tpMin (d.can i p) (some (pe.now c + a.idle p)) else d.can i p := by
  induction l generalizing d with
  | nil => simp
  | cons q l ih =>
    have hm' : (onAssign a pe i true d q).mapped i = .value x := by rw [onAssign_eq]; exact hm
    rw [List.foldl_cons, ih _ hm']
    have h1 : (onAssign a pe i true d q).can i p = if p = q ∧ a.idle p ≠ 0 then tpMin (d.can i p) (some (pe.now c + a.idle p)) else d.can i p := by
      rw [onAssign_eq]
      by_cases hpq : p = q
      · subst hpq
        have hd : ∃ t, dueOf a pe (d.mapped i) p = some t := by
          rw [hm]; cases p <;> simp [refreshClock] at hp <;> simp [dueOf, Mapped.get]
        obtain ⟨t, hd⟩ := hd
        by_cases hi : a.idle p = 0
        · simp [hp, hd, hi]
        · simp [hp, hd, hi, set2_self]
      · have : ∀ y, set2 d.can i q y i p = d.can i p := fun y => set2_ne _ _ (fun g => hpq g.2)
        simp only [if_true, hpq, false_and, if_false]
        cases refreshClock q <;> cases dueOf a pe (d.mapped i) q <;> try rfl
        by_cases hi : a.idle q = 0
        · simp only [hi, if_true]
        · simp only [hi, if_false, this]
    rw [h1]
    by_cases hi : a.idle p = 0
    · simp [hi]
    · by_cases h2 : p = q <;> by_cases h3 : p ∈ l <;> simp [h2, h3, hi]
      · subst h2; simp [hi, h3]
        rw [tpMin_assoc]; simp [tpMin]
      · subst h2; simp [hi, h3]

theorem hit_fold (l : List Pol) (i : Nat) (d : Data V E) :
    (l.foldl (onHit a pe i) d).exp = d.exp ∧ (∀ j p, j ≠ i → (l.foldl (onHit a pe i) d).can j p = d.can j p) ∧
    (∀ j, WasValue (d.mapped j) → WasValue ((l.foldl (onHit a pe i) d).mapped j)) ∧
    ((d.mapped i).holdsValue pe.env = true → ∀ p c, refreshClock p = some c →
      (l.foldl (onHit a pe i) d).can i p = if p ∈ l ∧ a.idle p ≠ 0 then some (pe.now c + a.idle p) else d.can i p) := by
  induction l generalizing d with
  | nil => simp
  | cons q l ih =>
    rw [List.foldl_cons]
    obtain ⟨h1, h2, h3, h4⟩ := ih (onHit a pe i d q)
    refine ⟨h1.trans (by rw [onHit_eq]), ?_, ?_, ?_⟩
    · intro j p hj
      rw [h2 j p hj, onHit_eq]
      simp only
      cases refreshClock q with
      | none => rfl
      | some c =>
        simp only
        split
        · exact set2_ne _ _ (fun g => hj g.1)
        · rfl
    · intro j hj
      refine h3 j ?_
      rw [onHit_eq]
      show WasValue ((if q = .queue then _ else _ : Nat → Mapped V E) j)
      split
      · unfold set1; split
        · rename_i g; subst g; exact hj.strengthen _
        · exact hj
      · exact hj
    · intro hv p c hp
      have hv' : ((onHit a pe i d q).mapped i).holdsValue pe.env = true := by
        rw [onHit_eq]
        show Mapped.holdsValue pe.env ((if q = .queue then _ else _ : Nat → Mapped V E) i) = true
        split
        · simp only [set1, if_true]; rw [holdsValue_strengthen]; exact hv
        · exact hv
      rw [h4 hv' p c hp]
      have g1 : (onHit a pe i d q).can i p = if p = q ∧ a.idle p ≠ 0 then some (pe.now c + a.idle p) else d.can i p := by
        rw [onHit_eq]
        simp only
        by_cases hpq : p = q
        · subst hpq
          by_cases hi : a.idle p = 0
          · simp [hp, hi]
          · simp [hp, hi, hv, set2_self]
        · simp only [hpq, false_and, if_false]
          cases refreshClock q with
          | none => rfl
          | some c =>
            simp only
            split
            · exact set2_ne _ _ (fun g => hpq g.2)
            · rfl
      rw [g1]
      by_cases hi : a.idle p = 0
      · simp [hi]
      · by_cases k2 : p = q <;> by_cases k3 : p ∈ l <;> simp [k2, k3, hi]
        · subst k2; simp [hi, k3]
        · subst k2; simp [hi, k3]

theorem create_fold (l : List Pol) (i : Nat) (d : Data V E) :
    (l.foldl (onCreate pe i) d).exp = d.exp ∧ (l.foldl (onCreate pe i) d).can = d.can ∧
    (∀ j, WasValue (d.mapped j) → WasValue ((l.foldl (onCreate pe i) d).mapped j)) := by
  induction l generalizing d with
  | nil => simp
  | cons q l ih =>
    rw [List.foldl_cons]
    obtain ⟨h1, h2, h3⟩ := ih (onCreate pe i d q)
    have g : (onCreate pe i d q).exp = d.exp ∧ (onCreate pe i d q).can = d.can ∧ ∀ j, WasValue (d.mapped j) → WasValue ((onCreate pe i d q).mapped j) := by
      cases q <;> try exact ⟨rfl, rfl, fun _ h => h⟩
      unfold onCreate
      simp only
      split
      · exact ⟨rfl, rfl, fun _ h => h⟩
      · refine ⟨rfl, rfl, fun j h => ?_⟩
        simp only [set1]
        split
        · rename_i g; subst g; exact h.strengthen _
        · exact h
    exact ⟨h1.trans g.1, h2.trans g.2.1, fun j h => h3 j (g.2.2 j h)⟩

theorem unlink_fold (l : List Pol) (i : Nat) (d : Data V E) :
    (l.foldl (onUnlink i) d).exp = d.exp ∧ (l.foldl (onUnlink i) d).can = d.can ∧ (l.foldl (onUnlink i) d).mapped = d.mapped := by
  induction l generalizing d with
  | nil => simp
  | cons q l ih =>
    rw [List.foldl_cons]
    obtain ⟨h1, h2, h3⟩ := ih (onUnlink i d q)
    have g : (onUnlink i d q).exp = d.exp ∧ (onUnlink i d q).can = d.can ∧ (onUnlink i d q).mapped = d.mapped := by
      cases q <;> exact ⟨rfl, rfl, rfl⟩
    exact ⟨h1.trans g.1, h2.trans g.2.1, h3.trans g.2.2⟩

theorem assign_other (l : List Pol) (i j : Nat) (v : Bool) (hj : j ≠ i) (d : Data V E) :
    (∀ c, (l.foldl (onAssign a pe i v) d).exp j c = d.exp j c) ∧ (∀ p, (l.foldl (onAssign a pe i v) d).can j p = d.can j p) := by
  induction l generalizing d with
  | nil => simp
  | cons q l ih =>
    rw [List.foldl_cons]
    obtain ⟨h1, h2⟩ := ih (onAssign a pe i v d q)
    refine ⟨fun c => (h1 c).trans ?_, fun p => (h2 p).trans ?_⟩
    · rw [onAssign_eq]
      show (match ageOf a v q with | some (c, t) => limitF pe i c t d.exp | none => d.exp) j c = _
      cases ageOf a v q with
      | none => rfl
      | some x => simp only; unfold limitF; split <;> simp [set2, hj]
    · rw [onAssign_eq]
      have : ∀ y, set2 d.can i q y j p = d.can j p := fun y => set2_ne _ _ (fun g => hj g.1)
      cases v <;> try rfl
      simp only [if_true]
      cases refreshClock q <;> cases dueOf a pe (d.mapped i) q <;> try rfl
      by_cases hi : a.idle q = 0
      · simp only [hi, if_true]
      · simp only [hi, if_false, this]

theorem refresh_other (l : List Cls) (new old j : Nat) (hj : j ≠ new) (d : Data V E) :
    (l.foldl (onRefresh new old) d).exp = d.exp ∧ (l.foldl (onRefresh new old) d).mapped = d.mapped ∧ (∀ p, (l.foldl (onRefresh new old) d).can j p = d.can j p) := by
  induction l generalizing d with
  | nil => simp
  | cons q l ih =>
    rw [List.foldl_cons]
    obtain ⟨h1, h2, h3⟩ := ih (onRefresh new old d q)
    have g : (onRefresh new old d q).exp = d.exp ∧ (onRefresh new old d q).mapped = d.mapped ∧ ∀ p, (onRefresh new old d q).can j p = d.can j p := by
      cases q <;> refine ⟨rfl, rfl, fun p => ?_⟩ <;> first | rfl | exact set2_ne _ _ (fun g => hj g.1)
    exact ⟨h1.trans g.1, h2.trans g.2.1, fun p => (h3 p).trans (g.2.2 p)⟩

theorem maintain_keeps (n : Nat) (l : List Pol) (d : Data V E) :
    (maintain a n l d).exp = d.exp ∧ (maintain a n l d).can = d.can ∧ ∀ j, WasValue (d.mapped j) → WasValue ((maintain a n l d).mapped j) := by
  unfold maintain
  split
  · generalize d.bq.victims (removal a n l) = vs
    induction vs generalizing d with
    | nil => exact ⟨rfl, rfl, fun _ h => h⟩
    | cons i vs ih =>
      rw [List.foldl_cons]
      obtain ⟨h1, h2, h3⟩ := ih { d with mapped := set1 d.mapped i (if l.any (fun p => p = .weaken) then (d.mapped i).weaken (l.any isPointer) else (d.mapped i).markExpired) }
      refine ⟨h1, h2, fun j hj => h3 j ?_⟩
      simp only [set1]
      split
      · rename_i g; subst g
        split
        · exact hj.weaken _
        · exact hj.markExpired
      · exact hj
  · exact ⟨rfl, rfl, fun _ h => h⟩

/-- What is known of an entry that was assigned at `pe0` and used last at `pe1`. -/
structure Times (user : List Pol) (a : Args V) (i : Nat) (pe0 pe1 : PEnv V) (d : Data V E) : Prop where
  value : WasValue (d.mapped i)
  exp : ∀ c' t, reached t (d.exp i c') = true ↔
    ∃ c, .maxAge c ∈ user ∧ ((c' = c ∧ pe0.now c + a.age c ≤ t) ∨ (c.isSteady = false ∧ c' = .steady ∧ pe0.now .steady + a.age c ≤ t))
  can : ∀ p c, refreshClock p = some c → d.can i p = if p ∈ user ∧ a.idle p ≠ 0 then some (pe1.now c + a.idle p) else none

theorem mem_refresh {p : Pol} {c : Clock} (h : refreshClock p = some c) : p ∈ allPolicies lib user ↔ p ∈ user := by
  refine mem_user user ?_
  cases p <;> simp [refreshClock] at h ⊢

theorem times_assign (i : Nat) (pe0 : PEnv V) (d : Data V E) (v : V) (hm : d.mapped i = .value v) (he : ∀ c, d.exp i c = none) (hc : ∀ p, d.can i p = none) :
    Times user a i pe0 pe0 (event user a pe0 d (.assign i true)) := by
  refine ⟨?_, fun c' t => ?_, fun p c hp => ?_⟩
  · simp only [event, invoke, assign_mapped, hm]; trivial
  · simp only [event, invoke, assign_exp, he]
    simp only [reached, Bool.false_eq_true, false_or, mem_user user (x := .maxAge _) trivial]
  · simp only [event, invoke]
    rw [assign_can _ i d v hm p c hp, hc]
    simp [tpMin, mem_refresh hp]

theorem times_step (i : Nat) (pe0 pe1 : PEnv V) (d : Data V E) (h : Times user a i pe0 pe1 d) (e : Ev) (hl : e.leaves i)
    (hh : e = .hit i → expired user pe d i = false) :
    Times user a i pe0 (if e = .hit i then pe else pe1) (event user a pe d e) := by
  cases e with
  | create j =>
    obtain ⟨h1, h2, h3⟩ := create_fold (pe := pe) (allPolicies lib user) j d
    exact ⟨h3 i h.value, by simp only [event, invoke, h1]; exact h.exp, by simp only [event, invoke, h2]; simpa using h.can⟩
  | assign j v =>
    obtain ⟨h1, h2⟩ := assign_other (a := a) (pe := pe) (allPolicies lib user) j i v (Ne.symm hl) d
    refine ⟨?_, by simp only [event, invoke, h1]; exact h.exp, by simp only [event, invoke, h2]; simpa using h.can⟩
    simp only [event, invoke, assign_mapped]; exact h.value
  | unlink j =>
    obtain ⟨h1, h2, h3⟩ := unlink_fold (allPolicies lib user) j d
    exact ⟨by simp only [event, invoke, h3]; exact h.value, by simp only [event, invoke, h1]; exact h.exp, by simp only [event, invoke, h2]; simpa using h.can⟩
  | maintain n =>
    obtain ⟨h1, h2, h3⟩ := maintain_keeps (a := a) n (allPolicies lib user) d
    exact ⟨h3 i h.value, by simp only [event, h1]; exact h.exp, by simp only [event, h2]; simpa using h.can⟩
  | refreshed new old =>
    obtain ⟨h1, h2, h3⟩ := refresh_other (valueBases user) new old i (Ne.symm hl) d
    exact ⟨by simp only [event, h2]; exact h.value, by simp only [event, h1]; exact h.exp, by simp only [event, h3]; simpa using h.can⟩
  | hit j =>
    obtain ⟨h1, h2, h3, h4⟩ := hit_fold (a := a) (pe := pe) (allPolicies lib user) j d
    refine ⟨h3 i h.value, by simp only [event, invoke, h1]; exact h.exp, ?_⟩
    simp only [event, invoke]
    by_cases hj : j = i
    · subst hj
      have hx := hh rfl
      have hv : (d.mapped j).holdsValue pe.env = true := by
        refine h.value.holds _ ?_
        rw [Bool.eq_false_iff]
        intro g
        rw [(expired_iff user pe d j).2 (.inl g)] at hx
        cases hx
      intro p c hp
      rw [h4 hv p c hp, h.can p c hp]
      simp only [mem_refresh hp, if_true]
      by_cases g : p ∈ user ∧ a.idle p ≠ 0
      · simp only [if_pos g]
      · simp only [if_neg g]
    · intro p c hp
      rw [h2 i p (Ne.symm hj), h.can p c hp]
      simp [hj]

theorem times_run (i : Nat) (pe0 pe1 : PEnv V) (es : List (PEnv V × Ev)) (d : Data V E) (h : Times user a i pe0 pe1 d) (hl : ∀ x ∈ es, x.2.leaves i)
    (hh : HitsAlive user a i d es) : Times user a i pe0 (lastUse i pe1 es) (events user a d es) := by
  induction es generalizing d pe1 with
  | nil => exact h
  | cons x es ih =>
    obtain ⟨pe, e⟩ := x
    exact ih _ _ (times_step i pe0 pe1 d h e (hl (pe, e) (by simp)) hh.1) (fun y hy => hl y (by simp [hy])) hh.2

theorem times_expired (i : Nat) (pe0 pe1 pe : PEnv V) (d : Data V E) (h : Times user a i pe0 pe1 d) :
    expired user pe d i = true ↔ (d.mapped i).expired pe.env = true ∨ TooOld user a pe0 pe ∨ Idle user a pe1 pe := by
  rw [expired_iff, h.value.noError]
  simp only [Bool.false_eq_true, false_or]
  refine or_congr Iff.rfl ?_
  have hcan : ∀ p c, refreshClock p = some c → p ∈ user → (reached (pe.now c) (d.can i p) = true ↔ a.idle p ≠ 0 ∧ pe1.now c + a.idle p ≤ pe.now c) := by
    intro p c hp hu
    rw [h.can p c hp]
    by_cases g : a.idle p = 0 <;> simp [g, hu, reached]
  constructor
  · rintro ⟨b, hb, g⟩
    obtain ⟨p, hp, hv⟩ := (mem_valueBases user b).1 hb
    cases p <;> simp [valueBase, Meta.member] at hv <;> subst hv <;> simp only [baseExpired, Bool.false_eq_true] at g
    · rename_i c'
      left
      obtain ⟨c, hc, ⟨rfl, g⟩ | ⟨hs, rfl, g⟩⟩ := (h.exp _ _).1 g
      · exact ⟨c', hc, .inl g⟩
      · exact ⟨c, hc, .inr ⟨hs, g⟩⟩
    · rename_i c'
      have hu := (mem_user user trivial).1 hp
      exact .inr ⟨_, hu, c', (refreshes_iff _ _).2 rfl, (hcan _ c' rfl hu).1 g⟩
    · rename_i c' n
      have hu := (mem_user user trivial).1 hp
      exact .inr ⟨_, hu, c', (refreshes_iff _ _).2 rfl, (hcan _ c' rfl hu).1 g⟩
    · rename_i c' n
      have hu := (mem_user user trivial).1 hp
      exact .inr ⟨_, hu, c', (refreshes_iff _ _).2 rfl, (hcan _ c' rfl hu).1 g⟩
  · rintro (⟨c, hc, g⟩ | ⟨p, hu, c, hr, hi, g⟩)
    · have hb : ∀ k, Pol.expireAt k ∈ libDeps (.maxAge c) → Cls.expireAtBase k ∈ valueBases user := fun k hk =>
        (mem_valueBases user _).2 ⟨_, mem_policies user _ (.inr ⟨_, hc, .lists hk⟩), rfl⟩
      rcases g with g | ⟨hs, g⟩
      · refine ⟨.expireAtBase c, hb c ?_, (h.exp _ _).2 ⟨c, hc, .inl ⟨rfl, g⟩⟩⟩
        cases hs : c.isSteady <;> simp [libDeps, Meta.extend, Meta.clockDeps, hs]
      · refine ⟨.expireAtBase .steady, hb .steady ?_, (h.exp _ _).2 ⟨c, hc, .inr ⟨hs, rfl, g⟩⟩⟩
        simp [libDeps, Meta.extend, Meta.clockDeps, hs]
    · have hp := (refreshes_iff p c).1 hr
      have hx := (hcan p c hp hu).2 ⟨hi, g⟩
      have hm := (mem_refresh (user := user) hp).2 hu
      cases p <;> simp [refreshClock] at hp <;> subst hp
      · exact ⟨_, (mem_valueBases user _).2 ⟨_, hm, rfl⟩, hx⟩
      · exact ⟨_, (mem_valueBases user _).2 ⟨_, hm, rfl⟩, hx⟩
      · exact ⟨_, (mem_valueBases user _).2 ⟨_, hm, rfl⟩, hx⟩

theorem refresh_can (l : List Cls) (new old : Nat) (hne : new ≠ old) (d : Data V E) (p : Pol) (t : Int) :
    reached t ((l.foldl (onRefresh new old) d).can new p) = true ↔
      reached t (d.can new p) = true ∨ ((∃ b ∈ l, refreshOf b = some p) ∧ reached t (d.can old p) = true) := by
  induction l generalizing d with
  | nil => simp
  | cons q l ih =>
    rw [List.foldl_cons, ih]
    have ho : ∀ p, (onRefresh new old d q).can old p = d.can old p := (refresh_other [q] new old old hne.symm d).2.2
    rw [ho]
    have hn : reached t ((onRefresh new old d q).can new p) = true ↔ reached t (d.can new p) = true ∨ (refreshOf q = some p ∧ reached t (d.can old p) = true) := by
      rw [onRefresh_eq]
      cases hq : refreshOf q with
      | none => simp
      | some r =>
        by_cases hr : p = r
        · subst hr; simp only [set2_self, reached_min]; simp
        · simp only [set2_ne _ _ (fun g => hr g.2 : ¬ (new = new ∧ p = r)), Option.some.injEq, Ne.symm hr, false_and, or_false]
    rw [hn]
    constructor
    · rintro ((g | ⟨g, h⟩) | ⟨⟨b, hb, g⟩, h⟩)
      · exact .inl g
      · exact .inr ⟨⟨q, by simp, g⟩, h⟩
      · exact .inr ⟨⟨b, by simp [hb], g⟩, h⟩
    · rintro (g | ⟨⟨b, hb, g⟩, h⟩)
      · exact .inl (.inl g)
      · rcases List.mem_cons.1 hb with rfl | hb
        · exact .inl (.inr ⟨g, h⟩)
        · exact .inr ⟨⟨b, hb, g⟩, h⟩

theorem refreshOf_mem (user : List Pol) (p : Pol) (c : Clock) (hp : refreshClock p = some c) : (∃ b ∈ valueBases user, refreshOf b = some p) ↔ p ∈ user := by
  constructor
  · rintro ⟨b, hb, h⟩
    obtain ⟨q, hq, hv⟩ := (mem_valueBases user b).1 hb
    cases q <;> simp [valueBase, Meta.member] at hv <;> subst hv <;> simp [refreshOf] at h <;> subst h <;> exact (mem_refresh hp).1 hq
  · intro h
    have hm := (mem_refresh (user := user) hp).2 h
    cases p <;> simp [refreshClock] at hp <;> exact ⟨_, (mem_valueBases user _).2 ⟨_, hm, rfl⟩, rfl⟩

theorem refresh_expired (new old : Nat) (hne : new ≠ old) (pe0 pe1 pe2 pe : PEnv V) (d : Data V E) (h : Times user a old pe0 pe1 d) :
    expired user pe (event user a pe2 d (.refreshed new old)) new = true ↔ expired user pe d new = true ∨ Idle user a pe1 pe := by
  obtain ⟨h1, h2, h3⟩ := refresh_other (valueBases user) new old old hne.symm d
  have hcan : ∀ p c, refreshClock p = some c → (reached (pe.now c) ((event user a pe2 d (.refreshed new old)).can new p) = true ↔
      reached (pe.now c) (d.can new p) = true ∨ (p ∈ user ∧ a.idle p ≠ 0 ∧ pe1.now c + a.idle p ≤ pe.now c)) := by
    intro p c hp
    simp only [event]
    rw [refresh_can _ _ _ hne, refreshOf_mem user p c hp, h.can p c hp]
    refine or_congr Iff.rfl ?_
    by_cases g : a.idle p = 0 <;> by_cases g' : p ∈ user <;> simp [g, g', reached]
  have hexp : (event user a pe2 d (.refreshed new old)).exp = d.exp := h1
  have hmap : (event user a pe2 d (.refreshed new old)).mapped = d.mapped := h2
  generalize event user a pe2 d (.refreshed new old) = d' at hcan hexp hmap
  rw [expired_iff, expired_iff, hmap, or_assoc, or_assoc]
  refine or_congr Iff.rfl (or_congr Iff.rfl ?_)
  constructor
  · rintro ⟨b, hb, g⟩
    have key : ∀ p c, refreshClock p = some c → reached (pe.now c) (d'.can new p) = true → (reached (pe.now c) (d.can new p) = true → baseExpired pe d new b = true) →
        (∃ b, b ∈ valueBases user ∧ baseExpired pe d new b = true) ∨ Idle user a pe1 pe := by
      intro p c hp g hx
      rcases (hcan p c hp).1 g with g | ⟨hu, g⟩
      · exact .inl ⟨b, hb, hx g⟩
      · exact .inr ⟨p, hu, c, (refreshes_iff p c).2 hp, g⟩
    cases b <;> simp only [baseExpired, Bool.false_eq_true] at g
    · exact key _ _ rfl g id
    · rw [hexp] at g; exact .inl ⟨_, hb, g⟩
    · exact key _ _ rfl g id
    · exact key _ _ rfl g id
  · rintro (⟨b, hb, g⟩ | ⟨p, hu, c, hr, g⟩)
    · refine ⟨b, hb, ?_⟩
      cases b <;> simp only [baseExpired, Bool.false_eq_true] at g ⊢
      · exact (hcan _ _ rfl).2 (.inl g)
      · rw [hexp]; exact g
      · exact (hcan _ _ rfl).2 (.inl g)
      · exact (hcan _ _ rfl).2 (.inl g)
    · have hp := (refreshes_iff p c).1 hr
      have hx := (hcan p c hp).2 (.inr ⟨hu, g⟩)
      have hm := (mem_refresh (user := user) hp).2 hu
      cases p <;> simp [refreshClock] at hp <;> subst hp <;> exact ⟨_, (mem_valueBases user _).2 ⟨_, hm, rfl⟩, hx⟩

/-! ## When refreshes are due -/

theorem dueOf_value (pe : PEnv V) (v : V) (p : Pol) : dueOf a pe (.value v : Mapped V E) p = DueAt a pe v p := by
  cases p <;> simp [dueOf, DueAt, Mapped.get]

theorem assign_due (l : List Pol) (i : Nat) (d : Data V E) (v : V) (hm : d.mapped i = .value v) (p : Pol) :
    (l.foldl (onAssign a pe i true) d).refT i p = (if p ∈ l ∧ (DueAt a pe v p).isSome then DueAt a pe v p else d.refT i p) ∧
    (isQueued p = true → (p ∈ l ∨ i ∈ d.dq p) → i ∈ (l.foldl (onAssign a pe i true) d).dq p) := by
  induction l generalizing d with
  | nil => simp
  | cons q l ih =>
    have hm' : (onAssign a pe i true d q).mapped i = .value v := by rw [onAssign_eq]; exact hm
    obtain ⟨h1, h2⟩ := ih _ hm'
    rw [List.foldl_cons, h1]
    constructor
    · rw [onAssign_eq, hm]
      simp only [if_true, dueOf_value]
      by_cases hpq : p = q
      · subst hpq
        cases hd : DueAt a pe v p <;> simp [set2_self]
      · have : ∀ y, set2 d.refT i q y i p = d.refT i p := fun y => set2_ne _ _ (fun g => hpq g.2)
        cases DueAt a pe v q <;> simp [hpq, this]
    · intro hq h
      refine h2 hq ?_
      rw [onAssign_eq]
      simp only [Bool.true_and]
      rcases h with h | h
      · rcases List.mem_cons.1 h with rfl | h
        · right; simp [hq, setP]
        · exact .inl h
      · right
        split
        · by_cases hpq : p = q
          · subst hpq; simp [setP, h]
          · rw [setP_ne _ _ hpq]; exact h
        · exact h

theorem assign_due_other (l : List Pol) (i j : Nat) (v : Bool) (hj : j ≠ i) (d : Data V E) (p : Pol) :
    (l.foldl (onAssign a pe i v) d).refT j p = d.refT j p ∧ (j ∈ d.dq p → j ∈ (l.foldl (onAssign a pe i v) d).dq p) := by
  induction l generalizing d with
  | nil => simp
  | cons q l ih =>
    obtain ⟨h1, h2⟩ := ih (onAssign a pe i v d q)
    rw [List.foldl_cons, h1]
    constructor
    · rw [onAssign_eq]
      have : ∀ y, set2 d.refT i q y j p = d.refT j p := fun y => set2_ne _ _ (fun g => hj g.1)
      cases v <;> simp only [Bool.false_eq_true, if_false, if_true]
      cases dueOf a pe (d.mapped i) q <;> simp [this]
    · intro h
      refine h2 ?_
      rw [onAssign_eq]
      simp only
      split
      · by_cases hpq : p = q
        · subst hpq; simp [setP, h]
        · rw [setP_ne _ _ hpq]; exact h
      · exact h

/-- An error sets no refresh. -/
theorem assign_due_error (l : List Pol) (i : Nat) (d : Data V E) :
    (l.foldl (onAssign a pe i false) d).refT = d.refT ∧ (l.foldl (onAssign a pe i false) d).can = d.can ∧ (l.foldl (onAssign a pe i false) d).dq = d.dq := by
  induction l generalizing d with
  | nil => simp
  | cons q l ih =>
    obtain ⟨h1, h2, h3⟩ := ih (onAssign a pe i false d q)
    rw [List.foldl_cons, h1, h2, h3, onAssign_eq]
    simp

theorem hit_due (l : List Pol) (i : Nat) (d : Data V E) : (l.foldl (onHit a pe i) d).refT = d.refT ∧ (l.foldl (onHit a pe i) d).dq = d.dq := by
  induction l generalizing d with
  | nil => simp
  | cons q l ih =>
    obtain ⟨h1, h2⟩ := ih (onHit a pe i d q)
    rw [List.foldl_cons, h1, h2, onHit_eq]
    simp

theorem create_due (l : List Pol) (i : Nat) (d : Data V E) : (l.foldl (onCreate pe i) d).refT = d.refT ∧ (l.foldl (onCreate pe i) d).dq = d.dq := by
  induction l generalizing d with
  | nil => simp
  | cons q l ih =>
    obtain ⟨h1, h2⟩ := ih (onCreate pe i d q)
    rw [List.foldl_cons, h1, h2]
    cases q <;> try exact ⟨rfl, rfl⟩
    unfold onCreate
    simp only
    split <;> exact ⟨rfl, rfl⟩

theorem refresh_due (l : List Cls) (new old : Nat) (d : Data V E) : (l.foldl (onRefresh new old) d).refT = d.refT ∧ (l.foldl (onRefresh new old) d).dq = d.dq := by
  induction l generalizing d with
  | nil => simp
  | cons q l ih =>
    obtain ⟨h1, h2⟩ := ih (onRefresh new old d q)
    rw [List.foldl_cons, h1, h2, onRefresh_eq]
    simp

theorem maintain_due (n : Nat) (l : List Pol) (d : Data V E) : (maintain a n l d).refT = d.refT ∧ (maintain a n l d).dq = d.dq := by
  unfold maintain
  split
  · generalize d.bq.victims (removal a n l) = vs
    induction vs generalizing d with
    | nil => exact ⟨rfl, rfl⟩
    | cons i vs ih =>
      rw [List.foldl_cons]
      exact ih { d with mapped := set1 d.mapped i (if l.any (fun p => p = .weaken) then (d.mapped i).weaken (l.any isPointer) else (d.mapped i).markExpired) }
  · exact ⟨rfl, rfl⟩

theorem unlink_due_other (l : List Pol) (i j : Nat) (hj : j ≠ i) (d : Data V E) (p : Pol) :
    (l.foldl (onUnlink i) d).refT j p = d.refT j p ∧ (j ∈ d.dq p → j ∈ (l.foldl (onUnlink i) d).dq p) := by
  induction l generalizing d with
  | nil => simp
  | cons q l ih =>
    obtain ⟨h1, h2⟩ := ih (onUnlink i d q)
    rw [List.foldl_cons, h1]
    have : ∀ r y, set2 d.refT i r y j p = d.refT j p := fun r y => set2_ne _ _ (fun g => hj g.1)
    cases q <;> refine ⟨?_, fun h => h2 ?_⟩ <;> first | rfl | exact h | exact this _ _ | skip
    simp only [onUnlink, setP]
    split
    · rename_i g; subst g; exact (List.mem_erase_of_ne hj).2 h
    · exact h

theorem unlink_due (l : List Pol) (hl : l.Nodup) (i : Nat) (d : Data V E) (p : Pol) (hp : p ∈ l) :
    ((∃ c n, p = .asioRefresh c n ∨ p = .asioRefreshFn c n) → (l.foldl (onUnlink i) d).refT i p = none) ∧
    (isQueued p = true → (l.foldl (onUnlink i) d).dq p = (d.dq p).erase i) := by
  have keep : ∀ (l : List Pol) (d : Data V E), p ∉ l → (l.foldl (onUnlink i) d).refT i p = d.refT i p ∧ (l.foldl (onUnlink i) d).dq p = d.dq p := by
    intro l
    induction l with
    | nil => intro d _; exact ⟨rfl, rfl⟩
    | cons q l ih =>
      intro d hq
      obtain ⟨h1, h2⟩ := ih (onUnlink i d q) (fun g => hq (by simp [g]))
      have hpq : p ≠ q := fun g => hq (by simp [g])
      rw [List.foldl_cons, h1, h2]
      have k1 : ∀ y, set2 d.refT i q y i p = d.refT i p := fun y => set2_ne _ _ (fun g => hpq g.2)
      have k2 : ∀ y, setP d.dq q y p = d.dq p := fun y => setP_ne _ _ hpq
      cases q <;> exact ⟨by first | rfl | exact k1 _, by first | rfl | exact k2 _⟩
  induction l generalizing d with
  | nil => cases hp
  | cons q l ih =>
    rw [List.nodup_cons] at hl
    rw [List.foldl_cons]
    rcases List.mem_cons.1 hp with rfl | hp
    · obtain ⟨h1, h2⟩ := keep l (onUnlink i d p) hl.1
      rw [h1, h2]
      constructor
      · rintro ⟨c, n, rfl | rfl⟩ <;> simp [onUnlink, set2_self]
      · intro hq
        cases p <;> simp [isQueued] at hq
        simp [onUnlink, setP]
    · have hpq : p ≠ q := fun g => hl.1 (g ▸ hp)
      obtain ⟨h1, h2⟩ := ih hl.2 (onUnlink i d q) hp
      refine ⟨h1, fun hq => (h2 hq).trans ?_⟩
      have k2 : ∀ y, setP d.dq q y p = d.dq p := fun y => setP_ne _ _ hpq
      cases q <;> first | rfl | (simp only [onUnlink]; rw [k2])

theorem due_step (pe : PEnv V) (i : Nat) (d : Data V E) (e : Ev) (hl : e.leaves i) (hu : e ≠ .unlink i) (p : Pol) :
    (event user a pe d e).refT i p = d.refT i p ∧ (i ∈ d.dq p → i ∈ (event user a pe d e).dq p) := by
  cases e with
  | create j => obtain ⟨h1, h2⟩ := create_due (pe := pe) (allPolicies lib user) j d; simp only [event, invoke, h1, h2]; exact ⟨trivial, id⟩
  | assign j v => exact assign_due_other _ j i v (Ne.symm hl) d p
  | hit j => obtain ⟨h1, h2⟩ := hit_due (a := a) (pe := pe) (allPolicies lib user) j d; simp only [event, invoke, h1, h2]; exact ⟨trivial, id⟩
  | unlink j => exact unlink_due_other _ j i (fun g => hu (by rw [g])) d p
  | maintain n => obtain ⟨h1, h2⟩ := maintain_due (a := a) n (allPolicies lib user) d; simp only [event, h1, h2]; exact ⟨trivial, id⟩
  | refreshed new old => obtain ⟨h1, h2⟩ := refresh_due (valueBases user) new old d; simp only [event, h1, h2]; exact ⟨trivial, id⟩

theorem due_run (i : Nat) (es : List (PEnv V × Ev)) (d : Data V E) (hl : ∀ x ∈ es, x.2.leaves i ∧ x.2 ≠ .unlink i) (p : Pol) :
    (events user a d es).refT i p = d.refT i p ∧ (i ∈ d.dq p → i ∈ (events user a d es).dq p) := by
  induction es generalizing d with
  | nil => exact ⟨rfl, id⟩
  | cons x es ih =>
    obtain ⟨h1, h2⟩ := ih (event user a x.1 d x.2) (fun y hy => hl y (by simp [hy]))
    obtain ⟨g1, g2⟩ := due_step (user := user) (a := a) x.1 i d x.2 (hl x (by simp)).1 (hl x (by simp)).2 p
    exact ⟨h1.trans g1, fun h => h2 (g2 h)⟩

end Hoard.Dispatch
