import Verif.Spec.Dispatch
import Verif.DispatchLemmas
import Verif.CacheLemmas
import Verif.Props.Policies
/-! # The events of `Verif.Cache` are the events dispatched to the policies -/
namespace Hoard.Dispatch
open Hoard.Meta (Pol Clock Cls allPolicies lib valueBases valueBase keepsErrors Required Needs libDeps)
open Hoard.Props (count_one lib_needs C39_nothing_else C39_library_no_policy_twice mem_valueBases C19_errors_are_never_kept)
variable {K V E : Type}

theorem mem_policies (user : List Pol) (x : Pol) (hx : Required lib user x) : x ∈ allPolicies lib user := by
  rw [Meta.allPolicies_eq, List.append_assoc]
  exact List.mem_append_right _ (List.mem_append.2 ((Meta.mem_or_required user x).2 hx))

/-- Policies that nothing depends on, and that are not added by default, are there exactly if they are named. -/
theorem mem_named (user : List Pol) (x : Pol) (h1 : ∀ p, x ∉ libDeps p) (h2 : ¬ Meta.Default lib x) : x ∈ allPolicies lib user ↔ x ∈ user := by
  constructor
  · intro h
    rcases C39_nothing_else user x h with (h | ⟨p, _, hn⟩) | h
    · exact h
    · exact absurd (lib_needs hn) (h1 p)
    · exact absurd h h2
  · exact fun h => mem_policies user x (.inl h)

/-- Policies that are not added by default are there exactly if they are named or needed. -/
theorem mem_required (user : List Pol) (x : Pol) (h2 : ¬ Meta.Default lib x) : x ∈ allPolicies lib user ↔ Required lib user x :=
  ⟨fun h => (C39_nothing_else user x h).resolve_right h2, mem_policies user x⟩

theorem not_dep {x : Pol} (h : match x with | .maxAge _ | .errMaxAge _ | .refresh _ | .asioRefresh _ _ | .asioRefreshFn _ _ | .maxSize | .weaken | .pointer _ => True | _ => False) (p : Pol) :
    x ∉ libDeps p := by
  cases x <;> simp at h <;> cases p <;> simp [libDeps, Meta.extend, Meta.clockDeps] <;> split <;> simp

theorem mem_user (user : List Pol) {x : Pol} (h : match x with | .maxAge _ | .errMaxAge _ | .refresh _ | .asioRefresh _ _ | .asioRefreshFn _ _ | .maxSize | .weaken | .pointer _ => True | _ => False) :
    x ∈ allPolicies lib user ↔ x ∈ user :=
  mem_named user x (not_dep h) (by cases x <;> simp at h <;> simp [Meta.Default, lib])

theorem mem_queue (user : List Pol) (h : .queue ∉ user) : Pol.queue ∈ allPolicies lib user ↔ .maxSize ∈ user := by
  rw [mem_required user _ (by simp [Meta.Default, lib]), Props.lib_wants_queue]
  simp [h]

/-- Events need to be sent to those policies only that take them. -/
theorem fold_active {β : Type} (h : β → Pol → β) (comm : ∀ d p q, h (h d p) q = h (h d q) p) (l act : List Pol) (hl : l.Nodup) (ha : act.Nodup)
    (hid : ∀ p ∈ l, p ∉ act → ∀ d, h d p = d) (d : β) : l.foldl h d = (act.filter (· ∈ l)).foldl h d := by
  have h1 : ∀ l : List Pol, (∀ p ∈ l, p ∉ act → ∀ d, h d p = d) → ∀ d, l.foldl h d = (l.filter (· ∈ act)).foldl h d := by
    intro l
    induction l with
    | nil => intro _ _; rfl
    | cons p l ih =>
      intro hp d
      rw [List.foldl_cons, List.filter_cons]
      by_cases ht : p ∈ act
      · simp only [ht, decide_true, if_true, List.foldl_cons]
        exact ih (fun q hq => hp q (by simp [hq])) _
      · simp only [ht, decide_false, Bool.false_eq_true, if_false]
        rw [hp p (by simp) ht]
        exact ih (fun q hq => hp q (by simp [hq])) _
  rw [h1 l hid]
  refine List.Perm.foldl_eq' ?_ (fun p _ q _ d => comm d p q) d
  have n1 : (l.filter (· ∈ act)).Nodup := hl.filter _
  have n2 : (act.filter (· ∈ l)).Nodup := ha.filter _
  rw [List.perm_iff_count]
  intro x
  by_cases hx : x ∈ l ∧ x ∈ act
  · rw [count_one n1 (by simpa using hx), count_one n2 (by simpa using hx.symm)]
  · rw [List.count_eq_zero.2 (by simpa using hx), List.count_eq_zero.2 (by simpa using fun a b => hx ⟨b, a⟩)]

section
variable {cfg : Cfg K} {user : List Pol} {a : Args V} {c : Clock} {env : Env V} {pe : PEnv V} {s : St K V E} {d : Data V E}

theorem SameTime.strengthen (t : SameTime c env pe) (m : Mapped V E) : m.strengthen pe.env = m.strengthen env := by
  obtain ⟨now, al⟩ := env
  obtain rfl : al = pe.alive := t.alive
  cases m <;> rfl

theorem SameTime.holdsValue (t : SameTime c env pe) (m : Mapped V E) : m.holdsValue pe.env = m.holdsValue env := by
  obtain ⟨now, al⟩ := env
  obtain rfl : al = pe.alive := t.alive
  cases m <;> rfl

theorem SameTime.expired (t : SameTime c env pe) (m : Mapped V E) : m.expired pe.env = m.expired env := by
  obtain ⟨now, al⟩ := env
  obtain rfl : al = pe.alive := t.alive
  cases m <;> rfl

theorem limbo_modify (s : St K V E) (i : Nat) (f : Entry K V E → Entry K V E) : (s.modify i f).limbo = s.limbo.map (fun e => if e.id = i then f e else e) := rfl

/-- A change of one object. -/
theorem sees_modify {d' : Data V E} {i : Nat} {f : Entry K V E → Entry K V E} (h : ∀ e ∈ s.ents ++ s.limbo, SeesEntry user c e d)
    (hi : ∀ e, e.id = i → SeesEntry user c e d → SeesEntry user c (f e) d') (hj : ∀ e : Entry K V E, e.id ≠ i → SeesEntry user c e d → SeesEntry user c e d') :
    ∀ e ∈ (s.modify i f).ents ++ (s.modify i f).limbo, SeesEntry user c e d' := by
  intro e he
  rw [ents_modify, limbo_modify] at he
  have : ∃ e0 ∈ s.ents ++ s.limbo, e = if e0.id = i then f e0 else e0 := by
    rcases List.mem_append.1 he with he | he
    · obtain ⟨e0, h0, rfl⟩ := List.mem_map.1 he
      exact ⟨e0, List.mem_append_left _ h0, rfl⟩
    · obtain ⟨e0, h0, rfl⟩ := List.mem_map.1 he
      exact ⟨e0, List.mem_append_right _ h0, rfl⟩
  obtain ⟨e0, h0, rfl⟩ := this
  split
  · rename_i hid; exact hi e0 hid (h e0 h0)
  · rename_i hid; exact hj e0 hid (h e0 h0)

/-- A change of the value of one object. -/
theorem SeesEntry.upd {e : Entry K V E} {i : Nat} {g : Mapped V E → Mapped V E} {bq : BQ} (h : SeesEntry user c e d) (hid : e.id = i) :
    SeesEntry user c (e.upd g) { d with mapped := set1 d.mapped i (g (d.mapped i)), bq := bq } where
  mapped := by
    have := h.mapped
    subst hid
    simp [Entry.upd, set1, this]
  steady := h.steady
  wall := h.wall
  both := h.both
  refT := h.refT
  can := h.can
  exp_named := h.exp_named
  can_named := h.can_named

theorem SeesEntry.other {e : Entry K V E} {i : Nat} {m : Mapped V E} {bq : BQ} (h : SeesEntry user c e d) (hid : e.id ≠ i) :
    SeesEntry user c e { d with mapped := set1 d.mapped i m, bq := bq } where
  mapped := by simp [set1, hid, h.mapped]
  steady := h.steady
  wall := h.wall
  both := h.both
  refT := h.refT
  can := h.can
  exp_named := h.exp_named
  can_named := h.can_named

theorem hit_event (f : Fits cfg user a c) (i : Nat) (d : Data V E) :
    event user a pe d (.hit i) = (([Pol.queue, .refresh .steady] : List Pol).filter (· ∈ allPolicies lib user)).foldl (Dispatch.onHit a pe i) d := by
  refine fold_active _ (fun d p q => onHit_comm a pe i d p q) _ _ (C39_library_no_policy_twice user f.nodup) (by decide) ?_ d
  intro p hp hn d
  cases p <;> simp [Dispatch.onHit] at hn ⊢
  · rename_i c'
    exact absurd (f.steady c' ((mem_user user trivial).1 hp)) hn
  · rename_i c' n
    exact absurd ((mem_user user trivial).1 hp) (f.no_asio c' n).1
  · rename_i c' n
    exact absurd ((mem_user user trivial).1 hp) (f.no_asio c' n).2

theorem hit_sim (f : Fits cfg user a c) (t : SameTime c env pe) (h : Sees user c s d) (i : Nat) :
    Sees user c (Hoard.onHit cfg env s i) (event user a pe d (.hit i)) := by
  rw [hit_event f]
  have q := mem_queue user f.no_queue
  have r := mem_user user (x := .refresh .steady) trivial
  -- the recency queue
  let s1 : St K V E := if cfg.maxSize.isSome then { s.modify i (·.upd (.strengthen env)) with bq := s.bq.onHit i } else s
  let d1 : Data V E := if Pol.maxSize ∈ user then Dispatch.onHit a pe i d .queue else d
  have h1 : Sees user c s1 d1 := by
    simp only [s1, d1, f.size]
    by_cases hm : Pol.maxSize ∈ user
    · simp only [hm, if_true, Option.isSome_some]
      refine ⟨sees_modify (d' := Dispatch.onHit a pe i d .queue) h.entry ?_ ?_, ?_, h.dq, h.dq_named⟩
      · intro e hid he
        have := he.upd (g := .strengthen env) (bq := d.bq.onHit i) hid
        rw [← t.strengthen] at this
        exact this
      · intro e hid he; exact he.other hid
      · show d.bq.onHit i = s.bq.onHit i
        rw [h.bq]
    · simpa [hm] using h
  have hd : ([Pol.queue, .refresh .steady].filter (· ∈ allPolicies lib user)).foldl (Dispatch.onHit a pe i) d =
      if Pol.refresh .steady ∈ user then Dispatch.onHit a pe i d1 (.refresh .steady) else d1 := by
    simp only [List.filter_cons, List.filter_nil, q, r, decide_eq_true_eq, d1]
    by_cases x : Pol.maxSize ∈ user <;> by_cases y : Pol.refresh .steady ∈ user <;> simp [x, y]
  rw [hd]
  show Sees user c (match cfg.refresh with
    | none => s1
    | some (_, idle) => if idle = 0 then s1 else
      s1.modify i (fun e => if e.mapped.holdsValue env then { e with canTp := some (env.now + idle) } else e)) _
  rw [f.refresh]
  by_cases y : Pol.refresh .steady ∈ user
  · simp only [y, if_true, Dispatch.onHit, moveIdle]
    by_cases z : a.idle (.refresh .steady) = 0
    · simpa [z] using h1
    · simp only [z, if_false, ne_eq, not_false_eq_true, true_and]
      have key : ∀ e : Entry K V E, e.id = i → SeesEntry user c e d1 → (d1.mapped i).holdsValue pe.env = e.mapped.holdsValue env := by
        intro e hid he; rw [← hid, he.mapped, t.holdsValue]
      refine ⟨sees_modify h1.entry ?_ ?_, ?_, ?_, ?_⟩
      · intro e hid he
        rw [key e hid he]
        cases e.mapped.holdsValue env
        · simpa using he
        · simp only [if_true]
          refine ⟨?_, he.steady, he.wall, he.both, ?_, ?_, he.exp_named, fun _ => y⟩
          · exact he.mapped
          · exact he.refT
          · subst hid
            simp [set2, t.steady]
      · intro e hid he
        split
        · refine ⟨he.mapped, he.steady, he.wall, he.both, he.refT, ?_, he.exp_named, he.can_named⟩
          simp [set2, hid, he.can]
        · exact he
      · split <;> exact h1.bq
      · split <;> exact h1.dq
      · exact h1.dq_named
  · simpa [y] using h1

theorem create_sim (f : Fits cfg user a c) (t : SameTime c env pe) (h : Sees user c s d) (i : Nat) :
    Sees user c (Hoard.onCreate cfg env s i) (event user a pe d (.create i)) := by
  have he : event user a pe d (.create i) = (([Pol.queue] : List Pol).filter (· ∈ allPolicies lib user)).foldl (Dispatch.onCreate pe i) d := by
    refine fold_active _ (fun d p q => onCreate_comm pe i d p q) _ _ (C39_library_no_policy_twice user f.nodup) (by decide) ?_ d
    intro p hp hn d
    cases p <;> simp [Dispatch.onCreate] at hn ⊢
  rw [he]
  have q := mem_queue user f.no_queue
  simp only [Hoard.onCreate, f.size]
  by_cases hm : Pol.maxSize ∈ user
  · simp only [List.filter_cons, List.filter_nil, q, hm, decide_true, if_true, List.foldl_cons, List.foldl_nil, Option.isSome_some, Dispatch.onCreate, h.bq]
    cases hr : (s.bq.onCreate i).2 with
    | none => exact ⟨fun e he => (by have := h.entry e he; exact ⟨this.mapped, this.steady, this.wall, this.both, this.refT, this.can, this.exp_named, this.can_named⟩), rfl, h.dq, h.dq_named⟩
    | some m =>
      refine ⟨sees_modify (s := { s with bq := (s.bq.onCreate i).1 }) (d := d) h.entry ?_ ?_, rfl, h.dq, h.dq_named⟩
      · intro e hid he
        have := he.upd (g := .strengthen env) (bq := (s.bq.onCreate i).1) hid
        rw [← t.strengthen] at this
        exact this
      · intro e hid he; exact he.other hid
  · simp only [List.filter_cons, List.filter_nil, q, hm]
    simpa using h

theorem deadMin_fst (x y : Option (Int × Option Int)) : (deadMin x y).map (·.1) = tpMin (x.map (·.1)) (y.map (·.1)) := by
  rcases x with _ | ⟨x1, x2⟩ <;> rcases y with _ | ⟨y1, y2⟩ <;> simp [deadMin, tpMin]

theorem deadMin_snd (x y : Option (Int × Option Int)) : (deadMin x y).bind (·.2) = tpMin (x.bind (·.2)) (y.bind (·.2)) := by
  rcases x with _ | ⟨x1, _ | x2⟩ <;> rcases y with _ | ⟨y1, _ | y2⟩ <;> simp [deadMin, tpMin]

theorem assign_event (f : Fits cfg user a c) (i : Nat) (v : Bool) (d : Data V E) :
    event user a pe d (.assign i v) = (([Pol.maxAge c, .errMaxAge c, .refresh .steady] : List Pol).filter (· ∈ allPolicies lib user)).foldl (Dispatch.onAssign a pe i v) d := by
  refine fold_active _ (fun d p q => onAssign_comm a pe i v d p q) _ _ (C39_library_no_policy_twice user f.nodup) (by simp) ?_ d
  intro p hp hn d
  cases p <;> simp [Dispatch.onAssign] at hn ⊢
  · rename_i c'
    exact absurd (f.one_clock c' (.inl ((mem_user user trivial).1 hp))) hn
  · rename_i c'
    exact absurd (f.one_clock c' (.inr ((mem_user user trivial).1 hp))) hn
  · rename_i c'
    exact absurd (f.steady c' ((mem_user user trivial).1 hp)) hn
  · rename_i c' n
    exact absurd ((mem_user user trivial).1 hp) (f.no_asio c' n).1
  · rename_i c' n
    exact absurd ((mem_user user trivial).1 hp) (f.no_asio c' n).2

/-- An age limit, as the cache sets it and as the policy sets it. -/
theorem limit_sim (hc : c = .steady ∨ c.isSteady = false) (t : SameTime c env pe) (x : Int) (hn : ∀ k, k = .steady ∨ k = c → Required lib user (.expireAt k))
    {e : Entry K V E} (h : SeesEntry user c e d) :
    SeesEntry user c { e with expTp := deadMin e.expTp (some (env.now.steady + x, if !c.isSteady then some (env.now.wall + x) else none)) } (limitAge pe e.id c x d) := by
  rw [limitAge_eq]
  have hstep : limitF pe e.id c x d.exp e.id .steady = tpMin (d.exp e.id .steady) (some (env.now.steady + x)) := by
    rw [t.steady]
    rcases hc with rfl | hc
    · simp [limitF, Clock.isSteady, set2]
    · have : c ≠ .steady := by intro g; subst g; simp [Clock.isSteady] at hc
      simp [limitF, hc, set2, this.symm]
  have hwall : c.isSteady = false → limitF pe e.id c x d.exp e.id c = tpMin (d.exp e.id c) (some (env.now.wall + x)) := by
    intro hc
    have : c ≠ .steady := by intro g; subst g; simp [Clock.isSteady] at hc
    rw [t.wall hc]
    simp [limitF, hc, set2, this]
  refine ⟨h.mapped, ?_, ?_, ?_, h.refT, h.can, ?_, h.can_named⟩
  · show limitF pe e.id c x d.exp e.id .steady = _
    rw [hstep, deadMin_fst, h.steady]; rfl
  · intro hs
    show limitF pe e.id c x d.exp e.id c = _
    rw [hwall hs, deadMin_snd, h.wall hs]; simp [hs]
  · intro hs
    show (deadMin _ _).bind _ = _
    rw [deadMin_snd, h.both hs]; simp [hs, tpMin]
  · intro c' hne
    by_cases hk : c' = .steady ∨ c' = c
    · exact ⟨hn c' hk, hk⟩
    · refine h.exp_named c' (fun g => hne ?_)
      have h1 : c' ≠ c := fun g => hk (.inr g)
      have h2 : c' ≠ .steady := fun g => hk (.inl g)
      show limitF pe e.id c x d.exp e.id c' = none
      unfold limitF
      split <;> simp [set2, h1, h2, g]

theorem limit_other (i : Nat) (x : Int) {e : Entry K V E} (hid : e.id ≠ i) (h : SeesEntry user c e d) : SeesEntry user c e (limitAge pe i c x d) := by
  rw [limitAge_eq]
  have : ∀ k, limitF pe i c x d.exp e.id k = d.exp e.id k := by
    intro k; unfold limitF; split <;> simp [set2, hid]
  exact ⟨h.mapped, (this _).trans h.steady, fun g => (this _).trans (h.wall g), h.both, h.refT, h.can, fun k hk => h.exp_named k (by rw [← this k]; exact hk), h.can_named⟩

theorem age_needs (user : List Pol) (c : Clock) (hc : c = .steady ∨ c.isSteady = false) (h : Pol.maxAge c ∈ user ∨ Pol.errMaxAge c ∈ user) (k : Clock) (hk : k = .steady ∨ k = c) :
    Required lib user (.expireAt k) := by
  have h1 : Pol.expireAt k ∈ libDeps (.maxAge c) ∧ Pol.expireAt k ∈ libDeps (.errMaxAge c) := by
    rcases hc with rfl | hc
    · have : k = .steady := by rcases hk with h | h <;> exact h
      subst this
      simp [libDeps, Meta.extend, Meta.clockDeps, Clock.isSteady]
    · rcases hk with rfl | rfl <;> simp [libDeps, Meta.extend, Meta.clockDeps, hc]
  rcases h with h | h
  · exact .inr ⟨_, h, .lists h1.1⟩
  · exact .inr ⟨_, h, .lists h1.2⟩

theorem assign_sim (f : Fits cfg user a c) (t : SameTime c env pe) (h : Sees user c s d) (i : Nat) (v : Bool) :
    Sees user c (Hoard.onAssign cfg env s i v) (event user a pe d (.assign i v)) := by
  rw [assign_event f]
  have r1 := mem_user user (x := .maxAge c) trivial
  have r2 := mem_user user (x := .errMaxAge c) trivial
  have r3 := mem_user user (x := .refresh .steady) trivial
  let age : Option Int := if v then cfg.maxAge else cfg.errAge
  let d1 : Data V E := match age with
    | none => d
    | some x => limitAge pe i c x d
  have hd : (([Pol.maxAge c, .errMaxAge c, .refresh .steady] : List Pol).filter (· ∈ allPolicies lib user)).foldl (Dispatch.onAssign a pe i v) d =
      if Pol.refresh .steady ∈ user then Dispatch.onAssign a pe i v d1 (.refresh .steady) else d1 := by
    simp only [List.filter_cons, List.filter_nil, r1, r2, r3, decide_eq_true_eq, d1, age, f.age, f.errAge]
    by_cases x : Pol.maxAge c ∈ user <;> by_cases y : Pol.errMaxAge c ∈ user <;> by_cases z : Pol.refresh .steady ∈ user <;> cases v <;>
      simp [x, y, z, Dispatch.onAssign]
  have hnamed : ∀ x, age = some x → Pol.maxAge c ∈ user ∨ Pol.errMaxAge c ∈ user := by
    intro x hx
    simp only [age, f.age, f.errAge] at hx
    cases v
    · right; exact Classical.byContradiction fun g => by simp [g] at hx
    · left; exact Classical.byContradiction fun g => by simp [g] at hx
  have h1 : ∀ e : Entry K V E, e.id = i → SeesEntry user c e d → SeesEntry user c { e with expTp := ageTp cfg env v e.expTp } d1 := by
    intro e hid he
    subst hid
    simp only [ageTp, d1]
    have hage : (if v then cfg.maxAge else cfg.errAge) = age := rfl
    rw [hage]
    cases hx : age with
    | none => exact he
    | some x =>
      simp only [f.wall]
      exact limit_sim f.clock t x (age_needs user c f.clock (hnamed x hx)) he
  have h2 : ∀ e : Entry K V E, e.id ≠ i → SeesEntry user c e d → SeesEntry user c e d1 := by
    intro e hid he
    simp only [d1]
    cases age with
    | none => exact he
    | some x => exact limit_other i x hid he
  have hbq : d1.bq = d.bq ∧ d1.dq = d.dq := by
    simp only [d1]
    cases age with
    | none => exact ⟨rfl, rfl⟩
    | some x => simp only [limitAge_eq, and_self]
  rw [hd]
  by_cases y : Pol.refresh .steady ∈ user
  · cases v
    · simp only [y, if_true, Dispatch.onAssign, Hoard.onAssign, Bool.and_false, Bool.false_eq_true, if_false]
      refine ⟨sees_modify h.entry ?_ h2, by rw [hbq.1]; exact h.bq, by rw [hbq.2]; exact h.dq, h.dq_named⟩
      intro e hid he
      have := h1 e hid he
      simpa [assignTimes, f.refresh, y] using this
    · simp only [y, if_true, Dispatch.onAssign, Hoard.onAssign, f.refresh, Option.isSome_some, Bool.and_self]
      refine ⟨sees_modify h.entry ?_ ?_, ?_, ?_, fun _ => y⟩
      · intro e hid he
        have g := h1 e hid he
        subst hid
        simp only [assignTimes, f.refresh, y, if_true, startIdle]
        by_cases z : a.idle (.refresh .steady) = 0
        · simp only [z, if_true]
          exact ⟨g.mapped, g.steady, g.wall, g.both, by simp [set2, t.steady], g.can, g.exp_named, g.can_named⟩
        · simp only [z, if_false]
          refine ⟨g.mapped, g.steady, g.wall, g.both, by simp [set2, t.steady], ?_, g.exp_named, fun _ => y⟩
          have := g.can
          simp only at this
          simp [set2, t.steady, this]
      · intro e hid he
        have g := h2 e hid he
        unfold startIdle
        split
        · exact ⟨g.mapped, g.steady, g.wall, g.both, by simp [set2, hid, g.refT], g.can, g.exp_named, g.can_named⟩
        · exact ⟨g.mapped, g.steady, g.wall, g.both, by simp [set2, hid, g.refT], by simp [set2, hid, g.can], g.exp_named, g.can_named⟩
      · unfold startIdle; split <;> exact hbq.1.trans h.bq
      · have : setP d1.dq (.refresh .steady) (d1.dq (.refresh .steady) ++ [i]) (.refresh .steady) = s.delayQ ++ [i] := by
          simp [setP, hbq.2, h.dq]
        unfold startIdle; split <;> exact this
  · simp only [y, if_false]
    have hr : cfg.refresh = none := by rw [f.refresh, if_neg y]
    simp only [Hoard.onAssign, hr, Option.isSome_none, Bool.false_and, Bool.false_eq_true, if_false]
    refine ⟨sees_modify h.entry ?_ h2, by rw [hbq.1]; exact h.bq, by rw [hbq.2]; exact h.dq, h.dq_named⟩
    intro e hid he
    have := h1 e hid he
    simpa [assignTimes, hr] using this

/-- The disposer: the lookup is cancelled, then the policies are told. -/
theorem unlink_sim (f : Fits cfg user a c) (h : Sees user c s d) (e : Entry K V E) (he : SeesEntry user c e d) (hne : ∀ e' ∈ s.ents ++ s.limbo, e'.id ≠ e.id) :
    Sees user c (disposeOne cfg s e) (event user a pe { d with mapped := set1 d.mapped e.id (d.mapped e.id).cancel } (.unlink e.id)) := by
  generalize hd0 : ({ d with mapped := set1 d.mapped e.id (d.mapped e.id).cancel } : Data V E) = d0
  have hev : event user a pe d0 (.unlink e.id) =
      (([Pol.queue, .refresh .steady] : List Pol).filter (· ∈ allPolicies lib user)).foldl (Dispatch.onUnlink e.id) d0 := by
    refine fold_active _ (fun d p q => onUnlink_comm e.id d p q) _ _ (C39_library_no_policy_twice user f.nodup) (by decide) ?_ d0
    intro p hp hn d
    cases p <;> simp [Dispatch.onUnlink] at hn ⊢
    · rename_i c'
      exact absurd (f.steady c' ((mem_user user trivial).1 hp)) hn
    · rename_i c' n
      exact absurd ((mem_user user trivial).1 hp) (f.no_asio c' n).1
    · rename_i c' n
      exact absurd ((mem_user user trivial).1 hp) (f.no_asio c' n).2
  rw [hev]
  have q := mem_queue user f.no_queue
  have r := mem_user user (x := .refresh .steady) trivial
  have h0 : ∀ e' ∈ s.ents ++ (s.limbo ++ [e.upd .cancel]), SeesEntry user c e' d0 := by
    intro e' h'
    rw [← hd0]
    rcases List.mem_append.1 h' with g | g
    · exact (h.entry e' (List.mem_append_left _ g)).other (bq := d.bq) (hne e' (List.mem_append_left _ g))
    · rcases List.mem_append.1 g with g | g
      · exact (h.entry e' (List.mem_append_right _ g)).other (bq := d.bq) (hne e' (List.mem_append_right _ g))
      · rw [List.mem_singleton] at g
        subst g
        exact he.upd (bq := d.bq) rfl
  have hb : d0.bq = s.bq := by rw [← hd0]; exact h.bq
  have hq : d0.dq (.refresh .steady) = s.delayQ := by rw [← hd0]; exact h.dq
  have hsame : ∀ (e' : Entry K V E) (bq : BQ) (dq : Pol → List Nat), SeesEntry user c e' d0 → SeesEntry user c e' { d0 with bq := bq, dq := dq } :=
    fun e' bq dq g => ⟨g.mapped, g.steady, g.wall, g.both, g.refT, g.can, g.exp_named, g.can_named⟩
  have hfin : (([Pol.queue, .refresh .steady] : List Pol).filter (· ∈ allPolicies lib user)).foldl (Dispatch.onUnlink e.id) d0 =
      { d0 with
        bq := if Pol.maxSize ∈ user then d0.bq.onUnlink e.id else d0.bq
        dq := if Pol.refresh .steady ∈ user then setP d0.dq (.refresh .steady) ((d0.dq (.refresh .steady)).erase e.id) else d0.dq } := by
    simp only [List.filter_cons, List.filter_nil, q, r, decide_eq_true_eq]
    by_cases x : Pol.maxSize ∈ user <;> by_cases y : Pol.refresh .steady ∈ user <;> simp [x, y, Dispatch.onUnlink]
  rw [hfin]
  refine ⟨fun e' h' => hsame e' _ _ (h0 e' h'), ?_, ?_, ?_⟩
  · simp only [disposeOne, f.size, hb]
    by_cases x : Pol.maxSize ∈ user <;> simp [x]
  · simp only [disposeOne]
    by_cases y : Pol.refresh .steady ∈ user
    · simp [y, setP, hq]
    · have : s.delayQ = [] := Classical.byContradiction fun g => y (h.dq_named g)
      simp [y, hq, this]
  · intro g
    refine h.dq_named (fun z => g ?_)
    simp [disposeOne, z]

theorem any_pointer (user : List Pol) : (allPolicies lib user).any isPointer = user.any isPointer := by
  rw [Bool.eq_iff_iff, List.any_eq_true, List.any_eq_true]
  constructor
  · rintro ⟨p, hp, h⟩
    cases p <;> simp [isPointer] at h
    exact ⟨_, (mem_user user trivial).1 hp, rfl⟩
  · rintro ⟨p, hp, h⟩
    cases p <;> simp [isPointer] at h
    exact ⟨_, (mem_user user trivial).2 hp, rfl⟩

theorem any_weaken (user : List Pol) : (allPolicies lib user).any (fun p => p = .weaken) = decide (.weaken ∈ user) := by
  rw [Bool.eq_iff_iff, List.any_eq_true, decide_eq_true_eq, ← mem_user user (x := .weaken) trivial]
  simp

theorem removal_eq (user : List Pol) (a : Args V) (n : Nat) (h : user.Nodup) :
    removal a n (allPolicies lib user) = if .maxSize ∈ user then n - a.size else 0 := by
  unfold removal
  refine (fold_active _ ?_ _ [.maxSize] (C39_library_no_policy_twice user h) (by simp) ?_ 0).trans ?_
  · intro m p q
    cases removalCheck a n p <;> cases removalCheck a n q <;> simp only
    (repeat' split) <;> omega
  · intro p _ hp m
    cases p <;> simp [removalCheck] at hp ⊢
  · simp only [List.filter_cons, List.filter_nil, mem_user user (x := .maxSize) trivial, decide_eq_true_eq]
    split
    · simp only [List.foldl_cons, List.foldl_nil, removalCheck]
      (repeat' split) <;> omega
    · rfl

theorem maintain_sim (f : Fits cfg user a c) (h : Sees user c s d) :
    Sees user c (Hoard.maintenance cfg s) (event user a pe d (.maintain s.size)) := by
  have hany : (allPolicies lib user).any (fun p => (removalCheck a s.size p).isSome) = decide (.maxSize ∈ user) := by
    rw [Bool.eq_iff_iff, List.any_eq_true, decide_eq_true_eq, ← mem_user user (x := .maxSize) trivial]
    constructor
    · rintro ⟨p, hp, g⟩
      cases p <;> simp [removalCheck] at g
      exact hp
    · intro g; exact ⟨_, g, rfl⟩
  simp only [event, maintain, hany, Hoard.maintenance, f.size, any_weaken, any_pointer, removal_eq user a _ f.nodup, ← f.ptr, ← f.weaken]
  by_cases x : Pol.maxSize ∈ user
  · simp only [x, if_true, decide_true, evictAll, h.bq]
    clear hany
    generalize s.bq.victims (s.size - a.size) = vs
    induction vs generalizing s d with
    | nil => exact h
    | cons i vs ih =>
      rw [List.foldl_cons, List.foldl_cons]
      refine ih ?_
      · refine ⟨sees_modify h.entry ?_ (fun e hid he => he.other (bq := d.bq) hid), h.bq, h.dq, h.dq_named⟩
        intro e hid he
        cases hw : cfg.weaken
        · exact he.upd (bq := d.bq) hid
        · exact he.upd (bq := d.bq) hid
  · simpa [x] using h

theorem expired_iff (user : List Pol) (pe : PEnv V) (d : Data V E) (i : Nat) :
    expired user pe d i = true ↔ (d.mapped i).expired pe.env = true ∨ (d.mapped i).holdsError = true ∨ ∃ b ∈ valueBases user, baseExpired pe d i b = true := by
  have : ∀ (l : List Cls) (x : Bool), l.foldl (fun b c => if baseExpired pe d i c then true else b) x = (x || l.any (baseExpired pe d i)) := by
    intro l
    induction l with
    | nil => simp
    | cons b l ih => intro x; rw [List.foldl_cons, ih]; rw [List.any_cons]; cases baseExpired pe d i b <;> cases x <;> rfl
  rw [expired, this, C19_errors_are_never_kept]
  cases (d.mapped i).holdsError <;> simp

theorem expired_sim (f : Fits cfg user a c) (t : SameTime c env pe) {e : Entry K V E} (h : SeesEntry user c e d) :
    e.expired env = expired user pe d e.id := by
  rw [Bool.eq_iff_iff, expired_iff, h.mapped, t.expired]
  simp only [Entry.expired, Bool.or_eq_true, or_assoc]
  refine or_congr Iff.rfl (or_congr Iff.rfl ?_)
  have hpast : env.now.past e.expTp = true ↔ reached env.now.steady (e.expTp.map (·.1)) = true ∨ reached env.now.wall (e.expTp.bind (·.2)) = true := by
    rcases e.expTp with _ | ⟨x, y⟩ <;> simp [Time.past, reached]
  have hreach : ∀ n o, reached n o = true → o ≠ none := by intro n o g; rintro rfl; simp [reached] at g
  rw [hpast]
  constructor
  · rintro ((g | g) | g)
    · rw [← h.steady, t.steady] at g
      have := (h.exp_named .steady (hreach _ _ g)).1
      exact ⟨.expireAtBase .steady, (mem_valueBases user _).2 ⟨_, mem_policies user _ this, rfl⟩, g⟩
    · cases hc : c.isSteady with
      | true => rw [h.both hc] at g; simp [reached] at g
      | false =>
        rw [← h.wall hc, t.wall hc] at g
        have := (h.exp_named c (hreach _ _ g)).1
        exact ⟨.expireAtBase c, (mem_valueBases user _).2 ⟨_, mem_policies user _ this, rfl⟩, g⟩
    · have := h.can_named (hreach _ _ g)
      rw [← h.can, t.steady] at g
      exact ⟨.refreshBase .steady, (mem_valueBases user _).2 ⟨_, mem_policies user _ (.inl this), rfl⟩, g⟩
  · rintro ⟨b, hb, g⟩
    obtain ⟨p, hp, hv⟩ := (mem_valueBases user b).1 hb
    cases p <;> simp [valueBase, Meta.member] at hv <;> subst hv <;> simp only [baseExpired, Bool.false_eq_true] at g
    · rename_i c'
      rcases (h.exp_named c' (hreach _ _ g)).2 with rfl | rfl
      · left; left; rw [← h.steady, t.steady]; exact g
      · rcases f.clock with rfl | hc
        · left; left; rw [← h.steady, t.steady]; exact g
        · left; right; rw [← h.wall hc, t.wall hc]; exact g
    · rename_i c'
      have := f.steady c' ((mem_user user trivial).1 hp)
      subst this
      right; rw [← h.can, t.steady]; exact g
    · exact absurd ((mem_user user trivial).1 hp) (f.no_asio _ _).1
    · exact absurd ((mem_user user trivial).1 hp) (f.no_asio _ _).2

end

end Hoard.Dispatch
