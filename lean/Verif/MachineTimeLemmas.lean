import Verif.Spec.MachineTime
import Verif.NestedAsyncStay
import Verif.Destroyed
/-! # Lemmas: times of 64 bits -/
namespace Hoard.MachineTime
variable {K V E : Type} {lim : Limits} {base : Cfg K} {env : Env V}

/-- The same result, or undefined, which happens only out of range. -/
def Agree {α : Type} (P : Prop) (m : Option α) (f : α) : Prop := m = some f ∨ m = none ∧ ¬ P

namespace Agree
variable {α β : Type} {P : Prop}

theorem some (f : α) : Agree P (some f) f := .inl rfl

theorem bind {m : Option α} {f : α} {g : α → Option β} {r : β} (h : Agree P m f) (hg : Agree P (g f) r) : Agree P (m.bind g) r := by
  rcases h with rfl | ⟨rfl, h⟩
  · exact hg
  · exact .inr ⟨rfl, h⟩

theorem map {m : Option α} {f : α} {g : α → β} (h : Agree P m f) : Agree P (m.map g) (g f) := by
  rcases h with rfl | ⟨rfl, h⟩
  · exact .inl rfl
  · exact .inr ⟨rfl, h⟩

theorem ite {c : Prop} [Decidable c] {m m' : Option α} {f f' : α} (h : c → Agree P m f) (h' : ¬ c → Agree P m' f') :
    Agree P (if c then m else m') (if c then f else f') := by
  by_cases hc : c
  · rw [if_pos hc, if_pos hc]; exact h hc
  · rw [if_neg hc, if_neg hc]; exact h' hc

end Agree

theorem chk_agree {P : Prop} {x : Int} (h : P → Fits x) : Agree P (chk x) x := by
  unfold chk
  split
  · exact .inl rfl
  · rename_i hn
    refine .inr ⟨rfl, fun hp => hn ?_⟩
    have := h hp
    unfold Fits at this
    unfold lo hi
    omega

theorem chk_none {x : Int} : chk x = none ↔ ¬ Fits x := by
  unfold chk Fits lo hi
  split <;> simp <;> omega

theorem sumMs_agree {P : Prop} {t now ms : Int} (h1 : P → Fits (ms * t)) (h2 : P → Fits (now + ms * t)) : Agree P (sumMs t now ms) (now + ms * t) :=
  (chk_agree h1).bind (chk_agree h2)

theorem sumMs_none {t now ms : Int} : sumMs t now ms = none ↔ ¬ (Fits (ms * t) ∧ Fits (now + ms * t)) := by
  unfold sumMs
  by_cases h : Fits (ms * t)
  · rcases chk_agree (P := True) (fun _ => h) with h1 | h1
    · rw [h1]; show chk _ = none ↔ _; rw [chk_none]; simp [h]
    · exact absurd trivial h1.2
  · rw [(chk_none).2 h]; simp [h]

theorem ageSums_agree (value : Bool) (now : Time) : Agree (InRange lim base.wall now) (ageSums lim base.wall now value)
    (match (if value then (lim.cfg base).maxAge else (lim.cfg base).errAge) with
      | none => none
      | some a => some (now.steady + a, if base.wall then some (now.wall + a) else none)) := by
  have key : ∀ ms, (InRange lim base.wall now → AgeInRange lim.ticks base.wall now ms) → Agree (InRange lim base.wall now)
      (if base.wall then (do
          let w ← sumMs lim.ticks now.wall ms
          let t ← sumMs lim.ticks now.steady ms
          some (some (t, some w)))
        else (do
          let t ← sumMs lim.ticks now.steady ms
          some (some (t, none))) : Option (Option (Int × Option Int)))
      (some (now.steady + ms * lim.ticks, if base.wall then some (now.wall + ms * lim.ticks) else none)) := by
    intro ms h
    cases hw : base.wall with
    | true =>
      rw [hw] at h
      exact (sumMs_agree (fun p => (h p).1) (fun p => (h p).2.2 rfl)).bind ((sumMs_agree (fun p => (h p).1) (fun p => (h p).2.1)).bind (.some _))
    | false =>
      rw [hw] at h
      exact (sumMs_agree (fun p => (h p).1) (fun p => (h p).2.1)).bind (.some _)
  unfold ageSums Limits.cfg
  cases value with
  | true =>
    simp only [if_true]
    cases hm : lim.maxAge with
    | none => exact .some _
    | some ms => exact key ms (fun p => p.age ms hm)
  | false =>
    simp only [Bool.false_eq_true, if_false]
    cases hm : lim.errAge with
    | none => exact .some _
    | some ms => exact key ms (fun p => p.err ms hm)

theorem refreshSums_agree (wall value : Bool) (now : Time) : Agree (InRange lim wall now) (refreshSums lim now value)
    (match lim.refresh with
      | none => (none, none)
      | some (d, i) => if value then (some (now.steady + d), if i = 0 then none else some (now.steady + i)) else (none, none)) := by
  unfold refreshSums
  cases hr : lim.refresh with
  | none => exact .some _
  | some x =>
    obtain ⟨d, i⟩ := x
    simp only
    refine Agree.ite (fun _ => ?_) (fun _ => .some _)
    refine (chk_agree (fun p => p.delay d i hr)).bind ?_
    by_cases hi : i = 0
    · simp only [hi, if_true]; exact .some _
    · simp only [hi, if_false]
      exact (chk_agree (fun p => p.idle d i hr hi)).bind (.some _)

theorem deadMin_none (a : Option (Int × Option Int)) : deadMin a none = a := by cases a <;> rfl
theorem tpMin_none (a : Option Int) : tpMin a none = a := by cases a <;> rfl

/-- The sums without bound. -/
def ideal (cfg : Cfg K) (now : Time) (value : Bool) : Sums where
  age := match (if value then cfg.maxAge else cfg.errAge) with
    | none => none
    | some a => some (now.steady + a, if cfg.wall then some (now.wall + a) else none)
  ref := match cfg.refresh with
    | none => none
    | some (d, _) => if value then some (now.steady + d) else none
  can := match cfg.refresh with
    | none => none
    | some (_, i) => if value then (if i = 0 then none else some (now.steady + i)) else none

theorem assignSums_agree (value : Bool) (now : Time) :
    Agree (InRange lim base.wall now) (assignSums lim (lim.cfg base).wall now value) (ideal (lim.cfg base) now value) := by
  unfold assignSums
  refine (ageSums_agree value now).bind ((refreshSums_agree base.wall value now).bind ?_)
  refine .inl (congrArg some ?_)
  unfold ideal
  congr 1
  · show _ = match lim.refresh with
      | none => none
      | some (d, _) => if value then some (now.steady + d) else none
    cases lim.refresh with
    | none => rfl
    | some x => cases value <;> rfl
  · show _ = match lim.refresh with
      | none => none
      | some (_, i) => if value then (if i = 0 then none else some (now.steady + i)) else none
    cases lim.refresh with
    | none => rfl
    | some x => cases value <;> rfl

theorem setTimes_ideal (cfg : Cfg K) (value : Bool) : setTimes (ideal cfg env.now value) = assignTimes (E := E) cfg env value := by
  funext e
  unfold setTimes assignTimes ageTp ideal
  simp only
  cases value with
  | true =>
    cases cfg.maxAge <;> cases hr : cfg.refresh with
    | none => simp [deadMin_none, tpMin_none]
    | some x =>
      by_cases hi : x.2 = 0
      · simp [deadMin_none, tpMin_none, hi]
      · simp [deadMin_none, hi]
  | false => cases cfg.errAge <;> cases hr : cfg.refresh <;> simp [deadMin_none, tpMin_none]

theorem onAssign_agree (s : St K V E) (i : Nat) (value : Bool) :
    Agree (InRange lim base.wall env.now) (onAssign lim (lim.cfg base) env s i value) (Hoard.onAssign (lim.cfg base) env s i value) := by
  unfold onAssign
  refine (assignSums_agree value env.now).bind ?_
  rw [setTimes_ideal]
  exact .some _

theorem sumMs_isSome {t now ms : Int} (h1 : Fits (ms * t)) (h2 : Fits (now + ms * t)) : sumMs t now ms = some (now + ms * t) := by
  rcases sumMs_agree (P := True) (fun _ => h1) (fun _ => h2) with h | ⟨_, h⟩
  · exact h
  · exact absurd trivial h

theorem ageSums_none {wall : Bool} {now : Time} :
    ageSums lim wall now true = none ↔ ¬ ∀ ms, lim.maxAge = some ms → AgeInRange lim.ticks wall now ms := by
  unfold ageSums
  simp only [if_true]
  cases hm : lim.maxAge with
  | none => simp
  | some ms =>
    simp only [Option.some.injEq, forall_eq']
    unfold AgeInRange
    cases wall with
    | true =>
      simp only [if_true, true_implies]
      cases h1 : sumMs lim.ticks now.wall ms with
      | none => have := sumMs_none.1 h1; simp; grind
      | some w =>
        have h1' : ¬ sumMs lim.ticks now.wall ms = none := by rw [h1]; simp
        cases h2 : sumMs lim.ticks now.steady ms with
        | none => have := sumMs_none.1 h2; simp; grind
        | some t =>
          have h2' : ¬ sumMs lim.ticks now.steady ms = none := by rw [h2]; simp
          rw [sumMs_none] at h1' h2'
          simp; grind
    | false =>
      simp only [Bool.false_eq_true, if_false, false_implies, and_true]
      rw [← sumMs_none]
      cases sumMs lim.ticks now.steady ms <;> simp

theorem refreshSums_none {now : Time} :
    refreshSums lim now true = none ↔ ¬ ((∀ d i, lim.refresh = some (d, i) → Fits (now.steady + d)) ∧ ∀ d i, lim.refresh = some (d, i) → i ≠ 0 → Fits (now.steady + i)) := by
  unfold refreshSums
  cases hr : lim.refresh with
  | none => simp
  | some x =>
    obtain ⟨d, i⟩ := x
    simp only [if_true, Option.some.injEq, Prod.mk.injEq]
    have e : ∀ x y, sum x y = none ↔ ¬ Fits (x + y) := fun x y => chk_none
    cases h1 : sum now.steady d with
    | none => have := (e _ _).1 h1; simp; grind
    | some r =>
      have h1' : ¬ sum now.steady d = none := by rw [h1]; simp
      rw [e] at h1'
      by_cases hi : i = 0
      · simp [hi]; grind
      · cases h2 : sum now.steady i with
        | none => have := (e _ _).1 h2; simp [hi, h2]; grind
        | some c =>
          have h2' : ¬ sum now.steady i = none := by rw [h2]; simp
          rw [e] at h2'
          simp [hi, h2]; grind

theorem onAssign_none {s : St K V E} {i : Nat} : onAssign lim (lim.cfg base) env s i true = none ↔ ¬ ValueInRange lim base.wall env.now := by
  have h1 : onAssign lim (lim.cfg base) env s i true = none ↔ (ageSums lim base.wall env.now true = none ∨ refreshSums lim env.now true = none) := by
    unfold onAssign assignSums
    show ((ageSums lim base.wall env.now true).bind _).bind _ = none ↔ _
    cases ageSums lim base.wall env.now true with
    | none => simp
    | some a => cases refreshSums lim env.now true <;> simp
  rw [h1, ageSums_none, refreshSums_none]
  constructor
  · rintro (h | h) hv
    · exact h hv.age
    · exact h ⟨hv.delay, hv.idle⟩
  · intro h
    apply Classical.byContradiction
    intro hn
    simp only [not_or, Classical.not_not] at hn
    exact h ⟨hn.1, hn.2.1, hn.2.2⟩

theorem modify_same (s : St K V E) (i : Nat) (f : Entry K V E → Entry K V E) (h : ∀ e ∈ s.ents ++ s.limbo, e.id = i → f e = e) : s.modify i f = s := by
  have h1 : ∀ l : List (Entry K V E), (∀ e ∈ l, e.id = i → f e = e) → l.map (fun e => if e.id = i then f e else e) = l := by
    intro l hl
    conv => rhs; rw [← List.map_id l]
    refine List.map_congr_left fun e he => ?_
    by_cases hi : e.id = i
    · simp [hi, hl e he hi]
    · simp [hi]
  unfold St.modify
  have h2 : s.tbl.map (fun b => b.map (fun e => if e.id = i then f e else e)) = s.tbl := by
    conv => rhs; rw [← List.map_id s.tbl]
    refine List.map_congr_left fun b hb => h1 b fun e he => h e ?_
    exact List.mem_append_left _ (List.mem_flatten.2 ⟨b, hb, he⟩)
  rw [h2, h1 _ fun e he => h e (List.mem_append_right _ he)]

theorem onHit_agree (s : St K V E) (i : Nat) :
    Agree (InRange lim base.wall env.now) (onHit lim (lim.cfg base) env s i) (Hoard.onHit (lim.cfg base) env s i) := by
  unfold onHit Hoard.onHit
  have hm : (lim.cfg base).maxSize = base.maxSize := rfl
  have hr : (lim.cfg base).refresh = lim.refresh := rfl
  rw [hm, hr]
  generalize (if base.maxSize.isSome = true then ({ s.modify i (·.upd (.strengthen env)) with bq := s.bq.onHit i } : St K V E) else s) = s1
  cases hx : lim.refresh with
  | none => exact .some _
  | some x =>
    obtain ⟨d, idle⟩ := x
    simp only
    by_cases h0 : idle = 0
    · simp only [h0, ne_eq, not_true_eq_false, false_and, if_false, if_true]
      exact .some _
    · simp only [h0, ne_eq, not_false_eq_true, true_and, if_false]
      split
      · exact (chk_agree (fun p => p.idle d idle hx h0)).bind (.some _)
      · rename_i hn
        refine .inl (congrArg some ?_)
        rw [modify_same]
        intro e he hi
        rw [if_neg]
        intro hv
        exact hn (List.any_eq_true.2 ⟨e, he, by simp [hi, hv]⟩)

theorem onHit_none {s : St K V E} {i : Nat} (h : ∃ e ∈ s.ents, e.id = i ∧ e.mapped.holdsValue env = true) :
    onHit lim (lim.cfg base) env s i = none ↔ ∃ d c, lim.refresh = some (d, c) ∧ c ≠ 0 ∧ ¬ Fits (env.now.steady + c) := by
  obtain ⟨e, he, hi, hv⟩ := h
  unfold onHit
  simp only
  generalize hs : (if (lim.cfg base).maxSize.isSome = true then ({ s.modify i (·.upd (.strengthen env)) with bq := s.bq.onHit i } : St K V E) else s) = s1
  have h1 : (s1.ents ++ s1.limbo).any (fun e => e.id == i && e.mapped.holdsValue env) = true := by
    refine List.any_eq_true.2 ?_
    subst hs
    split
    · refine ⟨e.upd (.strengthen env), List.mem_append_left _ ?_, ?_⟩
      · show _ ∈ (s.modify i (·.upd (.strengthen env))).ents
        rw [ents_modify]
        exact List.mem_map.2 ⟨e, he, by simp [atId, hi]⟩
      · simp only [Entry.upd, hi, beq_self_eq_true, Bool.true_and]
        cases hm : e.mapped <;> rw [hm] at hv <;> simp_all [Mapped.holdsValue, Mapped.strengthen]
    · exact ⟨e, List.mem_append_left _ he, by simp [hi, hv]⟩
  cases hr : lim.refresh with
  | none => simp
  | some x =>
    obtain ⟨d, c⟩ := x
    have e' : ∀ x y, sum x y = none ↔ ¬ Fits (x + y) := fun x y => chk_none
    simp only [h1, and_true, Option.some.injEq, Prod.mk.injEq]
    by_cases hc : c = 0
    · simp [hc]
    · simp only [ne_eq, hc, not_false_eq_true, if_true]
      have : (∃ d' c', (d = d' ∧ c = c') ∧ ¬ c' = 0 ∧ ¬ Fits (env.now.steady + c')) ↔ ¬ Fits (env.now.steady + c) :=
        ⟨fun ⟨_, _, ⟨_, h2⟩, _, h3⟩ => h2 ▸ h3, fun h => ⟨d, c, ⟨rfl, rfl⟩, hc, h⟩⟩
      rw [this, ← e']
      cases sum env.now.steady c <;> simp

theorem getWalk_kept {cfg : Cfg K} {k : K} {v : V} {incl : Bool} {i : Nat} : ∀ {es : List (Entry K V E)}, (getWalk cfg env k incl es).hit = some (i, .val v) →
    ∃ e ∈ (getWalk cfg env k incl es).kept, e.id = i ∧ e.mapped.holdsValue env = true
  | [], h => by cases h
  | e :: es, h => by
    have ih := getWalk_kept (cfg := cfg) (k := k) (v := v) (incl := incl) (es := es) (i := i)
    have nk : (getWalk cfg env k incl es).hit = some (i, .val v) → ∃ x ∈ ((getWalk cfg env k incl es).keep e).kept, x.id = i ∧ x.mapped.holdsValue env = true := fun h => by
      obtain ⟨x, hx, h1⟩ := ih h
      exact ⟨x, List.mem_cons_of_mem _ hx, h1⟩
    rw [getWalk] at h ⊢
    split
    · rename_i h1
      rw [if_pos h1] at h
      split
      · rename_i h2; rw [if_pos h2] at h; exact ih h
      · rename_i h2; rw [if_neg h2] at h; exact nk h
    · rename_i h1
      rw [if_neg h1] at h
      split
      · rename_i h2
        rw [if_pos h2] at h
        split
        · rename_i h3; rw [if_pos h3] at h; exact nk h
        · rename_i h3; rw [if_neg h3] at h; exact ih h
      · rename_i h2
        rw [if_neg h2] at h
        cases hg : getIfMatching cfg env k incl e with
        | none => simp only [hg] at h ⊢; exact nk h
        | val u =>
          simp only [hg] at h ⊢
          simp only [Option.some.injEq, Prod.mk.injEq, Look.val.injEq] at h
          refine ⟨e, List.mem_cons_self, h.1, ?_⟩
          unfold getIfMatching at hg
          split at hg
          · clear ih nk h
            cases hm : e.mapped <;> rw [hm] at hg <;> simp only [Mapped.get, Mapped.holdsValue] at hg ⊢ <;> try (cases hg; done)
            all_goals (split at hg <;> first | assumption | cases hg)
          · cases hg
        | err u => simp only [hg] at h; simp at h
        | pend => simp only [hg] at h; simp at h

theorem get__none {s : St K V E} {k : K} {incl : Bool} {i : Nat} {v : V}
    (h : (getWalk (lim.cfg base) env k incl (s.bucket (s.bucketFor ((lim.cfg base).hash k)))).hit = some (i, .val v)) :
    get_ lim (lim.cfg base) env s k incl = none ↔ ∃ d c, lim.refresh = some (d, c) ∧ c ≠ 0 ∧ ¬ Fits (env.now.steady + c) := by
  unfold get_
  simp only [h, Option.map_eq_none_iff]
  refine onHit_none ?_
  obtain ⟨e, he, h1⟩ := getWalk_kept h
  refine ⟨e, ?_, h1⟩
  unfold applyWalk
  rw [dispose_ents]
  have hne : ∃ x, x ∈ s.bucket (s.bucketFor ((lim.cfg base).hash k)) := by
    cases hb : s.bucket (s.bucketFor ((lim.cfg base).hash k)) with
    | nil => rw [hb] at he; cases he
    | cons x l => exact ⟨x, List.mem_cons_self⟩
  obtain ⟨x, hx⟩ := hne
  exact NestedAsync.mem_setBucket_kept hx he

theorem link_agree (s : St K V E) (e : Entry K V E) :
    Agree (InRange lim base.wall env.now) (link lim (lim.cfg base) env s e) (Hoard.link (lim.cfg base) env s e) :=
  Agree.ite (fun _ => .some _) (fun _ => onAssign_agree _ _ _)

theorem get__agree (s : St K V E) (k : K) (incl : Bool) :
    Agree (InRange lim base.wall env.now) (get_ lim (lim.cfg base) env s k incl) (Hoard.get_ (lim.cfg base) env s k incl) := by
  unfold get_ Hoard.get_
  simp only
  cases (getWalk (lim.cfg base) env k incl (s.bucket (s.bucketFor ((lim.cfg base).hash k)))).hit with
  | none => exact .some _
  | some x => exact (onHit_agree _ _).map

theorem tryLink_agree (s : St K V E) (e : Entry K V E) (f : Fail) :
    Agree (InRange lim base.wall env.now) (tryLink lim (lim.cfg base) env s e f) (Hoard.tryLink (lim.cfg base) env s e f) := by
  cases f with
  | none => exact (link_agree s e).map
  | alloc => exact .some _
  | grow => exact Agree.ite (fun _ => .some _) (fun _ => (link_agree s e).map)

theorem emplace_agree (s : St K V E) (k : K) (v : V) (f : Fail) :
    Agree (InRange lim base.wall env.now) (emplace lim (lim.cfg base) env s k v f) (Hoard.emplace (lim.cfg base) env s k v f) :=
  (tryLink_agree _ _ f).bind (.some _)

theorem getOrEmplace_agree (s : St K V E) (k : K) (v : V) (f : Fail) :
    Agree (InRange lim base.wall env.now) (getOrEmplace lim (lim.cfg base) env s k v f) (Hoard.getOrEmplace (lim.cfg base) env s k v f) := by
  unfold getOrEmplace Hoard.getOrEmplace
  refine (get__agree s k true).bind ?_
  generalize Hoard.get_ (lim.cfg base) env s k true = g
  obtain ⟨s1, l⟩ := g
  cases l with
  | none => exact (tryLink_agree _ _ f).bind (.some _)
  | val v => exact .some _
  | err e => exact .some _
  | pend => exact .some _

theorem resolveSync_agree (s : St K V E) (k : K) (r : Res V E) :
    Agree (InRange lim base.wall env.now) (resolveSync lim (lim.cfg base) env s k r) (Hoard.resolveSync (lim.cfg base) env s k r) :=
  (link_agree _ _).map

theorem get_agree (s : St K V E) (k : K) (r : Res V E) :
    Agree (InRange lim base.wall env.now) (get lim (lim.cfg base) env s k r) (Hoard.get (lim.cfg base) env s k r) := by
  unfold get Hoard.get
  refine (get__agree s k false).bind ?_
  generalize Hoard.get_ (lim.cfg base) env s k false = g
  obtain ⟨s1, l⟩ := g
  have hk : (lim.cfg base).resolver = base.resolver := rfl
  rw [hk]
  cases base.resolver <;> cases l
  case sync.none => exact (resolveSync_agree _ _ _).bind (.some _)
  all_goals exact .some _

theorem complete_agree (s : St K V E) (tok : Nat) (r : Res V E) :
    Agree (InRange lim base.wall env.now) (complete lim (lim.cfg base) env s tok r) (Hoard.complete (lim.cfg base) env s tok r) := by
  unfold complete
  split
  · rename_i h
    unfold Hoard.complete
    rw [if_pos h.1, if_neg (by simp [h.2])]
    exact (onAssign_agree _ _ _).map
  · exact .some _

theorem resolveAsync_agree (s : St K V E) (k : K) (b : Beh V E) :
    Agree (InRange lim base.wall env.now) (resolveAsync lim (lim.cfg base) env s k b) (Hoard.resolveAsync (lim.cfg base) env s k b) := by
  unfold resolveAsync Hoard.resolveAsync
  refine (link_agree _ _).bind ?_
  cases b with
  | later => exact .some _
  | now r => exact (complete_agree _ _ _).map
  | drop => exact .some _

theorem asyncGet_agree (s : St K V E) (k : K) (w : Nat) (b : Beh V E) :
    Agree (InRange lim base.wall env.now) (asyncGet lim (lim.cfg base) env s k w b) (Hoard.asyncGet (lim.cfg base) env s k w b) := by
  unfold asyncGet Hoard.asyncGet
  refine (get__agree s k true).bind ?_
  simp only
  cases (getWalk (lim.cfg base) env k true (s.bucket (s.bucketFor ((lim.cfg base).hash k)))).hit with
  | some x => exact .some _
  | none => exact (resolveAsync_agree _ _ _).bind (.some _)

theorem resolve_agree (s : St K V E) (k : K) (r : Res V E) (b : Beh V E) :
    Agree (InRange lim base.wall env.now) (resolve lim (lim.cfg base) env s k r b)
      (if (lim.cfg base).resolver = .async then Hoard.resolveAsync (lim.cfg base) env s k b else Hoard.resolveSync (lim.cfg base) env s k r) :=
  Agree.ite (fun _ => resolveAsync_agree _ _ _) (fun _ => resolveSync_agree _ _ _)

theorem refresh_agree (s : St K V E) (e : Entry K V E) (r : Res V E) (b : Beh V E) :
    Agree (InRange lim base.wall env.now) (refresh lim (lim.cfg base) env s e r b) (Hoard.refresh (lim.cfg base) env s e r b) := by
  unfold refresh Hoard.refresh
  refine Agree.ite (fun _ => .some _) (fun _ => ?_)
  refine (resolve_agree s e.key r b).bind ?_
  simp only
  generalize hg : (if (lim.cfg base).resolver = .async then Hoard.resolveAsync (lim.cfg base) env s e.key b else Hoard.resolveSync (lim.cfg base) env s e.key r) = x
  obtain ⟨s1, tok⟩ := x
  simp only
  cases (s1.modify e.id (fun y => { y with refreshing := true })).find tok with
  | some n => exact Agree.ite (fun _ => .some _) (fun _ => .some _)
  | none => exact .some _

theorem tick_agree (s : St K V E) (r : Res V E) (b : Beh V E) :
    Agree (InRange lim base.wall env.now) (tick lim (lim.cfg base) env s r b) (Hoard.tick (lim.cfg base) env s r b) := by
  unfold tick Hoard.tick
  cases s.delayQ with
  | nil => exact .some _
  | cons i q =>
    simp only
    cases s.find i with
    | none => exact .some _
    | some e => exact Agree.ite (fun _ => refresh_agree _ _ _ _) (fun _ => .some _)

theorem step_agree (s : St K V E) (o : Op K V E) :
    Agree (InRange lim base.wall env.now) (step lim (lim.cfg base) env s o) (Hoard.step (lim.cfg base) env s o) := by
  cases o with
  | get k r => exact get_agree s k r
  | asyncGet k w b => exact asyncGet_agree s k w b
  | emplace k v f => exact emplace_agree s k v f
  | getOrEmplace k v f => exact getOrEmplace_agree s k v f
  | complete tok r => exact complete_agree s tok r
  | tick r b => exact tick_agree s r b
  | _ => exact .some _

theorem run_agree (s : St K V E) (h : Hist K V E) :
    Agree (∀ p ∈ h, InRange lim base.wall p.1.now) (run lim (lim.cfg base) s h) (Hoard.run (lim.cfg base) s h) := by
  induction h generalizing s with
  | nil => exact .some _
  | cons p h ih =>
    obtain ⟨env, o⟩ := p
    unfold run Hoard.run
    rcases step_agree (lim := lim) (base := base) (env := env) s o with h1 | ⟨h1, h2⟩
    · rw [h1]
      show Agree _ ((run lim (lim.cfg base) (Hoard.step (lim.cfg base) env s o).1 h).bind _) _
      rcases ih (Hoard.step (lim.cfg base) env s o).1 with h3 | ⟨h3, h4⟩
      · rw [h3]; exact .inl rfl
      · rw [h3]; exact .inr ⟨rfl, fun hp => h4 fun q hq => hp q (List.mem_cons_of_mem _ hq)⟩
    · rw [h1]; exact .inr ⟨rfl, fun hp => h2 (hp _ (List.mem_cons_self ..))⟩

theorem link_value_none {s : St K V E} {k : K} {v : V} {s0 : St K V E} :
    link lim (lim.cfg base) env s (newEntry s0 k (.value v)) = none ↔ ¬ ValueInRange lim base.wall env.now := by
  unfold link
  simp only [newEntry, Entry.isPending, Mapped.isPending, Bool.false_eq_true, if_false, Mapped.holdsValue]
  exact onAssign_none

theorem tryLink_none (s : St K V E) (k : K) (v : V) (f : Fail) (h : (Hoard.tryLink (lim.cfg base) env s (newEntry s k (.value v)) f).2 = true) :
    tryLink lim (lim.cfg base) env s (newEntry s k (.value v)) f = none ↔ ¬ ValueInRange lim base.wall env.now := by
  rw [← link_value_none (base := base) (E := E) (s := s) (k := k) (v := v) (s0 := s)]
  cases f with
  | none => simp [tryLink]
  | alloc => simp [Hoard.tryLink] at h
  | grow =>
    simp only [Hoard.tryLink] at h
    simp only [tryLink]
    split
    · rename_i hg; rw [if_pos hg] at h; simp at h
    · simp

theorem resolveSync_none (s : St K V E) (k : K) (v : V) :
    resolveSync lim (lim.cfg base) env s k (.ok v) = none ↔ ¬ ValueInRange lim base.wall env.now := by
  rw [← link_value_none (base := base) (E := E) (s := s) (k := k) (v := v) (s0 := s)]
  simp [resolveSync, syncMapped]

theorem getWalk_hit_ne {cfg : Cfg K} {k : K} {incl : Bool} {i : Nat} {l : Look V E} : ∀ {es : List (Entry K V E)}, (getWalk cfg env k incl es).hit = some (i, l) → l ≠ .none
  | [], h => by cases h
  | e :: es, h => by
    have ih := getWalk_hit_ne (cfg := cfg) (k := k) (incl := incl) (i := i) (l := l) (es := es)
    rw [getWalk] at h
    split at h
    · split at h <;> exact ih h
    · split at h
      · split at h <;> exact ih h
      · split at h
        · exact ih h
        · rename_i hn
          simp only [Option.some.injEq, Prod.mk.injEq] at h
          rw [← h.2]; exact hn

theorem resolveAsync_none (s : St K V E) (hd : s.destroyed = false) (k : K) (v : V) :
    resolveAsync lim (lim.cfg base) env s k (.now (.ok v)) = none ↔ ¬ ValueInRange lim base.wall env.now := by
  unfold resolveAsync
  have h1 : link lim (lim.cfg base) env s (newEntry s k (.pending {})) = some (Hoard.link (lim.cfg base) env s (newEntry s k (.pending {}))) := by
    unfold link Hoard.link
    simp [newEntry, Entry.isPending, Mapped.isPending]
  have h2 : (Hoard.link (lim.cfg base) env s (newEntry s k (.pending {}))).destroyed = false := by rw [link_des]; exact hd
  simp only [h1, bind, Option.bind_some, Option.map_eq_none_iff]
  unfold complete
  rw [if_pos ⟨by simp, h2⟩, Option.map_eq_none_iff]
  exact onAssign_none

end Hoard.MachineTime
