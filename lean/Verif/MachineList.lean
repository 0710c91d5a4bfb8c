import Verif.MachineWalk
/-! Helper lemmas: the step by step walk gives the results of `Verif.Cache`. -/
namespace Hoard
variable {K V E : Type}

/-- A walk of one bucket with the given decisions. -/
def walkOf (cfg : Cfg K) (act : Nat → Entry K V E → Act V E) : List (Entry K V E) → Walk K V E
  | [] => ⟨[], [], none⟩
  | e :: es =>
    match act (cfg.hash e.key) e with
    | .keep => (walkOf cfg act es).keep e
    | .mark => (walkOf cfg act es).keep (e.upd .markExpired)
    | .drop => (walkOf cfg act es).drop e
    | .stop l => ⟨e :: es, [], some (e.id, l)⟩

/-- All ids are different. -/
def IdsNd (s : St K V E) : Prop := ((s.ents ++ s.limbo).map (·.id)).Nodup

variable {cfg : Cfg K} {s : St K V E} {A C : List (List (Entry K V E))} {d t : List (Entry K V E)} {e : Entry K V E}

theorem IdsNd.parts (h : IdsNd s) (ht : s.tbl = A ++ (d ++ e :: t) :: C) :
    (∀ a ∈ A.flatten, a.id ≠ e.id) ∧ (∀ a ∈ d, a.id ≠ e.id) ∧ (∀ a ∈ t, a.id ≠ e.id) ∧ (∀ a ∈ C.flatten, a.id ≠ e.id) ∧
    (∀ a ∈ s.limbo, a.id ≠ e.id) := by
  unfold IdsNd St.ents at h
  rw [ht] at h
  simp only [List.flatten_append, List.flatten_cons, List.map_append, List.map_cons, List.append_assoc, List.cons_append] at h
  simp only [List.nodup_append, List.nodup_cons, List.mem_append, List.mem_cons, List.mem_map] at h
  refine ⟨?_, ?_, ?_, ?_, ?_⟩ <;> intro a ha <;> grind

theorem IdsNd.modify_eq (h : IdsNd s) (ht : s.tbl = A ++ (d ++ e :: t) :: C) (f : Entry K V E → Entry K V E) :
    s.modify e.id f = { s with tbl := A ++ (d ++ f e :: t) :: C } := by
  obtain ⟨h1, h2, h3, h4, h5⟩ := h.parts ht
  have hid : ∀ l : List (Entry K V E), (∀ a ∈ l, a.id ≠ e.id) →
      l.map (fun a => if a.id = e.id then f a else a) = l := by
    intro l hl
    conv => rhs; rw [← List.map_id l]
    apply List.map_congr_left
    intro a ha; simp [hl a ha]
  have hids : ∀ B : List (List (Entry K V E)), (∀ a ∈ B.flatten, a.id ≠ e.id) →
      B.map (fun b => b.map (fun a => if a.id = e.id then f a else a)) = B := by
    intro B hB
    conv => rhs; rw [← List.map_id B]
    apply List.map_congr_left
    intro b hb
    exact hid b (fun a ha => hB a (List.mem_flatten.2 ⟨b, hb, ha⟩))
  unfold St.modify
  rw [ht, hid _ h5]
  simp only [List.map_append, List.map_cons, hids A h1, hids C h4, hid d h2, hid t h3, if_true]

theorem IdsNd.cut_eq (h : IdsNd s) (ht : s.tbl = A ++ (d ++ e :: t) :: C) :
    s.cut e.id = { s with tbl := A ++ (d ++ t) :: C } := by
  obtain ⟨h1, h2, h3, h4, h5⟩ := h.parts ht
  have hid : ∀ l : List (Entry K V E), (∀ a ∈ l, a.id ≠ e.id) → l.filter (fun a => a.id != e.id) = l := by
    intro l hl
    rw [List.filter_eq_self]
    intro a ha; simpa using hl a ha
  have hids : ∀ B : List (List (Entry K V E)), (∀ a ∈ B.flatten, a.id ≠ e.id) →
      B.map (fun b => b.filter (fun a => a.id != e.id)) = B := by
    intro B hB
    conv => rhs; rw [← List.map_id B]
    apply List.map_congr_left
    intro b hb
    exact hid b (fun a ha => hB a (List.mem_flatten.2 ⟨b, hb, ha⟩))
  unfold St.cut
  rw [ht]
  simp only [List.map_append, List.map_cons, hids A h1, hids C h4, List.filter_append, hid d h2, hid t h3,
    List.filter_cons, bne_self_eq_false, Bool.false_eq_true, if_false]

theorem gfold_bucket (act : Nat → Entry K V E → Act V E) : ∀ (t d : List (Entry K V E)) (s : St K V E), IdsNd s →
    s.tbl = A ++ (d ++ t) :: C →
    gfold cfg act s t =
      (dispose cfg { s with tbl := A ++ (d ++ (walkOf cfg act t).kept) :: C } (walkOf cfg act t).removed, (walkOf cfg act t).hit) := by
  intro t
  induction t with
  | nil =>
    intro d s _ ht
    simp only [gfold, walkOf, dispose_nil]
    rw [← ht]
  | cons e t ih =>
    intro d s hn ht
    simp only [gfold, walkOf]
    cases ha : act (cfg.hash e.key) e with
    | keep =>
      simp only [Walk.keep]
      rw [ih (d ++ [e]) s hn (by simpa using ht)]
      simp
    | mark =>
      simp only [Walk.keep]
      rw [hn.modify_eq ht]
      rw [ih (d ++ [e.upd .markExpired]) _ ?_ (by simp)]
      · simp
      · unfold IdsNd St.ents at hn ⊢
        rw [ht] at hn
        simpa [Entry.upd] using hn
    | drop =>
      simp only [Walk.drop, dispose_cons]
      rw [hn.cut_eq ht]
      rw [ih d _ ?_ rfl]
      · rfl
      · unfold IdsNd St.ents at hn ⊢
        rw [ht] at hn
        refine (List.Perm.nodup_iff ?_).1 hn
        simp only [disposeOne, List.flatten_append, List.flatten_cons, List.map_append, List.map_cons, List.append_assoc,
          List.cons_append, Entry.upd, List.map_nil]
        refine List.Perm.append_left _ (List.Perm.append_left _ ?_)
        have := List.perm_append_singleton e.id (t.map (·.id) ++ (C.flatten.map (·.id) ++ s.limbo.map (·.id)))
        simpa using this.symm
    | stop l =>
      simp only [dispose_nil]
      rw [← ht]

theorem gfold_append (act : Nat → Entry K V E → Act V E) : ∀ (a b : List (Entry K V E)) (s : St K V E),
    (∀ e ∈ a, ∀ h l, act h e ≠ .stop l) →
    gfold cfg act s (a ++ b) = gfold cfg act (gfold cfg act s a).1 b := by
  intro a
  induction a with
  | nil => intro b s _; rfl
  | cons e a ih =>
    intro b s hs
    have hs' : ∀ e ∈ a, ∀ h l, act h e ≠ .stop l := fun e he => hs e (by simp [he])
    simp only [List.cons_append, gfold]
    cases ha : act (cfg.hash e.key) e with
    | keep => exact ih b _ hs'
    | mark => exact ih b _ hs'
    | drop => exact ih b _ hs'
    | stop l => exact absurd ha (hs e (by simp) _ _)

theorem dispose_append (s : St K V E) (a b : List (Entry K V E)) :
    dispose cfg s (a ++ b) = dispose cfg (dispose cfg s a) b := by
  unfold dispose; rw [List.foldl_append]

theorem dispose_withTbl (a : List (Entry K V E)) : ∀ (s : St K V E) (T : List (List (Entry K V E))),
    { dispose cfg s a with tbl := T } = dispose cfg { s with tbl := T } a := by
  induction a with
  | nil => intro s T; rfl
  | cons e a ih => intro s T; rw [dispose_cons, dispose_cons, ih]; rfl

theorem walk_perm (act : Nat → Entry K V E → Act V E) (t : List (Entry K V E)) :
    (((walkOf cfg act t).kept.map (·.id)) ++ ((walkOf cfg act t).removed.map (·.id))).Perm (t.map (·.id)) := by
  induction t with
  | nil => simp [walkOf]
  | cons e t ih =>
    simp only [walkOf]
    cases act (cfg.hash e.key) e with
    | keep => simpa [Walk.keep] using ih
    | mark => simpa [Walk.keep, Entry.upd] using ih
    | drop =>
      simp only [Walk.drop, List.map_cons]
      exact List.perm_middle.trans (ih.cons _)
    | stop l => simp

theorem idsNd_walk (act : Nat → Entry K V E → Act V E) {b : List (Entry K V E)} (hn : IdsNd s) (ht : s.tbl = A ++ b :: C) :
    IdsNd (dispose cfg { s with tbl := A ++ (walkOf cfg act b).kept :: C } (walkOf cfg act b).removed) := by
  obtain ⟨f1, f2, _⟩ := dispose_fields cfg (walkOf cfg act b).removed { s with tbl := A ++ (walkOf cfg act b).kept :: C }
  unfold IdsNd St.ents at hn ⊢
  rw [f1, f2]
  rw [ht] at hn
  refine (List.Perm.nodup_iff ?_).1 hn
  simp only [List.flatten_append, List.flatten_cons, List.map_append, List.append_assoc, List.map_map]
  have h1 := walk_perm (cfg := cfg) act b
  have h2 : List.map ((fun e => e.id) ∘ fun e => e.upd Mapped.cancel) (walkOf cfg act b).removed =
      (walkOf cfg act b).removed.map (·.id) := rfl
  rw [h2]
  rw [List.perm_iff_count] at h1 ⊢
  intro a
  have := h1 a
  simp only [List.count_append] at this ⊢
  omega

theorem gfold_all (act : Nat → Entry K V E → Act V E) (hs : ∀ e h l, act h e ≠ .stop l) :
    ∀ (T A : List (List (Entry K V E))) (s : St K V E), IdsNd s → s.tbl = A ++ T →
    (gfold cfg act s T.flatten).1 =
      dispose cfg { s with tbl := A ++ T.map (fun b => (walkOf cfg act b).kept) } (T.flatMap (fun b => (walkOf cfg act b).removed)) := by
  intro T
  induction T with
  | nil => intro A s _ ht; simp [gfold, dispose_nil, ← ht]
  | cons b T ih =>
    intro A s hn ht
    rw [List.flatten_cons, gfold_append act _ _ _ (fun e _ => hs e)]
    have h1 := gfold_bucket (cfg := cfg) (A := A) (C := T) act b [] s hn (by simpa using ht)
    rw [h1]
    simp only [List.nil_append]
    rw [ih (A ++ [(walkOf cfg act b).kept]) _ (idsNd_walk act hn ht) (by
      rw [dispose_tbl]; simp)]
    rw [dispose_withTbl, List.flatMap_cons, dispose_append]
    simp

/-! ### The decisions of the walks -/

theorem walkOf_get (env : Env V) (k : K) (incl : Bool) (b : List (Entry K V E)) :
    walkOf cfg (getAct cfg env k incl) b = getWalk cfg env k incl b := by
  induction b with
  | nil => rfl
  | cons e b ih =>
    simp only [walkOf, getWalk, getAct, ih]
    by_cases h1 : cfg.hash e.key = cfg.hash k
    · simp only [h1, ne_eq, not_true_eq_false, if_false]
      cases h2 : e.expired env
      · simp only [Bool.false_eq_true, if_false]
        cases getIfMatching cfg env k incl e <;> rfl
      · simp only [if_true]
        cases h3 : e.isPending <;> simp
    · simp only [h1, ne_eq, not_false_eq_true, if_true]
      cases h2 : stale env e <;> simp

theorem walkOf_expire (env : Env V) (k : K) (b : List (Entry K V E)) :
    walkOf cfg (expireAct cfg env k) b = expireWalk cfg env k b := by
  induction b with
  | nil => rfl
  | cons e b ih =>
    simp only [walkOf, expireWalk, expireAct, ih]
    by_cases h1 : cfg.hash e.key = cfg.hash k ∧ cfg.eqv e.key k = true
    · simp only [h1, and_self, if_true]
      cases h3 : e.isPending <;> simp
    · simp only [h1, if_false]
      cases h2 : stale env e <;> simp

theorem walkOf_purge (env : Env V) (b : List (Entry K V E)) :
    walkOf cfg (purgeAct env) b = purgeWalk env b := by
  induction b with
  | nil => rfl
  | cons e b ih =>
    simp only [walkOf, purgeAct, ih, purgeWalk]
    cases hs : stale env e <;> simp [Walk.drop, Walk.keep, hs]

theorem walkOf_expireAll (b : List (Entry K V E)) :
    walkOf cfg expireAllAct b = expireAllWalk b := by
  induction b with
  | nil => rfl
  | cons e b ih =>
    simp only [walkOf, expireAllAct, ih, expireAllWalk]
    cases hs : e.isPending <;> simp [Walk.drop, Walk.keep, hs]

theorem gfold_purge (env : Env V) (hn : IdsNd s) : (gfold cfg (purgeAct env) s s.ents).1 = purge cfg env s := by
  have := gfold_all (cfg := cfg) (purgeAct env) (by intro e h l; unfold purgeAct; split <;> simp) s.tbl [] s hn (by simp)
  simp only [walkOf_purge, List.nil_append] at this
  rw [St.ents, this, purge]
  congr 1
  simp only [purgeWalk, St.ents, List.filter_flatten, List.flatMap_def]

theorem gfold_expireAll (hn : IdsNd s) : (gfold cfg expireAllAct s s.ents).1 = clear cfg s := by
  have := gfold_all (cfg := cfg) expireAllAct (by intro e h l; unfold expireAllAct; split <;> simp) s.tbl [] s hn (by simp)
  simp only [walkOf_expireAll, List.nil_append] at this
  rw [St.ents, this, clear]
  congr 1
  simp only [expireAllWalk, St.ents, List.filter_flatten, List.flatMap_def]

/-- A walk of bucket `i` as `applyWalk`. -/
theorem gfold_apply (act : Nat → Entry K V E → Act V E) (hn : IdsNd s) {i : Nat} (hi : i < s.tbl.length) :
    gfold cfg act s (s.bucket i) = (applyWalk cfg s i (walkOf cfg act (s.bucket i)), (walkOf cfg act (s.bucket i)).hit) := by
  obtain ⟨A, b, C, hs, rfl⟩ : ∃ A b C, s.tbl = A ++ b :: C ∧ A.length = i := by
    refine ⟨s.tbl.take i, s.tbl[i], s.tbl.drop (i + 1), ?_, by simp; omega⟩
    rw [List.getElem_cons_drop, List.take_append_drop]
  have hb : s.bucket A.length = b := by simp [St.bucket, hs]
  rw [hb]
  have := gfold_bucket (cfg := cfg) (A := A) (C := C) act b [] s hn (by simpa using hs)
  rw [this]
  simp [applyWalk, St.setBucket, hs]

end Hoard
