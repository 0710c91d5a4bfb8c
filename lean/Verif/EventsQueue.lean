import Verif.Spec.Events
import Verif.EventsLemmas
/-!
# The policies of the library see the same calls (helper lemmas for C113)
-/
namespace Hoard.Events
variable {K V E : Type} {cfg : Cfg K} {env : Env V} {s : St K V E}

theorem recency_append (q : BQ) (xs ys : List Ev) : recency q (xs ++ ys) = recency (recency q xs) ys := by simp [recency]
theorem dues_append (q : List Nat) (xs ys : List Ev) : dues q (xs ++ ys) = dues (dues q xs) ys := by simp [dues]

/-- Both queues follow the calls. -/
structure Fol (cfg : Cfg K) (s s' : St K V E) (evs : List Ev) : Prop where
  bq : cfg.maxSize.isSome = true → s'.bq = recency s.bq evs
  dq : cfg.refresh.isSome = true → s'.delayQ = dues s.delayQ evs

theorem Fol.refl (s : St K V E) : Fol cfg s s [] := ⟨fun _ => rfl, fun _ => rfl⟩
theorem Fol.same {s' : St K V E} (h1 : s'.bq = s.bq) (h2 : s'.delayQ = s.delayQ) : Fol cfg s s' [] := ⟨fun _ => h1, fun _ => h2⟩
theorem Fol.trans {s' s'' : St K V E} {xs ys : List Ev} (h : Fol cfg s s' xs) (h' : Fol cfg s' s'' ys) : Fol cfg s s'' (xs ++ ys) :=
  ⟨fun hm => by rw [recency_append, ← h.bq hm, h'.bq hm], fun hm => by rw [dues_append, ← h.dq hm, h'.dq hm]⟩
theorem Fol.then_same {s' s'' : St K V E} {xs : List Ev} (h : Fol cfg s s' xs) (h1 : s''.bq = s'.bq) (h2 : s''.delayQ = s'.delayQ) : Fol cfg s s'' xs := by
  have := h.trans (Fol.same h1 h2); rwa [List.append_nil] at this

theorem Fol.from_same {s' s'' : St K V E} {xs : List Ev} (h : Fol cfg s' s'' xs) (h1 : s'.bq = s.bq) (h2 : s'.delayQ = s.delayQ) : Fol cfg s s'' xs :=
  (Fol.same h1 h2).trans h

theorem dispose_fol (es : List (Entry K V E)) : Fol cfg s (dispose cfg s es) (unlinks es) := by
  induction es generalizing s with
  | nil => exact .refl s
  | cons e es ih =>
    have h1 : Fol cfg s (disposeOne cfg s e) [.unlink e.id] := ⟨fun hm => by simp [disposeOne, hm, recency, follow], fun _ => rfl⟩
    exact h1.trans ih

theorem applyWalk_fol (i : Nat) (w : Walk K V E) : Fol cfg s (applyWalk cfg s i w) (unlinks w.removed) :=
  (dispose_fol (s := s.setBucket i w.kept) w.removed).from_same rfl rfl

theorem onHit_fol (i : Nat) : Fol cfg s (onHit cfg env s i) [.hit i] := by
  constructor
  · intro hm
    unfold onHit
    simp only [hm, if_true]
    split
    · rfl
    · split <;> rfl
  · intro _
    unfold onHit
    simp only
    by_cases hm : cfg.maxSize.isSome = true
    · simp only [hm, if_true]
      split
      · rfl
      · split <;> rfl
    · simp only [hm]
      split
      · rfl
      · split <;> rfl

theorem lookup_fol (k : K) (incl : Bool) : Fol cfg s (get_ cfg env s k incl).1 (lookup cfg env s k incl) := by
  have h1 := applyWalk_fol (cfg := cfg) (s := s) (s.bucketFor (cfg.hash k)) (getWalk cfg env k incl (s.bucket (s.bucketFor (cfg.hash k))))
  unfold get_ lookup
  simp only
  cases (getWalk cfg env k incl (s.bucket (s.bucketFor (cfg.hash k)))).hit with
  | none => exact h1.trans ⟨fun _ => rfl, fun _ => rfl⟩
  | some x => exact h1.trans (onHit_fol _)

theorem expire_fol (k : K) : Fol cfg s (expire_ cfg env s k) (expire cfg env s k) := applyWalk_fol _ _

theorem clear_fol : Fol cfg s (clear cfg s) (unlinks (expireAllWalk s.ents).removed) :=
  (dispose_fol (s := ({ s with tbl := s.tbl.map (fun b => (expireAllWalk b).kept) } : St K V E)) (expireAllWalk s.ents).removed).from_same rfl rfl

theorem before_fol : Fol cfg s (beforeLink cfg env s) (before cfg env s) := by
  unfold beforeLink before
  split
  · exact (dispose_fol (s := ({ s with tbl := s.tbl.map (fun b => (purgeWalk env b).kept) } : St K V E)) (purgeWalk env s.ents).removed).from_same rfl rfl
  · exact .refl s

theorem onCreate_fol (i : Nat) : Fol cfg s (onCreate cfg env s i) [.create i] := by
  constructor
  · intro hm
    unfold onCreate
    simp only [hm, if_true]
    split <;> rfl
  · intro _
    unfold onCreate
    split
    · simp only; split <;> rfl
    · rfl

theorem onAssign_fol (i : Nat) (v cb : Bool) : Fol cfg s (onAssign cfg env s i v) [.assign i v cb] := by
  constructor
  · intro _
    unfold onAssign
    simp only
    split <;> rfl
  · intro hr
    unfold onAssign
    simp only [hr, Bool.true_and]
    cases v <;> rfl

theorem link_fol (e : Entry K V E) : Fol cfg s (link cfg env s e) (linked cfg env s e) := by
  have h1 : Fol cfg s (maybeRehash cfg env s) (before cfg env s) := by
    unfold maybeRehash
    simp only
    split
    · exact before_fol.then_same rfl rfl
    · exact before_fol
  unfold link linked
  simp only
  refine h1.trans ?_
  generalize maybeRehash cfg env s = s1
  have h2 : Fol cfg s1 (onCreate cfg env ({ s1 with tbl := place cfg s1.tbl e, nextId := s1.nextId + 1 } : St K V E) e.id) [.create e.id] :=
    (onCreate_fol (s := ({ s1 with tbl := place cfg s1.tbl e, nextId := s1.nextId + 1 } : St K V E)) e.id).from_same rfl rfl
  split
  · exact h2
  · exact h2.trans (onAssign_fol _ _ _)

theorem evictAll_queues (vs : List Nat) : (evictAll cfg s vs).bq = s.bq ∧ (evictAll cfg s vs).delayQ = s.delayQ := by
  unfold evictAll
  induction vs generalizing s with
  | nil => exact ⟨rfl, rfl⟩
  | cons v vs ih => rw [List.foldl_cons]; exact ih

theorem maintenance_queues : (maintenance cfg s).bq = s.bq ∧ (maintenance cfg s).delayQ = s.delayQ := by
  unfold maintenance
  split
  · exact ⟨rfl, rfl⟩
  · exact evictAll_queues _

theorem tried_fol (e : Entry K V E) (f : Fail) : Fol cfg s (tryLink cfg env s e f).1 (tried cfg env s e f) := by
  cases f with
  | none => exact link_fol e
  | alloc => exact .refl s
  | grow =>
    simp only [tryLink, tried]
    by_cases h : mustGrow cfg (beforeLink cfg env s) = true
    · simp only [h, if_true]; exact before_fol
    · simp only [h]; exact link_fol e

theorem runCb_queues (i : Nat) (c : Cb) : (runCb s i c).bq = s.bq ∧ (runCb s i c).delayQ = s.delayQ := by cases c <;> exact ⟨rfl, rfl⟩
theorem runCbs_queues (i : Nat) (cs : List Cb) : (runCbs s i cs).bq = s.bq ∧ (runCbs s i cs).delayQ = s.delayQ := by
  unfold runCbs
  induction cs generalizing s with
  | nil => exact ⟨rfl, rfl⟩
  | cons c cs ih =>
    rw [List.foldl_cons]
    obtain ⟨h1, h2⟩ := ih (s := runCb s i c)
    obtain ⟨h3, h4⟩ := runCb_queues (s := s) i c
    exact ⟨h1.trans h3, h2.trans h4⟩

theorem complete_fol (t : Nat) (r : Res V E) : Fol cfg s (complete cfg env s t r).1 (completed s t r) := by
  unfold completed complete
  by_cases ht : t ∈ s.opens
  · simp only [ht, if_true]
    cases hd : s.destroyed with
    | true => exact .same rfl rfl
    | false =>
      simp only [Bool.false_eq_true, if_false]
      have h2 := fun cs => runCbs_queues (s := ({ s with opens := s.opens.erase t, destroyed := false } : St K V E)) t cs
      refine Fol.trans (xs := []) (.same ?_ ?_) (onAssign_fol t r.isOk true)
      · exact (h2 _).1
      · exact (h2 _).2
  · simp only [ht, if_false]; exact .refl s

theorem drop_queues (t : Nat) : (drop s t).1.bq = s.bq ∧ (drop s t).1.delayQ = s.delayQ := by
  unfold drop; split <;> exact ⟨rfl, rfl⟩

theorem resolveAsync_fol (k : K) (b : Beh V E) : Fol cfg s (Hoard.resolveAsync cfg env s k b).1 (resolveAsync cfg env s k b) := by
  have h1 := link_fol (cfg := cfg) (env := env) (s := s) (newEntry s k (.pending {}))
  have h2 := h1.then_same (s'' := ({ link cfg env s (newEntry s k (.pending {})) with opens := (link cfg env s (newEntry s k (.pending {}))).opens ++ [s.nextId] } : St K V E)) rfl rfl
  unfold resolveAsync Hoard.resolveAsync
  simp only
  cases b with
  | later => simpa using h2
  | drop =>
    have := h2.then_same (drop_queues s.nextId).1 (drop_queues s.nextId).2
    simpa using this
  | now r => exact h2.trans (complete_fol s.nextId r)

theorem refresh_fol (e : Entry K V E) (r : Res V E) (b : Beh V E) : Fol cfg s (Hoard.refresh cfg env s e r b).1 (refresh cfg env s e r b) := by
  unfold Hoard.refresh refresh
  by_cases hx : (e.refreshing || e.expired env) = true
  · rw [if_pos hx, if_pos hx]; exact .refl s
  · rw [if_neg hx, if_neg hx]
    have h1 : Fol cfg s (if cfg.resolver = .async then Hoard.resolveAsync cfg env s e.key b else Hoard.resolveSync cfg env s e.key r).1
        (if cfg.resolver = .async then resolveAsync cfg env s e.key b else resolveSync cfg env s e.key r) := by
      by_cases ha : cfg.resolver = .async
      · simp only [ha, if_true]; exact resolveAsync_fol _ _
      · simp only [ha, if_false]; exact link_fol _
    generalize (if cfg.resolver = .async then Hoard.resolveAsync cfg env s e.key b else Hoard.resolveSync cfg env s e.key r) = g at h1
    generalize (if cfg.resolver = .async then resolveAsync cfg env s e.key b else resolveSync cfg env s e.key r) = evs at h1
    obtain ⟨s1, tok⟩ := g
    simp only at h1 ⊢
    split
    · split
      · exact h1.then_same rfl rfl
      · exact h1.then_same rfl rfl
    · exact h1.then_same rfl rfl

theorem answer_queues (i u : Nat) (l : Look V E) : (answer s i u l).1.bq = s.bq ∧ (answer s i u l).1.delayQ = s.delayQ := by
  cases l <;> exact ⟨rfl, rfl⟩

theorem step_fol (o : Op K V E) : Fol cfg (popped env s o) (step cfg env s o).1 (events cfg env s o) := by
  cases o with
  | getIfExists k => exact .refl s
  | count => exact .refl s
  | get k r =>
    have h1 := lookup_fol (cfg := cfg) (env := env) (s := s) k false
    show Fol cfg s (get cfg env s k r).1 _
    simp only [events]
    by_cases hm : cfg.resolver = .sync ∧ (getWalk cfg env k false (s.bucket (s.bucketFor (cfg.hash k)))).hit.isNone = true
    · rw [if_pos hm]
      have hl := hit_none_iff.1 hm.2
      have : (get cfg env s k r).1 = (Hoard.resolveSync cfg env (get_ cfg env s k false).1 k r).1 := by
        simp only [get]
        rw [hl, hm.1]
      rw [this]
      exact h1.trans (link_fol _)
    · rw [if_neg hm, List.append_nil]
      have : (get cfg env s k r).1 = (get_ cfg env s k false).1 := by
        have hm' : ¬ (cfg.resolver = .sync ∧ (get_ cfg env s k false).2 = .none) := fun h => hm ⟨h.1, hit_none_iff.2 h.2⟩
        simp only [get]
        revert hm'
        cases cfg.resolver <;> cases (get_ cfg env s k false).2 <;> simp
      rw [this]; exact h1
  | asyncGet k u b =>
    have h1 := lookup_fol (cfg := cfg) (env := env) (s := s) k true
    show Fol cfg s (asyncGet cfg env s k u b).1 _
    simp only [events, asyncGet]
    cases hh : (getWalk cfg env k true (s.bucket (s.bucketFor (cfg.hash k)))).hit with
    | some x =>
      obtain ⟨i, l⟩ := x
      have := h1.then_same (answer_queues i u l).1 (answer_queues i u l).2
      simpa using this
    | none => exact (h1.trans (resolveAsync_fol k b)).then_same (answer_queues _ u _).1 (answer_queues _ u _).2
  | emplace k v f =>
    have h1 := expire_fol (cfg := cfg) (env := env) (s := s) k
    have h2 := h1.trans (tried_fol (env := env) (newEntry (expire_ cfg env s k) k (.value v)) f)
    show Fol cfg s (emplace cfg env s k v f).1 _
    simp only [events, emplace]
    split
    · exact h2.then_same maintenance_queues.1 maintenance_queues.2
    · exact h2
  | getOrEmplace k v f =>
    have h1 := lookup_fol (cfg := cfg) (env := env) (s := s) k true
    show Fol cfg s (getOrEmplace cfg env s k v f).1 _
    simp only [events, getOrEmplace]
    by_cases hm : (getWalk cfg env k true (s.bucket (s.bucketFor (cfg.hash k)))).hit.isNone = true
    · rw [if_pos hm, hit_none_iff.1 hm]
      simp only
      have h2 := h1.trans (tried_fol (env := env) (newEntry (get_ cfg env s k true).1 k (.value v)) f)
      split
      · exact h2.then_same maintenance_queues.1 maintenance_queues.2
      · exact h2
    · rw [if_neg hm, List.append_nil]
      have hl : (get_ cfg env s k true).2 ≠ .none := fun h => hm (hit_none_iff.2 h)
      have h2 := h1.then_same (maintenance_queues (cfg := cfg)).1 maintenance_queues.2
      cases hx : (get_ cfg env s k true).2 with
      | none => exact absurd hx hl
      | _ => exact h2
  | erase k => exact expire_fol k
  | clear => exact clear_fol
  | complete t r => exact complete_fol t r
  | drop t => exact .same (drop_queues t).1 (drop_queues t).2
  | tick r b =>
    show Fol cfg _ (tick cfg env s r b).1 _
    simp only [events, tick, popped]
    cases hq : s.delayQ with
    | nil => exact .refl s
    | cons i q =>
      simp only
      cases s.find i with
      | none => exact .refl s
      | some e =>
        simp only
        split
        · exact refresh_fol e r b
        · exact .refl s
  | destroy =>
    have h1 := dispose_fol (cfg := cfg) (s := ({ s with tbl := s.tbl.map (fun _ => []) } : St K V E)) s.ents
    show Fol cfg s (destroy cfg s).1 (unlinks s.ents)
    refine Fol.from_same (s' := ({ s with tbl := s.tbl.map (fun _ => []) } : St K V E)) ?_ rfl rfl
    exact h1.then_same rfl rfl

/-- Taking an entry off the refresh queue leaves the recency queue alone. -/
theorem popped_bq (o : Op K V E) : (popped env s o).bq = s.bq := by
  cases o <;> simp only [popped]
  split
  · rfl
  · split
    · rfl
    · split <;> rfl

end Hoard.Events
