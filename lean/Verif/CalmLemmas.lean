import Verif.WorkerInv
/-! Helper lemmas about caches from which nothing is ever removed: entries of the delay queue stay linked. -/
namespace Hoard
open Spec
variable {K V E : Type} {cfg : Cfg K} {env : Env V} {s s' s'' : St K V E}

/-- The configuration: values do not die of age, size or idleness. -/
structure Unlimited (cfg : Cfg K) (d : Int) : Prop where
  age : cfg.maxAge = none
  size : cfg.maxSize = none
  refr : cfg.refresh = some (d, 0)

/-- Nothing will ever be queued or assigned under this number. -/
def Free (op dq : List Nat) (n old : Nat) : Prop := old < n ∧ old ∉ dq ∧ old ∉ op

/-- What is known of an entry, linked or not. -/
structure LE (op dq : List Nat) (n : Nat) (e : Entry K V E) : Prop where
  can : e.canTp = none
  cb : ∀ old, .refresh old ∈ e.mapped.cbs → Free op dq n old

/-- What is known of a linked entry. -/
structure CE (op dq : List Nat) (n : Nat) (e : Entry K V E) : Prop extends LE op dq n e where
  opn : e.id ∈ op → ∃ p, e.mapped = .pending p ∧ p.expired = false ∧ p.weakened = false
  pnd : e.isPending = true → e.expTp = none ∧ e.id ∉ dq
  que : e.id ∈ dq → (∃ v, e.mapped = .value v) ∧ e.expTp = none

/-- The whole cache. -/
structure Calm (s : St K V E) : Prop where
  ent : ∀ e ∈ s.ents, CE s.opens s.delayQ s.nextId e
  lim : ∀ e ∈ s.limbo, LE s.opens s.delayQ s.nextId e
  ops : ∀ t ∈ s.opens, t < s.nextId

theorem calm_init : Calm (St.init : St K V E) := by constructor <;> simp [St.init, St.ents]

variable {op op' dq dq' : List Nat} {n n' : Nat} {e : Entry K V E}

theorem Free.mono {old : Nat} (h : Free op dq n old) (ho : ∀ t ∈ op', t ∈ op ∨ n ≤ t) (hq : ∀ t ∈ dq', t ∈ dq ∨ n ≤ t ∨ t ∈ op) (hn : n ≤ n') : Free op' dq' n' old := by
  obtain ⟨h1, h2, h3⟩ := h
  refine ⟨by omega, fun hh => ?_, fun hh => ?_⟩
  · rcases hq _ hh with h | h | h
    · exact h2 h
    · omega
    · exact h3 h
  · rcases ho _ hh with h | h
    · exact h3 h
    · omega

theorem LE.mono (h : LE op dq n e) (ho : ∀ t ∈ op', t ∈ op ∨ n ≤ t) (hq : ∀ t ∈ dq', t ∈ dq ∨ n ≤ t ∨ t ∈ op) (hn : n ≤ n') : LE op' dq' n' e :=
  ⟨h.can, fun old ho' => (h.cb old ho').mono ho hq hn⟩

theorem CE.mono (h : CE op dq n e) (ho : ∀ t ∈ op', t ∈ op) (hq : ∀ t ∈ dq', t ∈ dq) (hn : n ≤ n') : CE op' dq' n' e :=
  ⟨h.toLE.mono (fun t ht => .inl (ho t ht)) (fun t ht => .inl (hq t ht)) hn, fun hh => h.opn (ho _ hh), fun hh => ⟨(h.pnd hh).1, fun hx => (h.pnd hh).2 (hq _ hx)⟩,
   fun hh => h.que (hq _ hh)⟩

theorem LE.cancel (h : LE op dq n e) : LE op dq n (e.upd .cancel) := by
  refine ⟨h.can, fun old ho => ?_⟩
  unfold Entry.upd at ho
  cases hm : e.mapped <;> simp [hm, Mapped.cancel, Mapped.cbs] at ho

theorem Calm.removal (h : Calm s) {t' : List (List (Entry K V E))} {rem : List (Entry K V E)} (h1 : ∀ e ∈ t'.flatten, e ∈ s.ents) (h2 : ∀ e ∈ rem, e ∈ s.ents) :
    Calm (dispose cfg { s with tbl := t' } rem) := by
  obtain ⟨f1, f2, f3, f4, f5, f6, f7⟩ := dispose_fields cfg rem { s with tbl := t' }
  have hdq : ∀ t ∈ (dispose cfg { s with tbl := t' } rem).delayQ, t ∈ s.delayQ := by
    rw [f6]; exact fun t ht => (foldl_erase_sublist _ _).subset ht
  refine ⟨?_, ?_, ?_⟩
  · intro e he
    rw [St.ents, f1] at he
    rw [f3, f4]
    exact (h.ent e (h1 e he)).mono (fun _ h => h) hdq (Nat.le_refl _)
  · intro e he
    rw [f2] at he
    rw [f3, f4]
    refine LE.mono (op := s.opens) (dq := s.delayQ) ?_ (fun _ h => .inl h) (fun t ht => .inl (hdq t ht)) (Nat.le_refl _)
    rcases List.mem_append.1 he with he | he
    · exact h.lim e he
    · obtain ⟨x, hx, rfl⟩ := List.mem_map.1 he
      exact (h.ent x (h2 x hx)).toLE.cancel
  · rw [f3, f4]; exact h.ops

theorem walked_calm (h : Calm s) (k : K) (incl : Bool) : Calm (walked cfg env s k incl) := by
  have h1 := getWalk_perm cfg env k incl (s.bucket (s.bucketFor (cfg.hash k)))
  obtain ⟨oth, h2, h3, _⟩ := applyWalk_perm (cfg := cfg) (g := id) h1 (by simp)
  unfold walked applyWalk
  refine h.removal (t' := s.tbl.set _ _) (fun e he => ?_) (fun e he => h2.mem_iff.2 (List.mem_append_right _ he))
  have := walked_drops (cfg := cfg) s env k incl
  refine this.mem ?_
  unfold walked applyWalk
  rw [dispose_ents]; exact he

theorem beforeLink_calm (h : Calm s) : Calm (beforeLink cfg env s) := by
  unfold beforeLink; split
  · unfold purge
    refine h.removal (fun e he => ?_) (fun e he => ?_)
    · have := purge_drops cfg env s
      refine this.mem ?_
      unfold purge
      rw [dispose_ents]; exact he
    · exact (List.mem_filter.1 he).1
  · exact h

theorem Calm.perm (h : Calm s) (hp : s'.ents.Perm s.ents) (hl : s'.limbo = s.limbo) (hq : s'.delayQ = s.delayQ) (ho : s'.opens = s.opens) (hn : s'.nextId = s.nextId) : Calm s' := by
  refine ⟨?_, ?_, ?_⟩
  · intro e he; rw [hq, ho, hn]; exact h.ent e (hp.mem_iff.1 he)
  · intro e he; rw [hq, ho, hn]; exact h.lim e (hl ▸ he)
  · rw [ho, hn]; exact h.ops

theorem maybeRehash_calm (h : Calm s) : Calm (maybeRehash cfg env s) := by
  have hb := beforeLink_calm (cfg := cfg) (env := env) h
  unfold maybeRehash; simp only; split
  · rename_i hg
    exact hb.perm (rehash_perm _ _ (grown_pos hg)) rfl rfl rfl rfl
  · exact hb

/-- Changing the object `i`. -/
theorem Calm.modify (h : Calm s) (i : Nat) {f : Entry K V E → Entry K V E}
    (h1 : ∀ e ∈ s.ents, e.id = i → CE s.opens s.delayQ s.nextId (f e)) (h2 : ∀ e ∈ s.limbo, e.id = i → LE s.opens s.delayQ s.nextId (f e)) : Calm (s.modify i f) := by
  refine ⟨?_, ?_, h.ops⟩
  · intro e he
    rw [ents_modify] at he
    obtain ⟨x, hx, rfl⟩ := List.mem_map.1 he
    unfold atId; split
    · exact h1 x hx ‹_›
    · exact h.ent x hx
  · intro e he
    rw [limbo_modify] at he
    obtain ⟨x, hx, rfl⟩ := List.mem_map.1 he
    unfold atId; split
    · exact h2 x hx ‹_›
    · exact h.lim x hx

theorem Unlimited.onHit {d : Int} (hl : Unlimited cfg d) (i : Nat) : onHit cfg env s i = s := by
  unfold Hoard.onHit; simp [hl.size, hl.refr]

theorem Unlimited.onCreate {d : Int} (hl : Unlimited cfg d) (i : Nat) : onCreate cfg env s i = s := by
  unfold Hoard.onCreate; simp [hl.size]

theorem Unlimited.maintenance {d : Int} (hl : Unlimited cfg d) : maintenance cfg s = s := by
  unfold Hoard.maintenance; simp [hl.size]

theorem get__calm {d : Int} (hl : Unlimited cfg d) (h : Calm s) (k : K) (incl : Bool) : Calm (get_ cfg env s k incl).1 := by
  have hw := walked_calm (cfg := cfg) (env := env) h k incl
  unfold get_; simp only
  split
  · exact hw
  · rw [hl.onHit]; exact hw

/-- `on_assign_` of the entry `i`, whose number is used for nothing else. -/
theorem onAssign_calm {d : Int} (hl : Unlimited cfg d) (h : Calm s) (i : Nat) (b : Bool) (hi : i < s.nextId) (hio : i ∉ s.opens)
    (hcb : ∀ e ∈ s.ents ++ s.limbo, .refresh i ∉ e.mapped.cbs)
    (hnp : ∀ e ∈ s.ents, e.id = i → e.isPending = false)
    (hv : b = true → ∀ e ∈ s.ents, e.id = i → (∃ v, e.mapped = .value v) ∧ e.expTp = none) (hq : b = false → i ∉ s.delayQ) : Calm (onAssign cfg env s i b) := by
  cases b with
  | false =>
    unfold onAssign; simp only [Bool.and_false]
    refine h.modify i (fun e he hei => ?_) (fun e he hei => ?_)
    · have c := h.ent e he
      have ha : assignTimes cfg env false e = { e with expTp := ageTp cfg env false e.expTp } := by simp [assignTimes, hl.refr]
      rw [ha]
      exact ⟨⟨c.can, c.cb⟩, c.opn, fun hp => (by have := hnp e he hei; unfold Entry.isPending at this hp; simp only at hp; rw [this] at hp; cases hp),
        fun hh => absurd (hei ▸ hh) (hq rfl)⟩
    · have c := h.lim e he
      have ha : assignTimes cfg env false e = { e with expTp := ageTp cfg env false e.expTp } := by simp [assignTimes, hl.refr]
      rw [ha]
      exact ⟨c.can, c.cb⟩
  | true =>
    have hF : ∀ old, (∃ e ∈ s.ents ++ s.limbo, .refresh old ∈ e.mapped.cbs) → Free s.opens s.delayQ s.nextId old → Free s.opens (s.delayQ ++ [i]) s.nextId old := by
      intro old ⟨e, he, ho⟩ hf
      refine ⟨hf.1, fun hh => ?_, hf.2.2⟩
      rcases List.mem_append.1 hh with hh | hh
      · exact hf.2.1 hh
      · rw [List.mem_singleton] at hh; subst hh; exact hcb e he ho
    have ha : ∀ e : Entry K V E, assignTimes cfg env true e = { e with refTp := some (env.now + d) } := by
      intro e; simp [assignTimes, hl.refr, ageTp, hl.age]
    have hd : (onAssign cfg env s i true).delayQ = s.delayQ ++ [i] := by unfold onAssign; simp [hl.refr, St.modify]
    refine ⟨?_, ?_, ?_⟩
    · intro e he
      rw [onAssign_ents] at he
      obtain ⟨x, hx, rfl⟩ := List.mem_map.1 he
      rw [hd, onAssign_opens, onAssign_nextId]
      have c := h.ent x hx
      have hcb' := fun old ho => hF old ⟨x, List.mem_append_left _ hx, ho⟩ (c.cb old ho)
      unfold atId; split
      · rename_i hxi
        rw [ha]
        refine ⟨⟨c.can, hcb'⟩, fun hh => absurd (hxi ▸ hh) hio, fun hp => ?_, fun _ => hv rfl x hx hxi⟩
        have := hnp x hx hxi
        unfold Entry.isPending at this hp; simp only at hp; rw [this] at hp; cases hp
      · rename_i hxi
        refine ⟨⟨c.can, hcb'⟩, c.opn, fun hp => ⟨(c.pnd hp).1, fun hh => ?_⟩, fun hh => ?_⟩
        · rcases List.mem_append.1 hh with hh | hh
          · exact (c.pnd hp).2 hh
          · rw [List.mem_singleton] at hh; exact hxi hh
        · rcases List.mem_append.1 hh with hh | hh
          · exact c.que hh
          · rw [List.mem_singleton] at hh; exact absurd hh hxi
    · intro e he
      have hlm : (onAssign cfg env s i true).limbo = s.limbo.map (atId i (assignTimes cfg env true)) := by unfold onAssign; simp only; split <;> rfl
      rw [hlm] at he
      obtain ⟨x, hx, rfl⟩ := List.mem_map.1 he
      rw [hd, onAssign_opens, onAssign_nextId]
      have c := h.lim x hx
      have hcb' := fun old ho => hF old ⟨x, List.mem_append_right _ hx, ho⟩ (c.cb old ho)
      unfold atId; split
      · rw [ha]; exact ⟨c.can, hcb'⟩
      · exact ⟨c.can, hcb'⟩
    · rw [onAssign_opens, onAssign_nextId]; exact h.ops

/-- The numbers used so far. -/
theorem Calm.cb_lt (h : Calm s) {i : Nat} (hi : s.nextId ≤ i) : ∀ e ∈ s.ents ++ s.limbo, .refresh i ∉ e.mapped.cbs := by
  intro e he hh
  rcases List.mem_append.1 he with he | he
  · have := ((h.ent e he).cb i hh).1; omega
  · have := ((h.lim e he).cb i hh).1; omega

/-- A new entry is linked: a value, an error, or a pending lookup. -/
theorem link_calm {d : Int} (hl : Unlimited cfg d) (w : WF1 cfg s) (h : Calm s) (k : K) (m : Mapped V E)
    (hm : (∃ v, m = .value v) ∨ (∃ x, m = .error x) ∨ m = .pending {}) : Calm (link cfg env s (newEntry s k m)) := by
  have h1 := maybeRehash_calm (cfg := cfg) (env := env) h
  have w1 := maybeRehash_wf1 w env
  have hne := maybeRehash_ne (cfg := cfg) env s
  have hn : (maybeRehash cfg env s).nextId = s.nextId := by simp
  unfold link; simp only
  generalize maybeRehash cfg env s = s1 at *
  have hnq : ∀ t ∈ s1.delayQ, t < s1.nextId := by
    intro t ht
    obtain ⟨e, he, rfl⟩ := List.mem_map.1 (w1.dqM t ht)
    exact w1.lt e (List.mem_append_left _ he)
  have hp : St.ents { s1 with tbl := place cfg s1.tbl (newEntry s k m), nextId := s1.nextId + 1 } |>.Perm (s1.ents ++ [newEntry s k m]) :=
    Buckets.perm_place (fun e : Entry K V E => cfg.hash e.key) hne (newEntry s k m)
  have h2 : Calm { s1 with tbl := place cfg s1.tbl (newEntry s k m), nextId := s1.nextId + 1 } := by
    refine ⟨?_, ?_, fun t ht => Nat.lt_succ_of_lt (h1.ops t ht)⟩
    · intro e he
      rcases List.mem_append.1 (hp.mem_iff.1 he) with he | he
      · exact (h1.ent e he).mono (fun _ h => h) (fun _ h => h) (Nat.le_succ _)
      · rw [List.mem_singleton] at he; subst he
        refine ⟨⟨rfl, fun old ho => ?_⟩, fun hh => ?_, fun _ => ⟨rfl, fun hh => ?_⟩, fun hh => ?_⟩
        · rcases hm with ⟨v, rfl⟩ | ⟨x, rfl⟩ | rfl <;> simp [newEntry, Mapped.cbs] at ho
        · have := h1.ops _ hh; simp only [newEntry] at this; omega
        · have := hnq _ hh; simp only [newEntry] at this; omega
        · have := hnq _ hh; simp only [newEntry] at this; omega
    · intro e he
      exact (h1.lim e he).mono (fun _ h => .inl h) (fun _ h => .inl h) (Nat.le_succ _)
  rw [hl.onCreate]
  split
  · exact h2
  · rename_i hpe
    have hent : ∀ e ∈ St.ents { s1 with tbl := place cfg s1.tbl (newEntry s k m), nextId := s1.nextId + 1 }, e.id = (newEntry s k m).id → e = newEntry s k m := by
      intro e he hid
      rcases List.mem_append.1 (hp.mem_iff.1 he) with he | he
      · have := w1.lt e (List.mem_append_left _ he); simp only [newEntry] at hid; omega
      · exact List.mem_singleton.1 he
    refine onAssign_calm hl h2 _ _ ?_ ?_ ?_ ?_ ?_ ?_
    · simp only [newEntry]; omega
    · intro hh; have := h1.ops _ hh; simp only [newEntry] at this; omega
    · intro e he hh
      have hlt : s.nextId < s1.nextId + 1 := by omega
      rcases List.mem_append.1 he with he | he
      · rcases List.mem_append.1 (hp.mem_iff.1 he) with he | he
        · have := ((h1.ent e he).cb _ hh).1; simp only [newEntry] at this; omega
        · rw [List.mem_singleton] at he; subst he
          rcases hm with ⟨v, rfl⟩ | ⟨x, rfl⟩ | rfl <;> simp [newEntry, Mapped.cbs] at hh
      · have := ((h1.lim e he).cb _ hh).1; simp only [newEntry] at this; omega
    · intro e he hid; rw [hent e he hid]; simpa using hpe
    · intro hb e he hid
      rw [hent e he hid]
      refine ⟨?_, rfl⟩
      rcases hm with ⟨v, rfl⟩ | ⟨x, rfl⟩ | rfl
      · exact ⟨v, rfl⟩
      · simp [newEntry, Mapped.holdsValue] at hb
      · simp [newEntry, Mapped.holdsValue] at hb
    · intro _ hh; have := hnq _ hh; simp only [newEntry] at this; omega

theorem tryLink_calm {d : Int} (hl : Unlimited cfg d) (w : WF1 cfg s) (h : Calm s) (k : K) (v : V) (f : Fail) :
    Calm (tryLink cfg env s (newEntry s k (.value v)) f).1 := by
  rcases tryLink_cases cfg env s (newEntry s k (.value v)) f with h1 | h1 | h1 <;> rw [h1]
  · exact link_calm hl w h k _ (.inl ⟨v, rfl⟩)
  · exact h
  · exact beforeLink_calm h

/-- The callback of a refresh runs: its old entry is not in the delay queue. -/
theorem runCb_calm (h : Calm s) (i : Nat) (cb : Cb) (hf : ∀ old, cb = .refresh old → Free s.opens s.delayQ s.nextId old) : Calm (runCb s i cb) := by
  cases cb with
  | user w => exact h
  | refresh old =>
    have hF := hf old rfl
    simp only [runCb]
    have htp : (match s.findAny old with | some o => o.canTp | none => none) = none := by
      cases hfa : s.findAny old with
      | none => rfl
      | some o =>
        have := List.mem_of_find?_eq_some hfa
        rcases List.mem_append.1 this with hh | hh
        · exact (h.ent o hh).can
        · exact (h.lim o hh).can
    have hmin : ∀ x : Option Int, x = none → tpMin x (match s.findAny old with | some o => o.canTp | none => none) = none := by
      intro x hx; rw [htp, hx]; rfl
    have h1 : Calm (s.modify i (fun e => { e with canTp := tpMin e.canTp (match s.findAny old with | some o => o.canTp | none => none) })) := by
      refine h.modify i (fun e he _ => ?_) (fun e he _ => ?_)
      · have c := h.ent e he
        exact ⟨⟨hmin _ c.can, c.cb⟩, c.opn, c.pnd, c.que⟩
      · have c := h.lim e he
        exact ⟨hmin _ c.can, c.cb⟩
    refine h1.modify old (fun e he hid => ?_) (fun e he _ => ?_)
    · have c := h1.ent e he
      have hF' : Free _ _ _ old := hF
      refine ⟨⟨c.can, fun o ho => ?_⟩, fun hh => ?_, fun hp => ?_, fun hh => ?_⟩
      · refine c.cb o ?_
        unfold Entry.upd at ho
        cases hm : e.mapped <;> simp [hm, Mapped.markExpired, Mapped.cbs] at ho ⊢
        exact ho
      · exact absurd (hid ▸ hh) hF'.2.2
      · refine ⟨?_, fun hh => hF'.2.1 (hid ▸ hh)⟩
        have : e.isPending = true := by
          unfold Entry.isPending Entry.upd at hp
          unfold Entry.isPending
          cases hm : e.mapped <;> simp [hm, Mapped.markExpired, Mapped.isPending] at hp ⊢
        exact (c.pnd this).1
      · exact absurd (hid ▸ hh) hF'.2.1
    · have c := h1.lim e he
      refine ⟨c.can, fun o ho => c.cb o ?_⟩
      unfold Entry.upd at ho
      cases hm : e.mapped <;> simp [hm, Mapped.markExpired, Mapped.cbs] at ho ⊢
      exact ho

@[simp] theorem runCb_delayQ (i : Nat) (cb : Cb) : (runCb s i cb).delayQ = s.delayQ := by cases cb <;> rfl

theorem runCbs_calm (i : Nat) (cbs : List Cb) (h : Calm s) (hf : ∀ old, .refresh old ∈ cbs → Free s.opens s.delayQ s.nextId old) :
    Calm (runCbs s i cbs) ∧ (runCbs s i cbs).delayQ = s.delayQ := by
  unfold runCbs
  induction cbs generalizing s with
  | nil => exact ⟨h, rfl⟩
  | cons c cbs ih =>
    rw [List.foldl_cons]
    have := ih (runCb_calm h i c (fun old ho => hf old (by rw [ho]; simp))) (by
      intro old ho
      rw [runCb_opens, runCb_delayQ, runCb_nextId]
      exact hf old (List.mem_cons_of_mem _ ho))
    exact ⟨this.1, this.2.trans (runCb_delayQ i c)⟩

/-- How a callback run changes the entry with the open number `i`: only the deadline. -/
theorem runCbs_mapped (i : Nat) (cbs : List Cb) (hf : ∀ old, .refresh old ∈ cbs → old ≠ i) :
    ∀ e ∈ (runCbs s i cbs).ents, e.id = i → ∃ e0 ∈ s.ents, e0.id = i ∧ e0.mapped = e.mapped ∧ e0.expTp = e.expTp := by
  unfold runCbs
  induction cbs generalizing s with
  | nil => exact fun e he hi => ⟨e, he, hi, rfl, rfl⟩
  | cons c cbs ih =>
    rw [List.foldl_cons]
    intro e he hi
    obtain ⟨e1, h1, h2, h3, h4⟩ := ih (fun old ho => hf old (List.mem_cons_of_mem _ ho)) e he hi
    cases c with
    | user w => exact ⟨e1, h1, h2, h3, h4⟩
    | refresh old =>
      have hne := hf old (by simp)
      simp only [runCb, ents_modify] at h1
      obtain ⟨e2, h5, rfl⟩ := List.mem_map.1 h1
      obtain ⟨e3, h6, rfl⟩ := List.mem_map.1 h5
      refine ⟨e3, h6, ?_, ?_, ?_⟩
      all_goals
        by_cases ha : e3.id = i <;> by_cases hb : e3.id = old <;> simp_all [atId, Entry.upd]

theorem complete_calm {d : Int} (hl : Unlimited cfg d) (hon : s.opens.Nodup) (h : Calm s) (hd : s.destroyed = false) (tok : Nat) (htq : tok ∈ s.opens → tok ∉ s.delayQ) (r : Res V E) :
    Calm (complete cfg env s tok r).1 := by
  unfold complete; simp only
  split
  · rename_i ht
    rw [if_neg (by simp [hd])]
    simp only
    have h0 : Calm { s with opens := s.opens.erase tok } :=
      ⟨fun e he => (h.ent e he).mono (fun _ h => List.mem_of_mem_erase h) (fun _ h => h) (Nat.le_refl _),
       fun e he => (h.lim e he).mono (fun _ h => .inl (List.mem_of_mem_erase h)) (fun _ h => .inl h) (Nat.le_refl _),
       fun t hh => h.ops t (List.mem_of_mem_erase hh)⟩
    -- callbacks of any object are free, also with respect to `tok`
    have hcb : ∀ e ∈ s.ents ++ s.limbo, ∀ old, .refresh old ∈ e.mapped.cbs → Free s.opens s.delayQ s.nextId old := by
      intro e he
      rcases List.mem_append.1 he with he | he
      · exact (h.ent e he).cb
      · exact (h.lim e he).cb
    have hcbs : ∀ old, .refresh old ∈ ((({ s with opens := s.opens.erase tok } : St K V E).findAny tok).map (·.mapped.cbs)).getD [] → Free s.opens s.delayQ s.nextId old := by
      intro old ho
      cases hfa : ({ s with opens := s.opens.erase tok } : St K V E).findAny tok with
      | none => rw [hfa] at ho; simp at ho
      | some x =>
        rw [hfa] at ho
        exact hcb x (List.mem_of_find?_eq_some hfa) old (by simpa using ho)
    have hto : tok ∉ s.opens.erase tok := fun hh => by
      have := (List.Nodup.mem_erase_iff hon).1 hh
      exact this.1 rfl
    generalize ((({ s with opens := s.opens.erase tok } : St K V E).findAny tok).map (·.mapped.cbs)).getD [] = cbs at hcbs
    have hc1 := runCbs_calm tok cbs h0 (fun old ho => (hcbs old ho).mono (fun _ h => .inl (List.mem_of_mem_erase h)) (fun _ h => .inl h) (Nat.le_refl _))
    have hmp := runCbs_mapped (s := { s with opens := s.opens.erase tok }) tok cbs (fun old ho hh => (hcbs old ho).2.2 (hh ▸ ht))
    have hop1 : (runCbs { s with opens := s.opens.erase tok } tok cbs).opens = s.opens.erase tok := by simp
    have hnx1 : (runCbs { s with opens := s.opens.erase tok } tok cbs).nextId = s.nextId := by simp
    -- callbacks after the run are still free of `tok`
    have hcb1 : ∀ e ∈ (runCbs { s with opens := s.opens.erase tok } tok cbs).ents ++ (runCbs { s with opens := s.opens.erase tok } tok cbs).limbo,
        ∀ old, .refresh old ∈ e.mapped.cbs → old ≠ tok := by
      have gen : ∀ (cbs : List Cb) (x : St K V E), (∀ e ∈ x.ents ++ x.limbo, ∀ old, .refresh old ∈ e.mapped.cbs → old ≠ tok) →
          ∀ e ∈ (runCbs x tok cbs).ents ++ (runCbs x tok cbs).limbo, ∀ old, .refresh old ∈ e.mapped.cbs → old ≠ tok := by
        intro cbs
        unfold runCbs
        induction cbs with
        | nil => exact fun x h => h
        | cons c cbs ih =>
          intro x hx
          rw [List.foldl_cons]
          refine ih _ ?_
          cases c with
          | user w => exact hx
          | refresh o2 =>
            have hstep : ∀ (y : St K V E) (i : Nat) (f : Entry K V E → Entry K V E), (∀ e old, .refresh old ∈ (f e).mapped.cbs → .refresh old ∈ e.mapped.cbs) →
                (∀ e ∈ y.ents ++ y.limbo, ∀ old, .refresh old ∈ e.mapped.cbs → old ≠ tok) →
                ∀ e ∈ (y.modify i f).ents ++ (y.modify i f).limbo, ∀ old, .refresh old ∈ e.mapped.cbs → old ≠ tok := by
              intro y i f hf hy e he
              rw [ents_modify, limbo_modify, ← List.map_append] at he
              obtain ⟨z, hz, rfl⟩ := List.mem_map.1 he
              unfold atId; split
              · exact fun old ho => hy z hz old (hf z old ho)
              · exact hy z hz
            simp only [runCb]
            refine hstep _ _ _ ?_ (hstep _ _ _ (fun _ _ h => h) hx)
            intro e old ho
            unfold Entry.upd at ho
            cases hm : e.mapped <;> simp [hm, Mapped.markExpired, Mapped.cbs] at ho ⊢
            exact ho
      exact gen cbs { s with opens := s.opens.erase tok } (fun e he old ho hh => (hcb e he old ho).2.2 (hh ▸ ht))
    obtain ⟨hc2, hdq⟩ := hc1
    generalize runCbs { s with opens := s.opens.erase tok } tok cbs = s1 at *
    have hdq : s1.delayQ = s.delayQ := hdq
    replace htq := htq ht
    have hup : ∀ (x : Entry K V E) old, .refresh old ∈ (x.upd (completed cfg r)).mapped.cbs → .refresh old ∈ x.mapped.cbs := by
      intro x old ho
      unfold Entry.upd completed at ho
      cases hm : x.mapped <;> simp only [hm] at ho
      · cases r <;> simp only [Mapped.assigned, Mapped.assignedError] at ho
        · repeat' split at ho
          all_goals simp [Mapped.cbs] at ho
        · split at ho <;> simp [Mapped.cbs] at ho
      all_goals exact ho
    -- the entry `tok`
    have hpe : ∀ x ∈ s1.ents, x.id = tok → (∃ p, x.mapped = .pending p ∧ p.expired = false ∧ p.weakened = false) ∧ x.expTp = none := by
      intro x hx hxi
      obtain ⟨e0, g1, g2, g3, g4⟩ := hmp x hx hxi
      have c := h.ent e0 g1
      obtain ⟨p, hp, hp1, hp2⟩ := c.opn (g2 ▸ ht)
      refine ⟨⟨p, by rw [← g3]; exact hp, hp1, hp2⟩, ?_⟩
      rw [← g4]; exact (c.pnd (by unfold Entry.isPending; rw [hp]; rfl)).1
    have h2 : Calm (s1.modify tok (·.upd (completed cfg r))) := by
      refine hc2.modify tok (fun x hx hxi => ?_) (fun x hx _ => ?_)
      · have c := hc2.ent x hx
        obtain ⟨⟨p, hp, hp1, hp2⟩, hpt⟩ := hpe x hx hxi
        refine ⟨⟨c.can, fun old ho => c.cb old (hup x old ho)⟩, fun hh => absurd (show tok ∈ s1.opens from hxi ▸ hh) (by rw [hop1]; exact hto), fun hh => ?_, fun hh => ?_⟩
        · exact ⟨hpt, fun hq => htq (by rw [← hdq]; exact hxi ▸ hq)⟩
        · exact absurd (show tok ∈ s1.delayQ from hxi ▸ hh) (by rw [hdq]; exact htq)
      · have c := hc2.lim x hx
        exact ⟨c.can, fun old ho => c.cb old (hup x old ho)⟩
    have hmem : ∀ y ∈ (s1.modify tok (·.upd (completed cfg r))).ents, y.id = tok → ∃ x ∈ s1.ents, x.id = tok ∧ y = x.upd (completed cfg r) := by
      intro y hy hyi
      rw [ents_modify] at hy
      obtain ⟨x, hx, rfl⟩ := List.mem_map.1 hy
      by_cases hxi : x.id = tok
      · exact ⟨x, hx, hxi, by simp [atId, hxi]⟩
      · simp [atId, hxi] at hyi
    refine onAssign_calm hl h2 tok _ ?_ ?_ ?_ ?_ ?_ ?_
    · rw [modify_nextId, hnx1]; exact h.ops tok ht
    · show tok ∉ s1.opens; rw [hop1]; exact hto
    · intro y hy hh
      rw [ents_modify, limbo_modify, ← List.map_append] at hy
      obtain ⟨x, hx, rfl⟩ := List.mem_map.1 hy
      refine hcb1 x hx tok ?_ rfl
      unfold atId at hh; split at hh
      · exact hup x tok hh
      · exact hh
    · intro y hy hyi
      obtain ⟨x, hx, hxi, rfl⟩ := hmem y hy hyi
      obtain ⟨⟨p, hp, hp1, hp2⟩, _⟩ := hpe x hx hxi
      unfold Entry.isPending Entry.upd completed
      rw [hp]
      cases r <;> simp [Mapped.assigned, Mapped.assignedError, hp1, hp2, Mapped.isPending]
    · intro hb y hy hyi
      obtain ⟨x, hx, hxi, rfl⟩ := hmem y hy hyi
      obtain ⟨⟨p, hp, hp1, hp2⟩, hpt⟩ := hpe x hx hxi
      refine ⟨?_, hpt⟩
      cases r with
      | err x => simp [Res.isOk] at hb
      | ok v => exact ⟨v, by simp [Entry.upd, completed, hp, Mapped.assigned, hp1, hp2]⟩
    · intro _; show tok ∉ s1.delayQ; rw [hdq]; exact htq
  · exact h

theorem drop_calm (h : Calm s) (hon : s.opens.Nodup) (tok : Nat) : Calm (drop s tok).1 := by
  unfold drop; simp only
  split
  · rename_i ht
    have h0 : Calm { s with opens := s.opens.erase tok } :=
      ⟨fun e he => (h.ent e he).mono (fun _ h => List.mem_of_mem_erase h) (fun _ h => h) (Nat.le_refl _),
       fun e he => (h.lim e he).mono (fun _ h => .inl (List.mem_of_mem_erase h)) (fun _ h => .inl h) (Nat.le_refl _),
       fun t hh => h.ops t (List.mem_of_mem_erase hh)⟩
    have hto : tok ∉ s.opens.erase tok := fun hh => by
      have := (List.Nodup.mem_erase_iff hon).1 hh
      exact this.1 rfl
    refine h0.modify tok (fun x hx hxi => ?_) (fun x hx _ => (h0.lim x hx).cancel)
    have c := h0.ent x hx
    have hpp : (x.upd .cancel).isPending = x.isPending := by
      unfold Entry.isPending Entry.upd; cases x.mapped <;> rfl
    refine ⟨c.toLE.cancel, fun hh => absurd (show tok ∈ s.opens.erase tok from hxi ▸ hh) hto, fun hp => c.pnd (hpp ▸ hp), fun hh => ?_⟩
    obtain ⟨⟨v, hv⟩, h2⟩ := c.que hh
    exact ⟨⟨v, by simp [Entry.upd, hv, Mapped.cancel]⟩, h2⟩
  · exact h

theorem addCb_calm (h : Calm s) (i : Nat) (cb : Cb) (hf : ∀ old, cb = .refresh old → Free s.opens s.delayQ s.nextId old) : Calm (s.modify i (·.upd (.addCb cb))) := by
  have hup : ∀ (x : Entry K V E) old, .refresh old ∈ (x.upd (.addCb cb)).mapped.cbs → .refresh old ∈ x.mapped.cbs ∨ cb = .refresh old := by
    intro x old ho
    unfold Entry.upd at ho
    cases hm : x.mapped <;> simp only [hm, Mapped.addCb, Mapped.cbs] at ho
    · rcases List.mem_append.1 ho with ho | ho
      · exact .inl ho
      · exact .inr (List.mem_singleton.1 ho).symm
    all_goals exact absurd ho (by simp)
  have hF : ∀ (x : Entry K V E), LE s.opens s.delayQ s.nextId x → LE s.opens s.delayQ s.nextId (x.upd (.addCb cb)) := by
    intro x c
    refine ⟨c.can, fun old ho => ?_⟩
    rcases hup x old ho with h1 | h1
    · exact c.cb old h1
    · exact hf old h1
  refine h.modify i (fun x hx _ => ?_) (fun x hx _ => hF x (h.lim x hx))
  have c := h.ent x hx
  have hpp : (x.upd (.addCb cb)).isPending = x.isPending := by
    unfold Entry.isPending Entry.upd; cases x.mapped <;> rfl
  refine ⟨hF x c.toLE, fun hh => ?_, fun hp => c.pnd (hpp ▸ hp), fun hh => ?_⟩
  · obtain ⟨p, h1, h2, h3⟩ := c.opn hh
    exact ⟨{ p with cbs := p.cbs ++ [cb] }, by simp [Entry.upd, h1, Mapped.addCb], h2, h3⟩
  · obtain ⟨⟨v, hv⟩, h2⟩ := c.que hh
    exact ⟨⟨v, by simp [Entry.upd, hv, Mapped.addCb]⟩, h2⟩

theorem answer_calm (h : Calm s) (i w : Nat) (l : Look V E) : Calm (answer s i w l).1 := by
  cases l with
  | pend => exact addCb_calm h i _ (fun old ho => by cases ho)
  | _ => exact h

/-! ### The delay queue only grows -/

theorem Calm.open_not_queued (h : Calm s) (w : WF1 cfg s) {tok : Nat} (ht : tok ∈ s.opens) : tok ∉ s.delayQ := by
  intro hh
  obtain ⟨x, hx, hxi⟩ := List.mem_map.1 (w.dqM tok hh)
  obtain ⟨p, hp, _⟩ := (h.ent x hx).opn (hxi ▸ ht)
  obtain ⟨⟨v, hv⟩, _⟩ := (h.ent x hx).que (hxi ▸ hh)
  rw [hp] at hv; cases hv

/-- An entry of the delay queue is alive. -/
theorem Calm.alive (h : Calm s) {e : Entry K V E} (he : e ∈ s.ents) (hq : e.id ∈ s.delayQ) (env : Env V) : stale env e = false := by
  obtain ⟨⟨v, hv⟩, hx⟩ := (h.ent e he).que hq
  have hca := (h.ent e he).can
  simp [stale, Entry.expired, hv, hx, hca, Mapped.expired, Mapped.holdsError, reached]

theorem foldl_erase_id : ∀ (l q : List Nat), (∀ i ∈ l, i ∉ q) → l.foldl List.erase q = q := by
  intro l
  induction l with
  | nil => exact fun _ _ => rfl
  | cons e es ih =>
    intro q h
    rw [List.foldl_cons, List.erase_of_not_mem (h e (by simp))]
    exact ih q (fun x hx => h x (List.mem_cons_of_mem _ hx))

theorem Calm.dispose_queue (h : Calm s) {t' : List (List (Entry K V E))} {rem : List (Entry K V E)} (h1 : ∀ e ∈ rem, e ∈ s.ents) (h2 : ∀ e ∈ rem, stale env e = true) :
    (dispose cfg { s with tbl := t' } rem).delayQ = s.delayQ := by
  rw [(dispose_fields cfg rem _).2.2.2.2.2.1]
  refine foldl_erase_id _ _ (fun i hi hq => ?_)
  obtain ⟨e, he, rfl⟩ := List.mem_map.1 hi
  have := h.alive (h1 e he) hq env
  rw [h2 e he] at this; cases this

/-- Nothing is taken from the delay queue. -/
structure CalmK (s s' : St K V E) : Prop where
  calm : Calm s'
  pre : s.delayQ <+: s'.delayQ

theorem CalmK.refl (h : Calm s) : CalmK s s := ⟨h, List.prefix_refl _⟩
theorem CalmK.trans (h : CalmK s s') (h' : CalmK s' s'') : CalmK s s'' := ⟨h'.calm, h.pre.trans h'.pre⟩

theorem get__calmK {d : Int} (hl : Unlimited cfg d) (h : Calm s) (k : K) (incl : Bool) : CalmK s (get_ cfg env s k incl).1 := by
  refine ⟨get__calm hl h k incl, ?_⟩
  have hw : (walked cfg env s k incl).delayQ = s.delayQ := by
    have h1 := getWalk_perm cfg env k incl (s.bucket (s.bucketFor (cfg.hash k)))
    obtain ⟨oth, h2, _, _⟩ := applyWalk_perm (cfg := cfg) (g := id) h1 (by simp)
    unfold walked applyWalk
    exact h.dispose_queue (fun e he => h2.mem_iff.2 (List.mem_append_right _ he)) (getWalk_removed cfg env k incl _)
  unfold get_; simp only
  split
  · show _ <+: (walked cfg env s k incl).delayQ
    rw [hw]; exact List.prefix_refl _
  · rw [hl.onHit]
    show _ <+: (walked cfg env s k incl).delayQ
    rw [hw]; exact List.prefix_refl _

theorem beforeLink_queue (h : Calm s) : (beforeLink cfg env s).delayQ = s.delayQ := by
  unfold beforeLink; split
  · unfold purge
    exact h.dispose_queue (fun e he => (List.mem_filter.1 he).1) (fun e he => (List.mem_filter.1 he).2)
  · rfl

theorem maybeRehash_queue (h : Calm s) : (maybeRehash cfg env s).delayQ = s.delayQ := by
  have := beforeLink_queue (cfg := cfg) (env := env) h
  unfold maybeRehash; simp only; split
  · exact this
  · exact this

theorem onAssign_queue (i : Nat) (b : Bool) : ∃ q, (onAssign cfg env s i b).delayQ = s.delayQ ++ q ∧ ∀ j ∈ q, j = i := by
  unfold onAssign; simp only; split
  · exact ⟨[i], rfl, by simp⟩
  · exact ⟨[], by simp [St.modify], by simp⟩

theorem link_queue {d : Int} (hl : Unlimited cfg d) (h : Calm s) (e : Entry K V E) : ∃ q, (link cfg env s e).delayQ = s.delayQ ++ q ∧ ∀ j ∈ q, j = e.id := by
  unfold link; simp only
  rw [hl.onCreate]
  have := maybeRehash_queue (cfg := cfg) (env := env) h
  split
  · exact ⟨[], by simp [this], by simp⟩
  · obtain ⟨q, h1, h2⟩ := onAssign_queue (cfg := cfg) (env := env)
      (s := { maybeRehash cfg env s with tbl := place cfg (maybeRehash cfg env s).tbl e, nextId := (maybeRehash cfg env s).nextId + 1 }) e.id (e.mapped.holdsValue env)
    refine ⟨q, ?_, h2⟩
    rw [h1]; simp [this]

theorem link_calmK {d : Int} (hl : Unlimited cfg d) (w : WF1 cfg s) (h : Calm s) (k : K) (m : Mapped V E)
    (hm : (∃ v, m = .value v) ∨ (∃ x, m = .error x) ∨ m = .pending {}) : CalmK s (link cfg env s (newEntry s k m)) := by
  obtain ⟨q, h1, _⟩ := link_queue (env := env) hl h (newEntry s k m)
  exact ⟨link_calm hl w h k m hm, ⟨q, h1.symm⟩⟩

theorem tryLink_calmK {d : Int} (hl : Unlimited cfg d) (w : WF1 cfg s) (h : Calm s) (k : K) (v : V) (f : Fail) :
    CalmK s (tryLink cfg env s (newEntry s k (.value v)) f).1 := by
  rcases tryLink_cases cfg env s (newEntry s k (.value v)) f with h1 | h1 | h1 <;> rw [h1]
  · exact link_calmK hl w h k _ (.inl ⟨v, rfl⟩)
  · exact .refl h
  · exact ⟨beforeLink_calm h, by rw [beforeLink_queue h]; exact List.prefix_refl _⟩

theorem runCbs_queue (i : Nat) (cbs : List Cb) : (runCbs s i cbs).delayQ = s.delayQ := by
  unfold runCbs
  induction cbs generalizing s with
  | nil => rfl
  | cons c cbs ih => rw [List.foldl_cons, ih, runCb_delayQ]

theorem complete_queue (tok : Nat) (r : Res V E) : ∃ q, (complete cfg env s tok r).1.delayQ = s.delayQ ++ q ∧ ∀ j ∈ q, j = tok := by
  unfold complete; simp only
  split
  · split
    · exact ⟨[], by simp [St.modify], by simp⟩
    · obtain ⟨q, h1, h2⟩ := onAssign_queue (cfg := cfg) (env := env)
        (s := (runCbs { s with opens := s.opens.erase tok } tok (((({ s with opens := s.opens.erase tok } : St K V E).findAny tok).map (·.mapped.cbs)).getD [])).modify tok
          (·.upd (completed cfg r))) tok r.isOk
      refine ⟨q, ?_, h2⟩
      rw [h1]
      show (runCbs _ _ _).delayQ ++ q = _
      rw [runCbs_queue]
  · exact ⟨[], by simp, by simp⟩

theorem complete_calmK {d : Int} (hl : Unlimited cfg d) (hon : s.opens.Nodup) (h : Calm s) (hd : s.destroyed = false) (tok : Nat)
    (htq : tok ∈ s.opens → tok ∉ s.delayQ) (r : Res V E) : CalmK s (complete cfg env s tok r).1 := by
  obtain ⟨q, h1, _⟩ := complete_queue (cfg := cfg) (env := env) (s := s) tok r
  exact ⟨complete_calm hl hon h hd tok htq r, ⟨q, h1.symm⟩⟩

theorem drop_queue (tok : Nat) : (drop s tok).1.delayQ = s.delayQ := by
  unfold drop; simp only; split <;> rfl

theorem drop_calmK (h : Calm s) (hon : s.opens.Nodup) (tok : Nat) : CalmK s (drop s tok).1 :=
  ⟨drop_calm h hon tok, by rw [drop_queue]; exact List.prefix_refl _⟩

theorem answer_queue (i w : Nat) (l : Look V E) : (answer s i w l).1.delayQ = s.delayQ := by cases l <;> rfl

theorem answer_calmK (h : Calm s) (i w : Nat) (l : Look V E) : CalmK s (answer s i w l).1 :=
  ⟨answer_calm h i w l, by rw [answer_queue]; exact List.prefix_refl _⟩

/-- What a lookup that starts adds: its own number. -/
structure CalmR (s s' : St K V E) : Prop extends CalmK s s' where
  opn : ∀ t ∈ s'.opens, t ∈ s.opens ∨ s.nextId ≤ t
  new : ∀ t ∈ s'.delayQ, t ∈ s.delayQ ∨ s.nextId ≤ t
  nxt : s.nextId ≤ s'.nextId

theorem CalmR.free (h : CalmR s s') {old : Nat} (hf : Free s.opens s.delayQ s.nextId old) : Free s'.opens s'.delayQ s'.nextId old :=
  hf.mono h.opn (fun t ht => (h.new t ht).imp id .inl) h.nxt

theorem resolveSync_calm {d : Int} (hl : Unlimited cfg d) (w : WF1 cfg s) (h : Calm s) (k : K) (r : Res V E) : CalmR s (resolveSync cfg env s k r).1 := by
  unfold resolveSync; simp only
  obtain ⟨q, h1, h2⟩ := link_queue (env := env) hl h (newEntry s k (syncMapped r))
  refine ⟨link_calmK hl w h k _ ?_, ?_, ?_, ?_⟩
  · cases r with
    | ok v => exact .inl ⟨v, rfl⟩
    | err x => exact .inr (.inl ⟨x, rfl⟩)
  · intro t ht; left; simpa using ht
  · intro t ht
    rw [h1] at ht
    rcases List.mem_append.1 ht with ht | ht
    · exact .inl ht
    · right; rw [h2 t ht]; exact Nat.le_refl _
  · simp

/-- The pending entry of a new lookup, with its callback object. -/
theorem open_calm {d : Int} (hl : Unlimited cfg d) (w : WF1 cfg s) (h : Calm s) (k : K) :
    Calm { link cfg env s (newEntry s k (.pending {})) with opens := (link cfg env s (newEntry s k (.pending {}))).opens ++ [s.nextId] } := by
  have h1 := maybeRehash_calm (cfg := cfg) (env := env) h
  have w1 := maybeRehash_wf1 w env
  have hne := maybeRehash_ne (cfg := cfg) env s
  have hn : (maybeRehash cfg env s).nextId = s.nextId := by simp
  unfold link; simp only
  generalize maybeRehash cfg env s = s1 at *
  rw [hl.onCreate, if_pos (by rfl : (newEntry s k (.pending {} : Mapped V E)).isPending = true)]
  have hnq : ∀ t ∈ s1.delayQ, t < s1.nextId := by
    intro t ht
    obtain ⟨e, he, rfl⟩ := List.mem_map.1 (w1.dqM t ht)
    exact w1.lt e (List.mem_append_left _ he)
  have hp : St.ents { s1 with tbl := place cfg s1.tbl (newEntry s k (.pending {})), nextId := s1.nextId + 1, opens := s1.opens ++ [s.nextId] } |>.Perm (s1.ents ++ [newEntry s k (.pending {})]) :=
    Buckets.perm_place (fun e : Entry K V E => cfg.hash e.key) hne (newEntry s k (.pending {}))
  have ho : ∀ t ∈ s1.opens ++ [s.nextId], t ∈ s1.opens ∨ s1.nextId ≤ t := by
    intro t ht
    rcases List.mem_append.1 ht with ht | ht
    · exact .inl ht
    · right; rw [List.mem_singleton] at ht; omega
  refine ⟨?_, ?_, ?_⟩
  · intro e he
    rcases List.mem_append.1 (hp.mem_iff.1 he) with he | he
    · have c := h1.ent e he
      have hlt := w1.lt e (List.mem_append_left _ he)
      refine ⟨c.toLE.mono ho (fun _ h => .inl h) (Nat.le_succ _), fun hh => ?_, c.pnd, c.que⟩
      rcases List.mem_append.1 hh with hh | hh
      · exact c.opn hh
      · rw [List.mem_singleton] at hh; omega
    · rw [List.mem_singleton] at he; subst he
      refine ⟨⟨rfl, fun old ho => ?_⟩, fun _ => ⟨{}, rfl, rfl, rfl⟩, fun _ => ⟨rfl, fun hh => ?_⟩, fun hh => ?_⟩
      · simp [newEntry, Mapped.cbs] at ho
      · have := hnq _ hh; simp only [newEntry] at this; omega
      · have := hnq _ hh; simp only [newEntry] at this; omega
  · intro e he
    exact (h1.lim e he).mono ho (fun _ h => .inl h) (Nat.le_succ _)
  · intro t ht
    show t < s1.nextId + 1
    rcases List.mem_append.1 ht with ht | ht
    · have := h1.ops t ht; omega
    · rw [List.mem_singleton] at ht; omega

theorem resolveAsync_calm {d : Int} (hl : Unlimited cfg d) (w : WF1 cfg s) (hon : s.opens.Nodup) (hd : s.destroyed = false) (h : Calm s) (k : K) (b : Beh V E) :
    CalmR s (resolveAsync cfg env s k b).1 := by
  have h1 := open_calm (env := env) hl w h k
  have hq1 : (link cfg env s (newEntry s k (.pending {}))).delayQ = s.delayQ := by
    unfold link; simp only
    rw [hl.onCreate, if_pos (by rfl : (newEntry s k (.pending {} : Mapped V E)).isPending = true)]
    exact maybeRehash_queue h
  have hopn : (link cfg env s (newEntry s k (.pending {}))).opens = s.opens := by simp
  have hdes : (link cfg env s (newEntry s k (.pending {}))).destroyed = false := by simp [hd]
  have hnx : (link cfg env s (newEntry s k (.pending {}))).nextId = s.nextId + 1 := by simp
  unfold resolveAsync
  simp only
  generalize link cfg env s (newEntry s k (.pending {})) = s1 at *
  have hn2 : (s1.opens ++ [s.nextId]).Nodup := by
    rw [hopn, List.nodup_append]
    exact ⟨hon, by simp, fun a ha b hb => by have := h.ops a ha; rw [List.mem_singleton] at hb; omega⟩
  have hmo : ∀ t ∈ s1.opens ++ [s.nextId], t ∈ s.opens ∨ s.nextId ≤ t := by
    intro t ht
    rw [hopn] at ht
    rcases List.mem_append.1 ht with ht | ht
    · exact .inl ht
    · right; rw [List.mem_singleton] at ht; omega
  have hmq : ∀ t ∈ s1.delayQ, t ∈ s.delayQ ∨ s.nextId ≤ t := by
    intro t ht
    exact .inl (hq1 ▸ ht)
  cases b with
  | later => exact ⟨⟨h1, ⟨[], by simp [hq1]⟩⟩, hmo, hmq, by show s.nextId ≤ s1.nextId; omega⟩
  | now r =>
    have htq : s.nextId ∈ s1.opens ++ [s.nextId] → s.nextId ∉ s1.delayQ := by
      intro _ hh
      rw [hq1] at hh
      exact next_not_queued w hh
    obtain ⟨q', h3, h4⟩ := complete_queue (cfg := cfg) (env := env) (s := { s1 with opens := s1.opens ++ [s.nextId] }) s.nextId r
    have h2 := complete_calm (env := env) hl (s := { s1 with opens := s1.opens ++ [s.nextId] }) hn2 h1 hdes s.nextId htq r
    refine ⟨⟨h2, ⟨q', ?_⟩⟩, ?_, ?_, ?_⟩
    · show _ = (complete cfg env { s1 with opens := s1.opens ++ [s.nextId] } s.nextId r).1.delayQ
      rw [h3]; simp only [hq1]
    · intro t ht
      refine hmo t ?_
      rw [complete_opens] at ht
      exact List.mem_of_mem_erase ht
    · intro t ht
      simp only [h3] at ht
      rcases List.mem_append.1 ht with ht | ht
      · exact hmq t ht
      · right; rw [h4 t ht]; exact Nat.le_refl _
    · simp; omega
  | drop =>
    refine ⟨⟨drop_calm h1 hn2 _, ⟨[], ?_⟩⟩, ?_, ?_, ?_⟩
    · simp only [drop_queue, hq1, List.append_nil]
    · intro t ht
      rw [drop_opens] at ht
      exact hmo t (List.mem_of_mem_erase ht)
    · intro t ht; simp only [drop_queue] at ht; exact hmq t ht
    · simp; omega

theorem CE.flag (h : CE op dq n e) : CE op dq n { e with refreshing := true } := ⟨⟨h.can, h.cb⟩, h.opn, h.pnd, h.que⟩
theorem LE.flag (h : LE op dq n e) : LE op dq n { e with refreshing := true } := ⟨h.can, h.cb⟩

theorem refresh_calm {d : Int} (hl : Unlimited cfg d) (w : WF1 cfg s) (hon : s.opens.Nodup) (hd : s.destroyed = false) (h : Calm s)
    (hf : Free s.opens s.delayQ s.nextId e.id) (r : Res V E) (b : Beh V E) : Calm (refresh cfg env s e r b).1 := by
  unfold refresh
  split
  · exact h
  · simp only
    have hr : CalmR s (if cfg.resolver = .async then resolveAsync cfg env s e.key b else resolveSync cfg env s e.key r).1 := by
      split
      · exact resolveAsync_calm hl w hon hd h _ _
      · exact resolveSync_calm hl w h _ _
    generalize (if cfg.resolver = .async then resolveAsync cfg env s e.key b else resolveSync cfg env s e.key r) = pr at hr
    obtain ⟨s1, tok⟩ := pr
    simp only at hr ⊢
    have h2 : Calm (s1.modify e.id (fun x => { x with refreshing := true })) :=
      hr.calm.modify e.id (fun x hx _ => (hr.calm.ent x hx).flag) (fun x hx _ => (hr.calm.lim x hx).flag)
    have hf2 := hr.free hf
    split
    · split
      · exact addCb_calm h2 _ (.refresh e.id) (fun old ho => by cases ho; exact hf2)
      · exact runCb_calm h2 _ (.refresh e.id) (fun old ho => by cases ho; exact hf2)
    · exact h2

theorem tick_calm {d : Int} (hl : Unlimited cfg d) (w : WF1 cfg s) (hon : s.opens.Nodup) (hd : s.destroyed = false) (h : Calm s) (r : Res V E) (b : Beh V E) :
    Calm (tick cfg env s r b).1 := by
  unfold tick
  split
  · exact h
  · rename_i i q hq
    split
    · exact h
    · rename_i e he
      obtain ⟨he', rfl⟩ := find_some he
      split
      · have h0 : Calm { s with delayQ := q } :=
          ⟨fun x hx => (h.ent x hx).mono (fun _ h => h) (fun t ht => by rw [hq]; exact List.mem_cons_of_mem _ ht) (Nat.le_refl _),
           fun x hx => (h.lim x hx).mono (fun _ h => .inl h) (fun t ht => .inl (by rw [hq]; exact List.mem_cons_of_mem _ ht)) (Nat.le_refl _), h.ops⟩
        refine refresh_calm hl (w.pop hq) hon hd h0 ⟨w.lt e (List.mem_append_left _ he'), ?_, ?_⟩ r b
        · have := w.dqN
          rw [hq] at this
          exact (List.nodup_cons.1 this).1
        · exact fun hh => h.open_not_queued w hh (by rw [hq]; simp)
      · exact h

theorem step_calmK (hc : cfg.Ok) {d : Int} (hl : Unlimited cfg d) (w : WF1 cfg s) (hon : s.opens.Nodup) (hd : s.destroyed = false) (h : Calm s) (o : Op K V E) (ho : Worker.OnlyAdds o) :
    CalmK s (step cfg env s o).1 := by
  cases o with
  | getIfExists k => exact .refl h
  | count => exact .refl h
  | get k r =>
    simp only [step, get]
    have h1 := get__calmK (env := env) hl h k false
    split
    · exact h1.trans (resolveSync_calm hl (get__wf1 hc w env k false) h1.calm k r).toCalmK
    all_goals exact h1
  | asyncGet k w' b =>
    simp only [step, asyncGet]
    have h1 := get__calmK (env := env) hl h k true
    split
    · exact h1.trans (answer_calmK h1.calm _ _ _)
    · have h2 := h1.trans (resolveAsync_calm (env := env) hl (get__wf1 hc w env k true) (by simpa using hon) (by simpa using hd) h1.calm k b).toCalmK
      exact h2.trans (answer_calmK h2.calm _ _ _)
  | getOrEmplace k v f =>
    simp only [step, getOrEmplace]
    have h1 := get__calmK (env := env) hl h k true
    split
    · rw [hl.maintenance]; exact h1
    · have h2 := h1.trans (tryLink_calmK (env := env) hl (get__wf1 hc w env k true) h1.calm k v f)
      split
      · rw [hl.maintenance]; exact h2
      · exact h2
    · rw [hl.maintenance]; exact h1
  | complete tok r => exact complete_calmK hl hon h hd tok (fun ht => h.open_not_queued w ht) r
  | drop tok => exact drop_calmK h hon tok
  | _ => exact ho.elim

namespace Worker

/-- The worker of a cache from which nothing is removed waits for an entry of the delay queue. -/
structure CInv (g : G K V E) : Prop where
  calm : Calm g.s
  tmd : ∀ i tp, g.pc = .timed i tp → i ∈ g.s.delayQ
  des : g.s.destroyed = false

theorem cinv_init : CInv ({} : G K V E) := ⟨calm_init, by simp, rfl⟩

theorem enterWait_cinv {g g' : G K V E} {out : Out K V E} (h : CInv g) (hn : enterWait g = .ok g' out) : CInv g' := by
  unfold enterWait at hn
  repeat' split at hn
  all_goals first
    | (obtain ⟨rfl, rfl⟩ := Outcome.ok.inj hn
       refine ⟨h.calm, ?_, h.des⟩
       intro i tp hp
       cases hp <;> simp_all)
    | cases hn

theorem next_cinv (hc : cfg.Ok) {d : Int} (hl : Unlimited cfg d) (hk : cfg.resolver ≠ .none) {g g' : G K V E} {out : Out K V E} (hw : WInv cfg d env g) (h : CInv g)
    (a : Act K V E) (ha : OnlyAddsAct a) (hn : next cfg env g a = .ok g' out) : CInv g' := by
  have gd := hw.good hc
  cases a with
  | call o =>
    simp only [next, call] at hn
    split at hn
    · cases hn
    · obtain ⟨rfl, rfl⟩ := Outcome.ok.inj hn
      have hs := step_calmK (env := env) hc hl gd.wf1 gd.wf2.opN h.des h.calm o ha
      refine ⟨hs.calm, fun i tp hp => hs.pre.subset (h.tmd i tp hp), ?_⟩
      simp only
      rw [step_destroyed cfg env g.s o (by rintro rfl; exact ha)]
      exact h.des
  | begin =>
    simp only [next] at hn
    split at hn
    · exact enterWait_cinv h hn
    · cases hn
  | wake =>
    simp only [next, wakeUp] at hn
    repeat' split at hn
    all_goals first
      | (obtain ⟨rfl, rfl⟩ := Outcome.ok.inj hn
         refine ⟨h.calm, ?_, h.des⟩
         intro i tp hp
         simp only at hp
         first
          | exact h.tmd _ _ hp
          | (cases hp <;> exact h.tmd _ _ ‹_›))
      | cases hn
  | timeout =>
    simp only [next, timeOut] at hn
    repeat' split at hn
    all_goals first
      | (obtain ⟨rfl, rfl⟩ := Outcome.ok.inj hn
         exact ⟨h.calm, by simp, h.des⟩)
      | cases hn
  | work r b =>
    simp only [next, work] at hn
    split at hn
    · rename_i now hp
      split at hn
      · exact enterWait_cinv h hn
      · split at hn
        · cases hn
        · split at hn
          · obtain ⟨rfl, rfl⟩ := Outcome.ok.inj hn
            refine ⟨tick_calm hl gd.wf1 gd.wf2.opN h.des h.calm r b, ?_, ?_⟩
            · intro i tp hp'; simp only at hp'; rw [hp] at hp'; cases hp'
            · simp only
              rw [step_destroyed cfg env g.s _ (by simp)]
              exact h.des
          · exact enterWait_cinv h hn
    · cases hn
  | dtorClear => exact ha.elim
  | dtorStop =>
    simp only [next] at hn
    split at hn
    · cases hn
    · obtain ⟨rfl, rfl⟩ := Outcome.ok.inj hn
      exact ⟨h.calm, h.tmd, h.des⟩

theorem exec_cinv (hc : cfg.Ok) {d : Int} (hl : Unlimited cfg d) (hk : cfg.resolver ≠ .none) : ∀ (as : List (Env V × Act K V E)) (g g' : G K V E) (env envL : Env V),
    WInv cfg d env g → CInv g → (∀ p ∈ as, OnlyAddsAct p.2) → Mono (env :: (as.map (·.1) ++ [envL])) → Sched cfg g as → exec cfg g as = .ok g' {} → CInv g' := by
  intro as
  induction as with
  | nil =>
    intro g g' env envL _ h _ _ _ he
    simp only [exec] at he
    obtain ⟨rfl, _⟩ := Outcome.ok.inj he
    exact h
  | cons p as ih =>
    obtain ⟨e1, a⟩ := p
    intro g g' env envL hw h hka hm hs he
    simp only [exec] at he
    have hm' := List.pairwise_cons.1 hm
    have hw1 := hw.later (hm'.1 e1 (by simp))
    split at he
    · rename_i g1 out hn
      exact ih g1 g' e1 envL (next_inv hc hl.refr hk hw1 a hs.1 hn) (next_cinv hc hl hk hw1 h a (hka (e1, a) (by simp)) hn)
        (fun p hp => hka p (List.mem_cons_of_mem _ hp)) hm'.2 (hs.2 _ _ hn) he
    · cases he
    · cases he

theorem leads_cinv (hc : cfg.Ok) {d : Int} (hl : Unlimited cfg d) (hk : cfg.resolver ≠ .none) {as : List (Env V × Act K V E)} {g : G K V E} (hld : Leads cfg as g)
    (hka : ∀ p ∈ as, OnlyAddsAct p.2) {env : Env V} (hm : Mono (as.map (·.1) ++ [env])) : CInv g := by
  cases as with
  | nil =>
    have := hld.2
    simp only [exec] at this
    obtain ⟨rfl, _⟩ := Outcome.ok.inj this
    exact cinv_init
  | cons p as =>
    refine exec_cinv hc hl hk (p :: as) {} g p.1 env (winv_init cfg d p.1) cinv_init hka ?_ hld.1 hld.2
    unfold Mono at *
    rw [List.pairwise_cons]
    refine ⟨fun b hb => ?_, hm⟩
    simp only [List.map_cons, List.cons_append, List.mem_cons] at hb
    rcases hb with rfl | hb
    · exact .refl _
    · exact (List.pairwise_cons.1 hm).1 b hb

end Worker

end Hoard
