import Verif.StorageLemmas
/-! # Lemmas about the number of entries and buckets -/
namespace Hoard
variable {K V E : Type} {cfg : Cfg K} {env : Env V} {s s' s'' : St K V E}

/-- Same number of buckets and not more entries. -/
def Le2 (s s' : St K V E) : Prop := s'.tbl.length = s.tbl.length ∧ s'.size ≤ s.size
/-- Same number of buckets and entries. -/
def Same2 (s s' : St K V E) : Prop := s'.tbl.length = s.tbl.length ∧ s'.size = s.size

theorem Le2.refl (s : St K V E) : Le2 s s := ⟨rfl, Nat.le_refl _⟩
theorem Same2.refl (s : St K V E) : Same2 s s := ⟨rfl, rfl⟩
theorem Le2.trans (h : Le2 s s') (h' : Le2 s' s'') : Le2 s s'' := ⟨h'.1.trans h.1, Nat.le_trans h'.2 h.2⟩
theorem Same2.trans (h : Same2 s s') (h' : Same2 s' s'') : Same2 s s'' := ⟨h'.1.trans h.1, h'.2.trans h.2⟩
theorem Same2.le (h : Same2 s s') : Le2 s s' := ⟨h.1, Nat.le_of_eq h.2⟩

theorem modify_same2 (s : St K V E) (i : Nat) (f) : Same2 s (s.modify i f) := ⟨modify_len s i f, by simp [St.size, ents_modify]⟩

theorem Same2.modify (h : Same2 s s') (i : Nat) (f) : Same2 s (s'.modify i f) := h.trans (modify_same2 _ _ _)

theorem onHit_same2 (i : Nat) : Same2 s (onHit cfg env s i) := by
  unfold onHit; simp only; repeat' split
  · exact modify_same2 _ _ _
  · exact .refl _
  · exact modify_same2 _ _ _
  · exact .refl _
  · exact Same2.trans (s' := { s.modify i (·.upd (.strengthen env)) with bq := s.bq.onHit i }) (modify_same2 _ _ _) (modify_same2 _ _ _)
  · exact modify_same2 _ _ _

theorem onCreate_same2 (i : Nat) : Same2 s (onCreate cfg env s i) := by
  unfold onCreate; split
  · simp only; split
    · exact .refl _
    · exact Same2.trans (s' := { s with bq := (s.bq.onCreate i).1 }) ⟨rfl, rfl⟩ (modify_same2 _ _ _)
  · exact .refl _

theorem onAssign_same2 (i : Nat) (b : Bool) : Same2 s (onAssign cfg env s i b) := by
  unfold onAssign; simp only; split
  · exact modify_same2 _ _ _
  · exact modify_same2 _ _ _

theorem maintenance_same2 : Same2 s (maintenance cfg s) := ⟨maintenance_len, maintenance_size cfg s⟩

theorem runCb_same2 (i : Nat) (cb : Cb) : Same2 s (runCb s i cb) := by
  cases cb
  · exact .refl _
  · exact (modify_same2 _ _ _).modify _ _

theorem runCbs_same2 (i : Nat) (cbs : List Cb) : Same2 s (runCbs s i cbs) := by
  unfold runCbs
  induction cbs generalizing s with
  | nil => exact .refl _
  | cons c cbs ih => exact (runCb_same2 i c).trans ih

theorem complete_same2 (tok : Nat) (r : Res V E) : Same2 s (complete cfg env s tok r).1 := by
  unfold complete; simp only; repeat' split
  · exact Same2.trans (s' := { s with opens := s.opens.erase tok }) ⟨rfl, rfl⟩ (modify_same2 _ _ _)
  · refine Same2.trans (s' := { s with opens := s.opens.erase tok }) ⟨rfl, rfl⟩ ?_
    exact ((runCbs_same2 _ _).trans (modify_same2 _ _ _)).trans (onAssign_same2 _ _)
  · exact .refl _

theorem drop_same2 (tok : Nat) : Same2 s (drop s tok).1 := by
  unfold drop; simp only; split
  · exact Same2.trans (s' := { s with opens := s.opens.erase tok }) ⟨rfl, rfl⟩ (modify_same2 _ _ _)
  · exact .refl _

theorem answer_same2 (i w : Nat) (l : Look V E) : Same2 s (answer s i w l).1 := by
  cases l <;> first | exact .refl _ | exact modify_same2 _ _ _

theorem resolveAsync_same2 (k : K) (b : Beh V E) : Same2 (link cfg env s (newEntry s k (.pending {}))) (resolveAsync cfg env s k b).1 := by
  cases b
  · exact ⟨rfl, rfl⟩
  · exact Same2.trans (s' := { link cfg env s (newEntry s k (.pending {})) with opens := _ }) ⟨rfl, rfl⟩ (complete_same2 _ _)
  · exact Same2.trans (s' := { link cfg env s (newEntry s k (.pending {})) with opens := _ }) ⟨rfl, rfl⟩ (drop_same2 _)

theorem drops_size (h : Drops env s.ents s'.ents) : s'.size ≤ s.size := by
  obtain ⟨rem, hp, _⟩ := h
  have := hp.length_eq
  simp only [List.length_append] at this
  unfold St.size; omega

theorem get__le2 (k : K) (incl : Bool) : Le2 s (get_ cfg env s k incl).1 := by
  have hw : Le2 s (applyWalk cfg s (s.bucketFor (cfg.hash k)) (getWalk cfg env k incl (s.bucket (s.bucketFor (cfg.hash k))))) := by
    refine ⟨applyWalk_len _ _, drops_size (env := env) ?_⟩
    obtain ⟨oth, h1, h2, _⟩ := applyWalk_perm (cfg := cfg) (s := s) (i := s.bucketFor (cfg.hash k))
      (w := getWalk cfg env k incl (s.bucket (s.bucketFor (cfg.hash k)))) (kept0 := (getWalk cfg env k incl (s.bucket (s.bucketFor (cfg.hash k)))).kept)
      (g := fun e => e) (getWalk_perm cfg env k incl _) (by simp)
    refine ⟨_, h1.trans (List.Perm.append_right _ ?_), getWalk_removed cfg env k incl _⟩
    simpa using h2.symm
  unfold get_; simp only; split
  · exact hw
  · exact hw.trans (onHit_same2 _).le

theorem expire__le2 (hc : cfg.Ok) (h : WF1 cfg s) (k : K) : Le2 s (expire_ cfg env s k) := by
  refine ⟨expire__len k, ?_⟩
  obtain ⟨kept, rem, p1, p2, _, _⟩ := expire_spec hc h env k
  have h1 := p1.length_eq
  have h2 := p2.length_eq
  simp only [List.length_append, List.length_map] at h1 h2
  unfold St.size; omega

theorem beforeLink_le2 : Le2 s (beforeLink cfg env s) := ⟨beforeLink_len, drops_size (beforeLink_drops cfg env s)⟩

/-- One entry more than after making room. -/
theorem link_shape (e : Entry K V E) : (link cfg env s e).tbl.length = (maybeRehash cfg env s).tbl.length ∧ (link cfg env s e).size = (maybeRehash cfg env s).size + 1 := by
  have hne := maybeRehash_ne (cfg := cfg) env s
  have h2 : ∀ s1 : St K V E, s1.tbl ≠ [] → St.size { s1 with tbl := place cfg s1.tbl e, nextId := s1.nextId + 1 } = s1.size + 1 := by
    intro s1 hne
    have hp : St.ents { s1 with tbl := place cfg s1.tbl e, nextId := s1.nextId + 1 } |>.Perm (s1.ents ++ [e]) :=
      Buckets.perm_place (fun e : Entry K V E => cfg.hash e.key) hne e
    unfold St.size
    rw [hp.length_eq]; simp
  have h3 := h2 _ hne
  unfold link; simp only
  split
  · have q := onCreate_same2 (cfg := cfg) (env := env) (s := { maybeRehash cfg env s with tbl := place cfg (maybeRehash cfg env s).tbl e, nextId := (maybeRehash cfg env s).nextId + 1 }) e.id
    exact ⟨q.1.trans (by simp [place]), q.2.trans h3⟩
  · have q := (onCreate_same2 (cfg := cfg) (env := env) (s := { maybeRehash cfg env s with tbl := place cfg (maybeRehash cfg env s).tbl e, nextId := (maybeRehash cfg env s).nextId + 1 }) e.id).trans
      (onAssign_same2 (cfg := cfg) (env := env) e.id (e.mapped.holdsValue env))
    exact ⟨q.1.trans (by simp [place]), q.2.trans h3⟩

theorem rehash_shape (n : Nat) (hn : 0 < n) : (rehash cfg s n).tbl.length = n ∧ (rehash cfg s n).size = s.size := by
  constructor
  · have : ∀ (l : List (Entry K V E)) (t : List (List (Entry K V E))), (l.foldl (place cfg) t).length = t.length := by
      intro l
      induction l with
      | nil => intro t; rfl
      | cons e l ih => intro t; rw [List.foldl_cons, ih]; simp [place]
    simp [rehash, this]
  · exact (rehash_perm cfg s hn).length_eq

/-- At most one entry is inserted. -/
def Mv (cfg : Cfg K) (env : Env V) (s s' : St K V E) : Prop :=
  Le2 s s' ∨ ∃ s1, Le2 s s1 ∧ s'.tbl.length = (maybeRehash cfg env s1).tbl.length ∧ s'.size = (maybeRehash cfg env s1).size + 1

theorem Mv.same (h : Mv cfg env s s') (h' : Same2 s' s'') : Mv cfg env s s'' := by
  rcases h with h | ⟨s1, h1, h2, h3⟩
  · exact .inl (h.trans h'.le)
  · exact .inr ⟨s1, h1, h'.1.trans h2, h'.2.trans h3⟩

theorem Le2.link (h : Le2 s s') (e : Entry K V E) : Mv cfg env s (link cfg env s' e) := .inr ⟨s', h, link_shape e⟩

theorem Le2.tryLink (h : Le2 s s') (e : Entry K V E) (f : Fail) : Mv cfg env s (tryLink cfg env s' e f).1 := by
  rcases tryLink_cases cfg env s' e f with q | q | q <;> rw [q]
  · exact h.link e
  · exact .inl h
  · exact .inl (h.trans beforeLink_le2)

theorem step_mv (hc : cfg.Ok) (h : WF1 cfg s) (o : Op K V E) : Mv cfg env s (step cfg env s o).1 := by
  cases o with
  | getIfExists k => exact .inl (.refl _)
  | count => exact .inl (.refl _)
  | erase k => exact .inl (expire__le2 hc h k)
  | clear =>
    refine .inl ⟨by simp [step, clear, dispose_tbl], ?_⟩
    have : ∀ t : List (List (Entry K V E)), (t.map (fun b => (expireAllWalk b).kept)).flatten.length ≤ t.flatten.length := by
      intro t
      induction t with
      | nil => simp
      | cons b t ih =>
        simp only [List.map_cons, List.flatten_cons, List.length_append]
        have : (expireAllWalk b).kept.length ≤ b.length := by simp only [expireAllWalk, List.length_map]; exact List.length_filter_le _ _
        omega
    simp only [step, clear, St.size, St.ents, dispose_tbl]
    exact this _
  | complete tok r => exact .inl (complete_same2 tok r).le
  | drop tok => exact .inl (drop_same2 tok).le
  | destroy =>
    refine .inl ⟨by simp [step, destroy, dispose_tbl], ?_⟩
    have : ∀ t : List (List (Entry K V E)), (t.map (fun _ => ([] : List (Entry K V E)))).flatten.length ≤ t.flatten.length := by
      intro t; induction t <;> simp_all <;> omega
    simp only [step, destroy, St.size, St.ents, dispose_tbl]
    exact this _
  | get k r =>
    simp only [step, get]
    split
    · exact (get__le2 k false).link _
    all_goals exact .inl (get__le2 k false)
  | asyncGet k w b =>
    simp only [step, asyncGet]
    split
    · exact .inl ((get__le2 k true).trans (answer_same2 _ _ _).le)
    · exact (((get__le2 k true).link _).same (resolveAsync_same2 _ _)).same (answer_same2 _ _ _)
  | emplace k v f =>
    simp only [step, emplace]
    split
    · exact ((expire__le2 hc h k).tryLink _ _).same maintenance_same2
    · exact (expire__le2 hc h k).tryLink _ _
  | getOrEmplace k v f =>
    simp only [step, getOrEmplace]
    split
    · exact .inl ((get__le2 k true).trans maintenance_same2.le)
    · split
      · exact ((get__le2 k true).tryLink _ _).same maintenance_same2
      · exact (get__le2 k true).tryLink _ _
    · exact .inl ((get__le2 k true).trans maintenance_same2.le)
  | tick r b =>
    simp only [step, tick]
    split
    · exact .inl (.refl _)
    · rename_i i q _
      split
      · exact .inl (.refl _)
      · rename_i e _
        split
        · unfold refresh
          split
          · exact .inl ⟨rfl, Nat.le_refl _⟩
          · simp only
            have h0 : Le2 s { s with delayQ := q } := ⟨rfl, Nat.le_refl _⟩
            have hres : Mv cfg env s (if cfg.resolver = .async then resolveAsync cfg env { s with delayQ := q } e.key b else resolveSync cfg env { s with delayQ := q } e.key r).1 := by
              split
              · exact (h0.link _).same (resolveAsync_same2 _ _)
              · exact h0.link _
            generalize (if cfg.resolver = .async then resolveAsync cfg env { s with delayQ := q } e.key b else resolveSync cfg env { s with delayQ := q } e.key r) = g at *
            obtain ⟨s1, tok⟩ := g
            simp only at *
            have h1 := hres.same (modify_same2 s1 e.id (fun x => { x with refreshing := true }))
            repeat' split
            · exact h1.same (modify_same2 _ _ _)
            · exact h1.same (runCb_same2 _ _)
            · exact h1
        · exact .inl (.refl _)

/-! ### Arithmetic of growing -/

/-- What the test `over` must satisfy for doubling to be enough. -/
structure Room (over : Nat → Nat → Bool) : Prop where
  mono : ∀ n m b, m ≤ n → over n b = false → over m b = false
  init : over 1 4 = false
  dbl : ∀ n b, 4 ≤ b → over n b = false → over (n + 1) (2 * b) = false

/-- The limit is kept, or the table is as large as it can be. -/
def Kept2 (cfg : Cfg K) (n b : Nat) : Prop := (b = 0 ∧ n = 0) ∨ (4 ≤ b ∧ cfg.over n b = false) ∨ (4 ≤ b ∧ cfg.maxBuckets ≤ b)

theorem Kept2.le (hr : Room cfg.over) {n m b : Nat} (h : Kept2 cfg n b) (hm : m ≤ n) : Kept2 cfg m b := by
  rcases h with h | h | h
  · exact .inl ⟨h.1, by omega⟩
  · exact .inr (.inl ⟨h.1, hr.mono _ _ _ hm h.2⟩)
  · exact .inr (.inr h)

theorem link_kept2 (hr : Room cfg.over) (h : Kept2 cfg s.size s.tbl.length) : Kept2 cfg ((maybeRehash cfg env s).size + 1) (maybeRehash cfg env s).tbl.length := by
  have hb := beforeLink_le2 (cfg := cfg) (env := env) (s := s)
  have h := h.le hr hb.2
  rw [← hb.1] at h
  unfold maybeRehash; simp only
  split
  · rename_i hg
    obtain ⟨l, z⟩ := rehash_shape (cfg := cfg) (s := beforeLink cfg env s) (grown cfg (beforeLink cfg env s).tbl.length) (grown_pos hg)
    rw [l, z]
    simp only [mustGrow, Bool.or_eq_true, decide_eq_true_eq, Bool.and_eq_true] at hg
    have hg := hg.imp_right And.right
    generalize (beforeLink cfg env s).tbl.length = b at *
    generalize hn : (beforeLink cfg env s).size = n at *
    unfold grown
    rcases h with h | h | h
    · rw [if_pos h.1, h.2]; exact .inr (.inl ⟨Nat.le_refl _, hr.init⟩)
    · have hb0 : ¬ b = 0 := by omega
      rw [if_neg hb0]
      split
      · exact .inr (.inr ⟨by omega, Nat.le_refl _⟩)
      · exact .inr (.inl ⟨by omega, hr.dbl n b h.1 h.2⟩)
    · omega
  · rename_i hg
    simp only [mustGrow, Bool.or_eq_true, decide_eq_true_eq, Bool.and_eq_true, not_or, not_and, Nat.not_lt] at hg
    generalize (beforeLink cfg env s).tbl.length = b at *
    generalize (beforeLink cfg env s).size = n at *
    have h4 : 4 ≤ b := by
      rcases h with h | h | h
      · exact absurd h.1 hg.1
      · exact h.1
      · exact h.1
    cases hov : cfg.over (n + 1) b
    · exact .inr (.inl ⟨h4, hov⟩)
    · exact .inr (.inr ⟨h4, hg.2 hov⟩)

theorem step_kept2 (hc : cfg.Ok) (hr : Room cfg.over) (hw : WF1 cfg s) (h : Kept2 cfg s.size s.tbl.length) (o : Op K V E) :
    Kept2 cfg (step cfg env s o).1.size (step cfg env s o).1.tbl.length := by
  rcases step_mv (env := env) hc hw o with q | ⟨s1, q, q1, q2⟩
  · rw [q.1]; exact h.le hr q.2
  · rw [q1, q2]
    refine link_kept2 hr ?_
    rw [q.1]; exact h.le hr q.2

theorem step_grows (hc : cfg.Ok) (hw : WF1 cfg s) (o : Op K V E) (hg : (step cfg env s o).1.tbl.length ≠ s.tbl.length) :
    s.tbl.length = 0 ∨ (cfg.over (step cfg env s o).1.size s.tbl.length = true ∧ s.tbl.length < cfg.maxBuckets) := by
  rcases step_mv (env := env) hc hw o with q | ⟨s1, q, q1, q2⟩
  · exact absurd q.1 hg
  · rw [q2]; rw [q1] at hg
    have hl : (beforeLink cfg env s1).tbl.length = s.tbl.length := beforeLink_len.trans q.1
    have hm : mustGrow cfg (beforeLink cfg env s1) = true := by
      cases hh : mustGrow cfg (beforeLink cfg env s1)
      · refine absurd ?_ hg
        unfold maybeRehash; simp only; rw [hh]; exact hl
      · rfl
    have hz : (maybeRehash cfg env s1).size = (beforeLink cfg env s1).size := by
      unfold maybeRehash; simp only; rw [if_pos hm]
      exact (rehash_shape _ (grown_pos hm)).2
    rw [hz, ← hl]
    simpa [mustGrow] using hm

end Hoard
