import Verif.ReclaimLemmas
import Verif.CalmLemmas
/-! Helper lemmas: where the linked entries, their values and their timers come from.  They do not depend on the invariants of the
table, because handlers that are late break some of them. -/
namespace Hoard
variable {K V E : Type} {cfg : Cfg K} {env : Env V}

/-- Numbers of lookups are not reused. -/
structure Neat (s : St K V E) : Prop where
  nd : s.opens.Nodup
  lt : ∀ t ∈ s.opens, t < s.nextId

/-- How an entry `e` can change into `e'`: new values satisfy `P`.  A settled entry (one that is no open lookup) does not become pending,
and its refresh time stays. -/
structure Turns (P : Nat → K → V → Prop) (s : St K V E) (e e' : Entry K V E) : Prop where
  id : e'.id = e.id
  key : e'.key = e.key
  val : ∀ v, e'.mapped.val? = some v → e.mapped.val? = some v ∨ P e'.id e'.key v
  set : e.id < s.nextId → e.id ∉ s.opens → e'.refTp = e.refTp ∧ (e.isPending = false → e'.isPending = false)

/-- How the table develops.  `P` holds of the values stored, `Q` of the entries added. -/
structure Life (P : Nat → K → V → Prop) (Q : Nat → K → Prop) (s s' : St K V E) : Prop where
  neat : Neat s → Neat s'
  next : s.nextId ≤ s'.nextId
  opn : ∀ i ∈ s'.opens, i ∈ s.opens ∨ s.nextId ≤ i
  dq : Neat s → ∀ i ∈ s'.delayQ, i ∈ s.delayQ ∨ ((s.nextId ≤ i ∨ i ∈ s.opens) ∧ i < s'.nextId ∧ i ∉ s'.opens)
  bwd : ∀ e' ∈ s'.ents, (∃ e ∈ s.ents, Turns P s e e') ∨
    (s.nextId ≤ e'.id ∧ e'.id < s'.nextId ∧ Q e'.id e'.key ∧ ∀ v, e'.mapped.val? = some v → P e'.id e'.key v)

namespace Life
variable {P P' : Nat → K → V → Prop} {Q Q' : Nat → K → Prop} {s s' s'' : St K V E}

theorem turns_refl (e : Entry K V E) : Turns P s e e := ⟨rfl, rfl, fun _ h => .inl h, fun _ _ => ⟨rfl, fun h => h⟩⟩

theorem refl (s : St K V E) : Life P Q s s :=
  ⟨fun h => h, Nat.le_refl _, fun _ h => .inl h, fun _ _ h => .inl h, fun e he => .inl ⟨e, he, turns_refl e⟩⟩

theorem trans (h : Life P Q s s') (h' : Life P Q s' s'') : Life P Q s s'' where
  neat := fun n => h'.neat (h.neat n)
  next := Nat.le_trans h.next h'.next
  opn := by
    intro i hi
    rcases h'.opn i hi with h1 | h1
    · exact h.opn i h1
    · exact .inr (Nat.le_trans h.next h1)
  dq := by
    intro n i hi
    rcases h'.dq (h.neat n) i hi with h1 | ⟨h1, h2, h3⟩
    · rcases h.dq n i h1 with h4 | ⟨h4, h5, h6⟩
      · exact .inl h4
      · refine .inr ⟨h4, Nat.lt_of_lt_of_le h5 h'.next, fun hh => ?_⟩
        rcases h'.opn i hh with h7 | h7
        · exact h6 h7
        · omega
    · refine .inr ⟨?_, h2, h3⟩
      rcases h1 with h1 | h1
      · exact .inl (Nat.le_trans h.next h1)
      · rcases h.opn i h1 with h4 | h4
        · exact .inr h4
        · exact .inl h4
  bwd := by
    intro e2 he2
    rcases h'.bwd e2 he2 with ⟨e1, he1, t2⟩ | ⟨h1, h1', h2, h3⟩
    · rcases h.bwd e1 he1 with ⟨e0, he0, t1⟩ | ⟨h1, h1', h2, h3⟩
      · refine .inl ⟨e0, he0, t2.id.trans t1.id, t2.key.trans t1.key, fun v hv => ?_, fun hl ho => ?_⟩
        · rcases t2.val v hv with h4 | h4
          · rw [t2.id, t2.key]; exact t1.val v h4
          · exact .inr h4
        · obtain ⟨a1, a2⟩ := t1.set hl ho
          obtain ⟨b1, b2⟩ := t2.set (by rw [t1.id]; exact Nat.lt_of_lt_of_le hl h.next) (by
            rw [t1.id]; intro hh
            rcases h.opn _ hh with h4 | h4
            · exact ho h4
            · omega)
          exact ⟨b1.trans a1, fun hp => b2 (a2 hp)⟩
      · refine .inr ⟨by rw [t2.id]; exact h1, by rw [t2.id]; exact Nat.lt_of_lt_of_le h1' h'.next, by rw [t2.id, t2.key]; exact h2, fun v hv => ?_⟩
        rcases t2.val v hv with h4 | h4
        · rw [t2.id, t2.key]; exact h3 v h4
        · exact h4
    · exact .inr ⟨Nat.le_trans h.next h1, h1', h2, h3⟩

theorem mono (h : Life P Q s s') (hP : ∀ i k v, P i k v → P' i k v) (hQ : ∀ i k, Q i k → Q' i k) : Life P' Q' s s' := by
  refine ⟨h.neat, h.next, h.opn, h.dq, fun e he => ?_⟩
  rcases h.bwd e he with ⟨e0, h0, t⟩ | ⟨h1, h1', h2, h3⟩
  · refine .inl ⟨e0, h0, t.id, t.key, fun v hv => ?_, t.set⟩
    rcases t.val v hv with h4 | h4
    · exact .inl h4
    · exact .inr (hP _ _ _ h4)
  · exact .inr ⟨h1, h1', hQ _ _ h2, fun v hv => hP _ _ _ (h3 v hv)⟩

/-- No lookup is started or ended, no timer set. -/
theorem plain (hn : s'.nextId = s.nextId) (ho : s'.opens = s.opens) (hd : ∀ i ∈ s'.delayQ, i ∈ s.delayQ)
    (hb : ∀ e' ∈ s'.ents, ∃ e ∈ s.ents, Turns P s e e') : Life P Q s s' :=
  ⟨fun h => ⟨ho ▸ h.nd, by rw [ho, hn]; exact h.lt⟩, Nat.le_of_eq hn.symm, fun i h => .inl (ho ▸ h), fun _ i h => .inl (hd i h),
   fun e he => .inl (hb e he)⟩

/-- The same, for entries changed one by one. -/
theorem map {g : Entry K V E → Entry K V E} (hents : s'.ents = s.ents.map g) (hg : ∀ e ∈ s.ents, Turns P s e (g e))
    (hn : s'.nextId = s.nextId) (ho : s'.opens = s.opens) (hd : ∀ i ∈ s'.delayQ, i ∈ s.delayQ) : Life P Q s s' := by
  refine plain hn ho hd fun e he => ?_
  rw [hents] at he
  obtain ⟨e0, h0, rfl⟩ := List.mem_map.1 he
  exact ⟨e0, h0, hg e0 h0⟩

theorem modify (s : St K V E) (i : Nat) {f : Entry K V E → Entry K V E} (hf : ∀ e ∈ s.ents, e.id = i → Turns P s e (f e)) : Life P Q s (s.modify i f) := by
  refine .map (g := atId i f) (ents_modify _ _ _) (fun e he => ?_) rfl rfl (fun _ h => h)
  unfold atId; split
  · exact hf e he (by assumption)
  · exact turns_refl e

/-- Entries are removed. -/
theorem removal {kept rem : List (Entry K V E)} {g : Entry K V E → Entry K V E} (h1 : s.ents.Perm (kept ++ rem)) (h2 : s'.ents.Perm (kept.map g))
    (hg : ∀ e ∈ s.ents, Turns P s e (g e)) (hn : s'.nextId = s.nextId) (ho : s'.opens = s.opens) (hd : ∀ i ∈ s'.delayQ, i ∈ s.delayQ) : Life P Q s s' := by
  refine plain hn ho hd fun e he => ?_
  obtain ⟨e0, h0, rfl⟩ := List.mem_map.1 (h2.mem_iff.1 he)
  have := h1.mem_iff.2 (List.mem_append_left rem h0)
  exact ⟨e0, this, hg e0 this⟩

theorem drops (h : Drops env s.ents s'.ents) (hn : s'.nextId = s.nextId) (ho : s'.opens = s.opens) (hd : ∀ i ∈ s'.delayQ, i ∈ s.delayQ) : Life P Q s s' := by
  obtain ⟨rem, h1, _⟩ := h
  exact .removal (g := fun e => e) h1 (by simp) (fun e _ => turns_refl e) hn ho hd

end Life

variable {P : Nat → K → V → Prop} {Q : Nat → K → Prop} {s : St K V E}

/-- A change of the mapped part that makes no value and no pending lookup. -/
def Dulls (f : Mapped V E → Mapped V E) : Prop :=
  ∀ m, (∀ v, (f m).val? = some v → m.val? = some v) ∧ (m.isPending = false → (f m).isPending = false)

theorem Dulls.turns {f : Mapped V E → Mapped V E} (h : Dulls f) (e : Entry K V E) : Turns P s e (e.upd f) :=
  ⟨rfl, rfl, fun v hv => .inl ((h _).1 v hv), fun _ _ => ⟨rfl, (h _).2⟩⟩

theorem dulls_strengthen (env : Env V) : Dulls (V := V) (E := E) (.strengthen env) := by
  intro m
  unfold Mapped.strengthen
  repeat' split
  all_goals simp_all [Mapped.val?, Mapped.isPending]

theorem dulls_markExpired : Dulls (V := V) (E := E) .markExpired := by
  intro m; cases m <;> simp [Mapped.markExpired, Mapped.val?, Mapped.isPending]

theorem dulls_weaken (b : Bool) : Dulls (V := V) (E := E) (.weaken b) := by
  intro m
  unfold Mapped.weaken
  repeat' split
  all_goals simp_all [Mapped.val?, Mapped.isPending]

theorem dulls_addCb (cb : Cb) : Dulls (V := V) (E := E) (.addCb cb) := by
  intro m; cases m <;> simp [Mapped.addCb, Mapped.val?, Mapped.isPending]

theorem dulls_cancel : Dulls (V := V) (E := E) .cancel := by
  intro m; cases m <;> simp [Mapped.cancel, Mapped.val?, Mapped.isPending]

theorem dispose_dq (es : List (Entry K V E)) {i : Nat} (h : i ∈ (dispose cfg s es).delayQ) : i ∈ s.delayQ := by
  rw [(dispose_fields cfg es s).2.2.2.2.2.1] at h
  revert h
  generalize es.map (·.id) = is
  generalize s.delayQ = l
  induction is generalizing l with
  | nil => exact fun h => h
  | cons j is ih => exact fun h => List.mem_of_mem_erase (ih _ h)

theorem onHit_life (i : Nat) : Life P Q s (onHit cfg env s i) := by
  refine .map (g := atId i (hitUpd cfg env)) (onHit_ents _ _ _ _) (fun e _ => ?_) (by simp) (by simp) (fun j hj => ?_)
  · unfold atId; split
    · have h1 : ∀ x : Entry K V E, Turns P s x (if cfg.maxSize.isSome = true then x.upd (.strengthen env) else x) := by
        intro x; split
        · exact (dulls_strengthen env).turns x
        · exact Life.turns_refl x
      unfold hitUpd
      simp only
      repeat' split
      all_goals first
        | exact Life.turns_refl e
        | exact (dulls_strengthen env).turns e
        | exact ⟨rfl, rfl, (dulls_strengthen env |>.turns (P := P) (s := s) e).val, (dulls_strengthen env |>.turns (P := P) (s := s) e).set⟩
        | exact ⟨rfl, rfl, fun v hv => .inl hv, fun _ _ => ⟨rfl, fun h => h⟩⟩
    · exact Life.turns_refl e
  · unfold onHit at hj
    simp only at hj
    repeat' split at hj
    all_goals exact hj

theorem onCreate_life (i : Nat) : Life P Q s (onCreate cfg env s i) := by
  refine .map (g := creUpd (strId cfg s i) env) (onCreate_ents _ _ _ _) (fun e _ => ?_) (by simp) (by simp) (fun j hj => ?_)
  · unfold creUpd; split
    · exact (dulls_strengthen env).turns e
    · exact Life.turns_refl e
  · unfold onCreate at hj
    simp only at hj
    repeat' split at hj
    all_goals exact hj

theorem evictAll_life (vs : List Nat) : Life P Q s (evictAll cfg s vs) := by
  unfold evictAll
  induction vs generalizing s with
  | nil => exact .refl _
  | cons i vs ih =>
    rw [List.foldl_cons]
    refine Life.trans (.modify _ _ fun e _ _ => ?_) ih
    split
    · exact (dulls_weaken _).turns e
    · exact dulls_markExpired.turns e

theorem maintenance_life : Life P Q s (maintenance cfg s) := by
  unfold maintenance; split
  · exact .refl _
  · exact evictAll_life _

theorem walked_life (k : K) (incl : Bool) : Life P Q s (walked cfg env s k incl) := by
  obtain ⟨oth, h1, h2, _⟩ := applyWalk_perm (cfg := cfg) (s := s) (i := s.bucketFor (cfg.hash k))
    (w := getWalk cfg env k incl (s.bucket (s.bucketFor (cfg.hash k)))) (kept0 := (getWalk cfg env k incl (s.bucket (s.bucketFor (cfg.hash k)))).kept)
    (g := fun e => e) (getWalk_perm cfg env k incl _) (by simp)
  refine .drops (env := env) ⟨_, h1.trans (List.Perm.append_right _ ?_), getWalk_removed cfg env k incl _⟩ (by simp [walked]) (by simp [walked])
    (fun j hj => dispose_dq (s := s.setBucket _ _) _ hj)
  simpa [walked] using h2.symm

theorem get__life (k : K) (incl : Bool) : Life P Q s (get_ cfg env s k incl).1 := by
  unfold get_; simp only
  split
  · exact walked_life k incl
  · exact (walked_life k incl).trans (onHit_life _)

theorem expire__life (hc : cfg.Ok) (k : K) : Life P Q s (expire_ cfg env s k) := by
  have heq := expireWalk_eq hc env k (s.bucket (s.bucketFor (cfg.hash k)))
  have hperm : (s.bucket (s.bucketFor (cfg.hash k))).Perm ((s.bucket (s.bucketFor (cfg.hash k))).filter (fun e => if cfg.eqv e.key k then e.isPending else !stale env e) ++
      (expireWalk cfg env k (s.bucket (s.bucketFor (cfg.hash k)))).removed) := by
    rw [heq.2]
    refine (filter_append_not _ (fun e => if cfg.eqv e.key k then e.isPending else !stale env e)).trans ?_
    refine List.Perm.append_left _ (List.Perm.of_eq ?_)
    apply List.filter_congr
    intro x _
    cases cfg.eqv x.key k <;> simp
  obtain ⟨oth, h1, h2, _⟩ := applyWalk_perm (cfg := cfg) hperm heq.1
  refine .plain (by simp) (by simp) (fun j hj => dispose_dq (s := s.setBucket _ _) _ hj) fun x hx => ?_
  have hx : x ∈ (applyWalk cfg s (s.bucketFor (cfg.hash k)) (expireWalk cfg env k (s.bucket (s.bucketFor (cfg.hash k))))).ents := hx
  rcases List.mem_append.1 (h2.mem_iff.1 hx) with hh | hh
  · exact ⟨x, h1.mem_iff.2 (by simp [hh]), Life.turns_refl x⟩
  · obtain ⟨x0, h0, rfl⟩ := List.mem_map.1 hh
    refine ⟨x0, h1.mem_iff.2 (List.mem_append_left _ (List.mem_append_right _ h0)), ?_⟩
    split
    · exact dulls_markExpired.turns x0
    · exact Life.turns_refl x0

theorem beforeLink_dq {i : Nat} (h : i ∈ (beforeLink cfg env s).delayQ) : i ∈ s.delayQ := by
  unfold beforeLink at h; split at h
  · exact dispose_dq (s := { s with tbl := s.tbl.map (fun b => (purgeWalk env b).kept) }) _ h
  · exact h

theorem beforeLink_life : Life P Q s (beforeLink cfg env s) :=
  .drops (beforeLink_drops cfg env s) (by simp) (by simp) (fun _ h => beforeLink_dq h)

theorem maybeRehash_life : Life P Q s (maybeRehash cfg env s) := by
  refine .drops (maybeRehash_drops cfg env s) (by simp) (by simp) (fun j hj => ?_)
  unfold maybeRehash at hj
  simp only at hj
  split at hj <;> exact beforeLink_dq hj

/-- `on_assign_` of an entry that is new, or whose lookup has just ended. -/
theorem onAssign_turns (b : Bool) (e : Entry K V E) (he : ¬ (e.id < s.nextId ∧ e.id ∉ s.opens)) : Turns P s e (assignTimes cfg env b e) := by
  refine ⟨((assignTimes_idKey cfg env b) e).1, ((assignTimes_idKey cfg env b) e).2, fun v hv => .inl ?_, fun h1 h2 => absurd ⟨h1, h2⟩ he⟩
  unfold assignTimes at hv; simp only at hv
  repeat' split at hv
  all_goals exact hv

theorem onAssign_dq (i : Nat) (b : Bool) {j : Nat} (h : j ∈ (onAssign cfg env s i b).delayQ) : j ∈ s.delayQ ∨ j = i := by
  unfold onAssign at h; simp only at h
  split at h
  · rcases List.mem_append.1 h with h | h
    · exact .inl h
    · exact .inr (by simpa using h)
  · exact .inl h

theorem link_life {e : Entry K V E} (he : e.id = s.nextId) (hQ : Q e.id e.key) (hP : ∀ v, e.mapped.val? = some v → P e.id e.key v) :
    Life P Q s (link cfg env s e) := by
  have f1 : Life P Q s (maybeRehash cfg env s) := maybeRehash_life
  have hne := maybeRehash_ne (cfg := cfg) env s
  have hn : (maybeRehash cfg env s).nextId = s.nextId := by simp
  have hop : (maybeRehash cfg env s).opens = s.opens := by simp
  unfold link; simp only
  generalize maybeRehash cfg env s = s1 at *
  have f2 : Life P Q s1 { s1 with tbl := place cfg s1.tbl e, nextId := s1.nextId + 1 } := by
    have hp : St.ents { s1 with tbl := place cfg s1.tbl e, nextId := s1.nextId + 1 } |>.Perm (s1.ents ++ [e]) :=
      Buckets.perm_place (fun e : Entry K V E => cfg.hash e.key) hne e
    refine ⟨fun h => ⟨h.nd, fun t ht => Nat.lt_succ_of_lt (h.lt t ht)⟩, Nat.le_succ _, fun _ h => .inl h, fun _ _ h => .inl h, fun x hx => ?_⟩
    rcases List.mem_append.1 (hp.mem_iff.1 hx) with h | h
    · exact .inl ⟨x, h, Life.turns_refl x⟩
    · rw [List.mem_singleton] at h; subst h
      exact .inr ⟨by omega, by show x.id < s1.nextId + 1; omega, hQ, hP⟩
  have f3 := (f1.trans f2).trans (onCreate_life (cfg := cfg) (env := env) e.id)
  have hn3 : (onCreate cfg env { s1 with tbl := place cfg s1.tbl e, nextId := s1.nextId + 1 } e.id).nextId = s.nextId + 1 := by simp [hn]
  have ho3 : (onCreate cfg env { s1 with tbl := place cfg s1.tbl e, nextId := s1.nextId + 1 } e.id).opens = s.opens := by simp [hop]
  generalize onCreate cfg env { s1 with tbl := place cfg s1.tbl e, nextId := s1.nextId + 1 } e.id = s3 at *
  split
  · exact f3
  · refine ⟨fun h => ?_, by simp; omega, by simp; exact f3.opn, fun h j hj => ?_, fun x hx => ?_⟩
    · have := f3.neat h
      exact ⟨by simpa using this.nd, by simpa using this.lt⟩
    · rcases onAssign_dq _ _ hj with h1 | h1
      · rcases f3.dq h j h1 with h2 | ⟨h2, h3, h4⟩
        · exact .inl h2
        · exact .inr ⟨h2, by simpa using h3, by simpa using h4⟩
      · subst h1
        refine .inr ⟨.inl (by omega), by simp; omega, ?_⟩
        simp only [onAssign_opens, ho3]
        intro hh; have := h.lt _ hh; omega
    · rw [onAssign_ents] at hx
      obtain ⟨x0, h0, rfl⟩ := List.mem_map.1 hx
      unfold atId
      split
      · rename_i hi
        have hv : ∀ v, (assignTimes cfg env (e.mapped.holdsValue env) x0).mapped.val? = some v → x0.mapped.val? = some v := by
          intro v hv
          unfold assignTimes at hv; simp only at hv
          repeat' split at hv
          all_goals exact hv
        have hik := assignTimes_idKey cfg env (e.mapped.holdsValue env) x0
        rcases f3.bwd x0 h0 with ⟨y, hy, t⟩ | ⟨h1, h1', h2, h3⟩
        · refine .inl ⟨y, hy, hik.1.trans t.id, hik.2.trans t.key, fun v h => ?_, fun hl _ => ?_⟩
          · rw [hik.1, hik.2]; exact t.val v (hv v h)
          · have := t.id; omega
        · exact .inr ⟨by rw [hik.1]; exact h1, by rw [hik.1, onAssign_nextId]; exact h1', by rw [hik.1, hik.2]; exact h2, fun v h => by rw [hik.1, hik.2]; exact h3 v (hv v h)⟩
      · rw [onAssign_nextId]; exact f3.bwd x0 h0

theorem tryLink_life {e : Entry K V E} (he : e.id = s.nextId) (f : Fail) (hQ : Q e.id e.key)
    (hP : (tryLink cfg env s e f).2 = true → ∀ v, e.mapped.val? = some v → P e.id e.key v) : Life P Q s (tryLink cfg env s e f).1 := by
  rcases tryLink_cases cfg env s e f with h | h | h <;> rw [h] <;> rw [h] at hP
  · exact link_life he hQ (hP rfl)
  · exact .refl _
  · exact beforeLink_life

theorem runCb_life (i : Nat) (cb : Cb) : Life P Q s (runCb s i cb) := by
  cases cb with
  | user w => exact .refl _
  | refresh old =>
    simp only [runCb]
    refine Life.trans (s' := s.modify i _) (.modify _ _ fun e _ _ => ?_) (.modify _ _ fun e _ _ => dulls_markExpired.turns e)
    exact ⟨rfl, rfl, fun _ h => .inl h, fun _ _ => ⟨rfl, fun h => h⟩⟩

theorem runCbs_life (i : Nat) (cbs : List Cb) : Life P Q s (runCbs s i cbs) := by
  unfold runCbs
  induction cbs generalizing s with
  | nil => exact .refl _
  | cons c cbs ih => rw [List.foldl_cons]; exact (runCb_life i c).trans ih

theorem runCbs_opens_ents (tok : Nat) : ∀ (cbs : List Cb) (x : St K V E) (l : List Nat), (runCbs { x with opens := l } tok cbs).ents = (runCbs x tok cbs).ents := by
  have hcb : ∀ (cbs : List Cb) (x : St K V E) (l : List Nat), { runCbs { x with opens := l } tok cbs with opens := x.opens } = runCbs x tok cbs := by
    intro cbs
    unfold runCbs
    induction cbs with
    | nil => intro x l; rfl
    | cons c cbs ih =>
      intro x l
      rw [List.foldl_cons, List.foldl_cons]
      cases c with
      | user w => exact ih x l
      | refresh old =>
        have := ih (runCb x tok (.refresh old)) l
        rw [runCb_opens] at this
        exact this
  intro cbs x l
  have := congrArg St.ents (hcb cbs x l)
  exact this

theorem completed_life (r : Res V E) (m : Mapped V E) {v : V} (h : (completed cfg r m).val? = some v) : m.val? = some v ∨ r = .ok v := by
  unfold completed at h
  split at h
  · split at h
    · rename_i u
      unfold Mapped.assigned at h
      repeat' split at h
      all_goals simp_all [Mapped.val?]
    · unfold Mapped.assignedError at h
      repeat' split at h
      all_goals simp_all [Mapped.val?]
  · exact .inl h

theorem complete_life {tok : Nat} {r : Res V E} (hP : ∀ v, tok ∈ s.opens → s.destroyed = false → r = .ok v → ∀ k, P tok k v) :
    Life P Q s (complete cfg env s tok r).1 := by
  by_cases ht : tok ∉ s.opens
  · have : (complete cfg env s tok r).1 = s := by unfold complete; rw [if_neg ht]
    rw [this]; exact .refl _
  have ht := Decidable.not_not.1 ht
  have hop := complete_opens (cfg := cfg) (env := env) (s := s) tok r
  have hnx := complete_nextId (cfg := cfg) (env := env) (s := s) tok r
  refine ⟨fun h => ⟨?_, ?_⟩, by rw [hnx]; exact Nat.le_refl _, fun i hi => .inl ?_, fun h i hi => ?_, ?_⟩
  · rw [hop]; exact h.nd.erase _
  · rw [hop, hnx]; exact fun t ht => h.lt t (List.mem_of_mem_erase ht)
  · rw [hop] at hi; exact List.mem_of_mem_erase hi
  · rw [hop, hnx]
    have hi' : i ∈ s.delayQ ∨ i = tok := by
      unfold complete at hi
      rw [if_pos ht] at hi
      simp only at hi
      split at hi
      · exact .inl hi
      · have h1 := onAssign_dq _ _ hi
        rcases h1 with h1 | h1
        · left
          have h2 : i ∈ (runCbs { s with opens := s.opens.erase tok } tok _).delayQ := h1
          have : ∀ (cbs : List Cb) (x : St K V E), (runCbs x tok cbs).delayQ = x.delayQ := by
            intro cbs
            unfold runCbs
            induction cbs with
            | nil => intro x; rfl
            | cons c cbs ih => intro x; rw [List.foldl_cons, ih]; exact runCb_delayQ _ _
          rw [this] at h2
          exact h2
        · exact .inr h1
    rcases hi' with h1 | rfl
    · exact .inl h1
    · exact .inr ⟨.inr ht, h.lt _ ht, fun hh => (List.Nodup.mem_erase_iff h.nd).1 hh |>.1 rfl⟩
  · rw [hnx]
    intro e' he'
    unfold complete at he'
    rw [if_pos ht] at he'
    simp only at he'
    split at he'
    · have f : Life P Q s (s.modify tok (·.upd .cancel)) := .modify _ _ fun e _ _ => dulls_cancel.turns e
      refine f.bwd e' ?_
      rw [ents_modify] at he' ⊢
      exact he'
    · rename_i hd
      simp only [Bool.not_eq_true] at hd
      generalize ((({ s with opens := s.opens.erase tok } : St K V E).findAny tok).map (·.mapped.cbs)).getD [] = cbs at he'
      have f1 : Life P Q s (runCbs s tok cbs) := runCbs_life tok cbs
      have hx : ∀ (x : Entry K V E), x.id = tok → ¬ (x.id < (runCbs s tok cbs).nextId ∧ x.id ∉ (runCbs s tok cbs).opens) := by
        intro x hx hh
        rw [hx, runCbs_opens] at hh
        exact hh.2 ht
      have f2 : Life P Q (runCbs s tok cbs) ((runCbs s tok cbs).modify tok (·.upd (completed cfg r))) := by
        refine .modify _ _ fun e _ hi => ⟨rfl, rfl, fun v hv => ?_, fun h1 h2 => absurd ⟨h1, h2⟩ (hx e hi)⟩
        rcases completed_life r _ hv with h1 | h1
        · exact .inl h1
        · right
          have : (e.upd (completed cfg r)).id = tok := hi
          rw [this]; exact hP v ht hd h1 _
      have f3 : Life P Q ((runCbs s tok cbs).modify tok (·.upd (completed cfg r)))
          (((runCbs s tok cbs).modify tok (·.upd (completed cfg r))).modify tok (assignTimes cfg env r.isOk)) :=
        .modify _ _ fun e _ hi => onAssign_turns _ _ (hx e hi)
      have f4 := ((f1.trans f2).trans f3).bwd e'
      simp only [modify_nextId, runCbs_nextId] at f4
      refine f4 ?_
      rw [onAssign_ents, ents_modify, runCbs_opens_ents] at he'
      rw [ents_modify, ents_modify]
      exact he'

theorem drop_life (tok : Nat) : Life P Q s (drop s tok).1 := by
  have hop := drop_opens (s := s) tok
  by_cases ht : tok ∉ s.opens
  · have : (drop s tok).1 = s := by unfold drop; rw [if_neg ht]
    rw [this]; exact .refl _
  have ht := Decidable.not_not.1 ht
  have he : (drop s tok).1 = ({ s with opens := s.opens.erase tok } : St K V E).modify tok (·.upd .cancel) := by unfold drop; rw [if_pos ht]
  rw [he]
  refine ⟨fun h => ⟨?_, ?_⟩, Nat.le_refl _, fun i hi => .inl (List.mem_of_mem_erase hi), fun _ i hi => .inl hi, ?_⟩
  · exact h.nd.erase _
  · exact fun t ht => h.lt t (List.mem_of_mem_erase ht)
  · intro e' he'
    have f : Life P Q s (s.modify tok (·.upd .cancel)) := .modify _ _ fun e _ _ => dulls_cancel.turns e
    exact f.bwd e' he'

theorem link_pending_dq {e : Entry K V E} (he : e.isPending = true) {i : Nat} (h : i ∈ (link cfg env s e).delayQ) : i ∈ s.delayQ := by
  unfold link at h
  simp only [he, if_true] at h
  have h1 : ∀ x : St K V E, (onCreate cfg env x e.id).delayQ = x.delayQ := by
    intro x; unfold onCreate; simp only; repeat' split
    all_goals rfl
  rw [h1] at h
  have h2 : i ∈ (maybeRehash cfg env s).delayQ := h
  unfold maybeRehash at h2
  simp only at h2
  split at h2 <;> exact beforeLink_dq h2

theorem resolveAsync_life {k : K} {b : Beh V E} (hQ : Q s.nextId k) (hP : ∀ v, b = .now (.ok v) → ∀ k, P s.nextId k v) :
    Life P Q s (resolveAsync cfg env s k b).1 := by
  have f1 : Life P Q s (link cfg env s (newEntry s k (.pending {}))) := link_life rfl hQ (by intro v hv; cases hv)
  have hn1 : (link cfg env s (newEntry s k (.pending {}))).nextId = s.nextId + 1 := by simp
  have ho1 : (link cfg env s (newEntry s k (.pending {}))).opens = s.opens := by simp
  have hq1 : ∀ i ∈ (link cfg env s (newEntry s k (.pending {}))).delayQ, i ∈ s.delayQ := fun i => link_pending_dq rfl
  have f2 : Life P Q s ({ link cfg env s (newEntry s k (.pending {})) with opens := (link cfg env s (newEntry s k (.pending {}))).opens ++ [s.nextId] } : St K V E) := by
    refine ⟨fun h => ⟨?_, ?_⟩, f1.next, ?_, fun _ i hi => .inl (hq1 i hi), f1.bwd⟩
    · simp only [ho1]
      refine List.nodup_append.2 ⟨h.nd, by simp, ?_⟩
      intro a ha b hb
      simp at hb
      have := h.lt a ha
      omega
    · simp only [ho1, hn1]
      intro t ht
      rcases List.mem_append.1 ht with h1 | h1
      · have := h.lt t h1; omega
      · simp at h1; omega
    · simp only [ho1]
      intro i hi
      rcases List.mem_append.1 hi with h1 | h1
      · exact .inl h1
      · simp at h1; exact .inr (by omega)
  cases b with
  | later => exact f2
  | now r => exact f2.trans (complete_life fun v _ _ hr k => hP v (by rw [hr]) k)
  | drop => exact f2.trans (drop_life _)

theorem answer_life (i w : Nat) (l : Look V E) : Life P Q s (answer s i w l).1 := by
  cases l with
  | pend => exact .modify _ _ fun e _ _ => (dulls_addCb _).turns e
  | _ => exact .refl _

theorem refresh_life {e : Entry K V E} {r : Res V E} {b : Beh V E} (hQ : (refresh cfg env s e r b).2.calls = [(e.key, s.nextId)] → Q s.nextId e.key)
    (hP : ∀ v, (refresh cfg env s e r b).2.calls = [(e.key, s.nextId)] →
      (cfg.resolver ≠ .async ∧ r = .ok v ∨ cfg.resolver = .async ∧ b = .now (.ok v)) → ∀ k, P s.nextId k v) :
    Life P Q s (refresh cfg env s e r b).1 := by
  by_cases hx : (e.refreshing || e.expired env) = true
  · have : (refresh cfg env s e r b).1 = s := by unfold refresh; rw [if_pos hx]
    rw [this]; exact .refl _
  · have hcalls : (refresh cfg env s e r b).2.calls = [(e.key, s.nextId)] := by
      unfold refresh; rw [if_neg hx]
      simp only
      have ht : (if cfg.resolver = .async then resolveAsync cfg env s e.key b else resolveSync cfg env s e.key r).2 = s.nextId := by
        split
        · cases b <;> rfl
        · rfl
      rw [ht]
      repeat' split
      all_goals rfl
    have hQ := hQ hcalls
    have hP := fun v => hP v hcalls
    unfold refresh
    rw [if_neg hx]
    have f1 : Life P Q s (if cfg.resolver = .async then resolveAsync cfg env s e.key b else resolveSync cfg env s e.key r).1 := by
      split
      · rename_i ha
        exact resolveAsync_life hQ fun v hb => hP v (.inr ⟨ha, hb⟩)
      · rename_i ha
        refine link_life rfl hQ fun v hv => hP v (.inl ⟨ha, ?_⟩) _
        cases r with
        | ok u => simp [newEntry, syncMapped, Mapped.val?] at hv; rw [hv]
        | err u => simp [newEntry, syncMapped, Mapped.val?] at hv
    simp only
    generalize (if cfg.resolver = .async then resolveAsync cfg env s e.key b else resolveSync cfg env s e.key r) = g at *
    obtain ⟨s1, tok⟩ := g
    simp only at *
    have f2 := f1.trans (Life.modify (P := P) (Q := Q) s1 e.id (f := fun x => { x with refreshing := true })
      (fun _ _ _ => ⟨rfl, rfl, fun _ h => .inl h, fun _ _ => ⟨rfl, fun h => h⟩⟩))
    repeat' split
    · exact f2.trans (.modify _ _ fun e _ _ => (dulls_addCb _).turns e)
    · exact f2.trans (runCb_life tok (.refresh e.id))
    · exact f2

/-- What an operation other than the refresh can store, in which entry. -/
def stepP (s : St K V E) (out : Out K V E) : Op K V E → Nat → K → V → Prop
  | .emplace _ u _, i, _, v => i = s.nextId ∧ v = u ∧ out.made = true
  | .getOrEmplace _ u _, i, _, v => i = s.nextId ∧ v = u ∧ out.made = true
  | .get k r, i, _, v => i = s.nextId ∧ r = .ok v ∧ out.calls = [(k, i)]
  | .asyncGet k _ b, i, _, v => i = s.nextId ∧ b = .now (.ok v) ∧ out.calls = [(k, i)]
  | .complete tok r, i, _, v => i = tok ∧ r = .ok v ∧ tok ∈ s.opens ∧ s.destroyed = false
  | _, _, _, _ => False

/-- The key of the entry it can add. -/
def stepQ (s : St K V E) (out : Out K V E) : Op K V E → Nat → K → Prop
  | .emplace k _ _, i, a => i = s.nextId ∧ a = k
  | .getOrEmplace k _ _, i, a => i = s.nextId ∧ a = k
  | .get k _, i, a => i = s.nextId ∧ a = k
  | .asyncGet k _ _, i, a => i = s.nextId ∧ a = k ∧ out.calls = [(k, i)]
  | _, _, _ => False

theorem step_life (hc : cfg.Ok) (o : Op K V E) (ht : ∀ r b, o ≠ .tick r b) :
    Life (stepP s (step cfg env s o).2 o) (stepQ s (step cfg env s o).2 o) s (step cfg env s o).1 := by
  cases o with
  | getIfExists k => exact .refl _
  | count => exact .refl _
  | get k r =>
    have f1 := get__life (P := stepP s (step cfg env s (.get k r)).2 (.get k r)) (Q := stepQ s (step cfg env s (.get k r)).2 (.get k r))
      (cfg := cfg) (env := env) (s := s) k false
    have hn := get__nextId (cfg := cfg) (env := env) (s := s) k false
    simp only [step, get] at f1 ⊢
    generalize get_ cfg env s k false = g at *
    obtain ⟨s1, l⟩ := g
    cases hres : cfg.resolver <;> cases l <;> simp only [hres] at f1 ⊢ <;> try exact f1
    refine f1.trans (link_life rfl ⟨hn, rfl⟩ fun v hv => ⟨hn, ?_, rfl⟩)
    cases r with
    | ok u => simp [newEntry, syncMapped, Mapped.val?] at hv; rw [hv]
    | err u => simp [newEntry, syncMapped, Mapped.val?] at hv
  | asyncGet k w b =>
    have f1 := get__life (P := stepP s (step cfg env s (.asyncGet k w b)).2 (.asyncGet k w b)) (Q := stepQ s (step cfg env s (.asyncGet k w b)).2 (.asyncGet k w b))
      (cfg := cfg) (env := env) (s := s) k true
    have hn := get__nextId (cfg := cfg) (env := env) (s := s) k true
    simp only [step, asyncGet] at f1 ⊢
    generalize get_ cfg env s k true = g at *
    obtain ⟨s1, l⟩ := g
    simp only at *
    split
    · rename_i hh
      simp only [hh] at f1
      exact f1.trans (answer_life _ _ _)
    · rename_i hh
      simp only [hh] at f1
      have h2 : (resolveAsync cfg env s1 k b).2 = s1.nextId := by cases b <;> rfl
      refine f1.trans (Life.trans (s' := (resolveAsync cfg env s1 k b).1) ?_ (answer_life _ _ _))
      refine resolveAsync_life ⟨hn, rfl, ?_⟩ fun v hb _ => ⟨hn, hb, ?_⟩
      · rw [h2]
      · rw [h2]
  | emplace k v f =>
    have f1 := expire__life (P := stepP s (step cfg env s (.emplace k v f)).2 (.emplace k v f)) (Q := stepQ s (step cfg env s (.emplace k v f)).2 (.emplace k v f))
      (cfg := cfg) (env := env) (s := s) hc k
    have hn := expire__nextId (cfg := cfg) (env := env) (s := s) k
    simp only [step, emplace] at f1 ⊢
    generalize expire_ cfg env s k = s1 at *
    have f2 := f1.trans (tryLink_life (cfg := cfg) (env := env) (e := newEntry s1 k (.value v)) rfl f ⟨hn, rfl⟩ (by
      intro hm u hu
      simp [newEntry, Mapped.val?] at hu
      refine ⟨hn, hu.symm, ?_⟩
      rw [if_pos hm]))
    split
    · rename_i hm
      simp only [hm, if_true] at f2
      exact f2.trans maintenance_life
    · rename_i hm
      rw [if_neg hm] at f2
      exact f2
  | getOrEmplace k v f =>
    have f1 := get__life (P := stepP s (step cfg env s (.getOrEmplace k v f)).2 (.getOrEmplace k v f)) (Q := stepQ s (step cfg env s (.getOrEmplace k v f)).2 (.getOrEmplace k v f))
      (cfg := cfg) (env := env) (s := s) k true
    have hn := get__nextId (cfg := cfg) (env := env) (s := s) k true
    simp only [step, getOrEmplace] at f1 ⊢
    generalize get_ cfg env s k true = g at *
    obtain ⟨s1, l⟩ := g
    cases l <;> simp only at f1 ⊢ <;> try exact f1.trans maintenance_life
    have f2 := f1.trans (tryLink_life (cfg := cfg) (env := env) (e := newEntry s1 k (.value v)) rfl f ⟨hn, rfl⟩ (by
      intro hm u hu
      simp [newEntry, Mapped.val?] at hu
      refine ⟨hn, hu.symm, ?_⟩
      rw [if_pos hm]))
    split
    · rename_i hm
      simp only [hm, if_true] at f2
      exact f2.trans maintenance_life
    · rename_i hm
      rw [if_neg hm] at f2
      exact f2
  | erase k => exact expire__life hc k
  | clear =>
    simp only [step]
    refine .removal (kept := s.ents.filter (·.isPending)) (rem := s.ents.filter (fun e => !e.isPending)) (g := fun e => e.upd .markExpired)
      (filter_append_not _ _) (by rw [clear_ents]) (fun e _ => dulls_markExpired.turns e) (by simp) (by simp)
      (fun j hj => dispose_dq (s := { s with tbl := s.tbl.map (fun b => (expireAllWalk b).kept) }) _ hj)
  | complete tok r => exact complete_life fun v h1 h2 h3 _ => ⟨rfl, h3, h1, h2⟩
  | drop tok => exact drop_life tok
  | tick r b => exact absurd rfl (ht r b)
  | destroy =>
    have f := dispose_fields cfg s.ents { s with tbl := s.tbl.map (fun _ => []) }
    refine .plain f.2.2.1 f.2.2.2.1 (fun j hj => dispose_dq (s := { s with tbl := s.tbl.map (fun _ => []) }) _ hj) fun e he => ?_
    have : e ∈ (destroy cfg s).1.ents := he
    rw [destroy_ents] at this; cases this

end Hoard
