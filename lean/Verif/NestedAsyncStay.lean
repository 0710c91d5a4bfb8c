import Verif.NestedAsyncCaller
/-! The entry of a lookup is not lost: it is in the table, or was taken out of it. -/
namespace Hoard.NestedAsync
open Spec
open Handlers (AllE cbsOf withOpens complete_pos complete_neg complete_dead drop_pos drop_neg)
variable {K V E : Type} {cfg : Cfg K} {env : Env V} {s s' : St K V E} {h : NHist K V E}

/-- The entry `t` exists, in the table or not. -/
def In (t : Nat) (s : St K V E) : Prop := ∃ e ∈ s.ents ++ s.limbo, e.id = t

/-- No entry is lost. -/
def Sub (s s' : St K V E) : Prop := ∀ t, In t s → In t s'

theorem Sub.refl (s : St K V E) : Sub s s := fun _ h => h
theorem Sub.trans {a b c : St K V E} (h1 : Sub a b) (h2 : Sub b c) : Sub a c := fun t h => h2 t (h1 t h)
theorem Sub.of (h : ∀ e ∈ s.ents ++ s.limbo, e ∈ s'.ents ++ s'.limbo) : Sub s s' := fun _ ⟨e, he, hi⟩ => ⟨e, h e he, hi⟩

theorem sub_modify (s : St K V E) (i : Nat) {f : Entry K V E → Entry K V E} (hf : ∀ e, (f e).id = e.id) : Sub s (s.modify i f) := by
  rintro t ⟨e, he, hi⟩
  refine ⟨atId i f e, ?_, ?_⟩
  · rw [ents_modify, limbo_modify, ← List.map_append]; exact List.mem_map.2 ⟨e, he, rfl⟩
  · simp only [atId]; split
    · rw [hf]; exact hi
    · exact hi

theorem in_dispose (es : List (Entry K V E)) : ∀ {s : St K V E} {t : Nat}, (In t s ∨ ∃ e ∈ es, e.id = t) → In t (dispose cfg s es) := by
  induction es with
  | nil => intro s t h; rcases h with h | ⟨e, he, _⟩; exact h; cases he
  | cons a es ih =>
    intro s t h
    refine ih (s := disposeOne cfg s a) ?_
    rcases h with ⟨e, he, hi⟩ | ⟨e, he, hi⟩
    · refine .inl ⟨e, ?_, hi⟩
      simp only [disposeOne, St.ents, List.mem_append] at he ⊢
      rcases he with he | he
      · exact .inl he
      · exact .inr (.inl he)
    · rcases List.mem_cons.1 he with rfl | he
      · refine .inl ⟨e.upd .cancel, ?_, hi⟩
        exact List.mem_append_right _ (List.mem_append_right _ (List.mem_singleton.2 rfl))
      · exact .inr ⟨e, he, hi⟩

theorem sub_setBucket {i : Nat} {b : List (Entry K V E)} {e : Entry K V E} (he : e ∈ s.ents) : e ∈ s.bucket i ∨ e ∈ (s.setBucket i b).ents := by
  simp only [St.ents, St.setBucket, List.mem_flatten] at he ⊢
  obtain ⟨c, hc, he⟩ := he
  obtain ⟨j, hj⟩ := List.getElem?_of_mem hc
  by_cases hij : i = j
  · subst hij; exact .inl (by simp only [St.bucket, hj]; exact he)
  · exact .inr ⟨c, List.mem_of_getElem? (i := j) (by rw [List.getElem?_set_ne hij]; exact hj), he⟩

theorem mem_setBucket_kept {i : Nat} {b : List (Entry K V E)} {e x : Entry K V E} (he : e ∈ s.bucket i) (hx : x ∈ b) : x ∈ (s.setBucket i b).ents := by
  simp only [St.bucket] at he
  cases hb : s.tbl[i]? with
  | none => rw [hb] at he; cases he
  | some c =>
    have hl : i < s.tbl.length := (List.getElem?_eq_some_iff.1 hb).1
    simp only [St.ents, St.setBucket, List.mem_flatten]
    exact ⟨b, List.mem_of_getElem? (i := i) (by rw [List.getElem?_set_self hl]), hx⟩

theorem sub_applyWalk (i : Nat) {w : Walk K V E} (hw : ∀ e ∈ s.bucket i, ∃ x ∈ w.kept ++ w.removed, x.id = e.id) : Sub s (applyWalk cfg s i w) := by
  rintro t ⟨e, he, hi⟩
  refine in_dispose _ ?_
  rcases List.mem_append.1 he with he | he
  · rcases sub_setBucket (i := i) (b := w.kept) he with hb | hb
    · obtain ⟨x, hx, hxi⟩ := hw e hb
      rcases List.mem_append.1 hx with hx | hx
      · exact .inl ⟨x, List.mem_append_left _ (mem_setBucket_kept hb hx), hxi.trans hi⟩
      · exact .inr ⟨x, hx, hxi.trans hi⟩
    · exact .inl ⟨e, List.mem_append_left _ hb, hi⟩
  · exact .inl ⟨e, List.mem_append_right _ he, hi⟩

theorem cover_keep {w : Walk K V E} {a e : Entry K V E} (h : ∃ x ∈ w.kept ++ w.removed, x.id = e.id) : ∃ x ∈ (w.keep a).kept ++ (w.keep a).removed, x.id = e.id := by
  obtain ⟨x, hx, hi⟩ := h
  exact ⟨x, by simp only [Walk.keep, List.mem_append, List.mem_cons] at hx ⊢; rcases hx with hx | hx <;> simp [hx], hi⟩

theorem cover_drop {w : Walk K V E} {a e : Entry K V E} (h : ∃ x ∈ w.kept ++ w.removed, x.id = e.id) : ∃ x ∈ (w.drop a).kept ++ (w.drop a).removed, x.id = e.id := by
  obtain ⟨x, hx, hi⟩ := h
  exact ⟨x, by simp only [Walk.drop, List.mem_append, List.mem_cons] at hx ⊢; rcases hx with hx | hx <;> simp [hx], hi⟩

theorem getWalk_cover (k : K) (incl : Bool) : ∀ (es : List (Entry K V E)), ∀ e ∈ es, ∃ x ∈ (getWalk cfg env k incl es).kept ++ (getWalk cfg env k incl es).removed, x.id = e.id
  | [] => by simp
  | a :: es => by
    have ih := getWalk_cover k incl es
    intro e he
    simp only [getWalk]
    have hk : ∃ x ∈ ((getWalk cfg env k incl es).keep a).kept ++ ((getWalk cfg env k incl es).keep a).removed, x.id = e.id := by
      rcases List.mem_cons.1 he with rfl | he
      · exact ⟨e, by simp [Walk.keep], rfl⟩
      · exact cover_keep (ih e he)
    have hd : ∃ x ∈ ((getWalk cfg env k incl es).drop a).kept ++ ((getWalk cfg env k incl es).drop a).removed, x.id = e.id := by
      rcases List.mem_cons.1 he with rfl | he
      · exact ⟨e, by simp [Walk.drop], rfl⟩
      · exact cover_drop (ih e he)
    split
    · split
      · exact hd
      · exact hk
    · split
      · split
        · exact hk
        · exact hd
      · split
        · exact hk
        · exact ⟨e, by simpa using he, rfl⟩

theorem expireWalk_cover (k : K) : ∀ (es : List (Entry K V E)), ∀ e ∈ es, ∃ x ∈ (expireWalk cfg env k es).kept ++ (expireWalk cfg env k es).removed, x.id = e.id
  | [] => by simp
  | a :: es => by
    have ih := expireWalk_cover k es
    intro e he
    simp only [expireWalk]
    have hk : ∀ b : Entry K V E, b.id = a.id → ∃ x ∈ ((expireWalk cfg env k es).keep b).kept ++ ((expireWalk cfg env k es).keep b).removed, x.id = e.id := by
      intro b hb
      rcases List.mem_cons.1 he with rfl | he
      · exact ⟨b, by simp [Walk.keep], hb⟩
      · exact cover_keep (ih e he)
    have hd : ∃ x ∈ ((expireWalk cfg env k es).drop a).kept ++ ((expireWalk cfg env k es).drop a).removed, x.id = e.id := by
      rcases List.mem_cons.1 he with rfl | he
      · exact ⟨e, by simp [Walk.drop], rfl⟩
      · exact cover_drop (ih e he)
    split
    · split
      · exact hk _ rfl
      · exact hd
    · split
      · exact hd
      · exact hk _ rfl

theorem sub_onHit (s : St K V E) (i : Nat) : Sub s (onHit cfg env s i) := by
  have h1 : Sub s (if cfg.maxSize.isSome then ({ s.modify i (·.upd (.strengthen env)) with bq := s.bq.onHit i } : St K V E) else s) := by
    split
    · exact (sub_modify s i (f := (·.upd (.strengthen env))) (fun _ => rfl)).trans (.of (fun _ x => x))
    · exact .refl _
  simp only [onHit]
  generalize (if cfg.maxSize.isSome then ({ s.modify i (·.upd (.strengthen env)) with bq := s.bq.onHit i } : St K V E) else s) = s1 at h1
  split
  · exact h1
  · split
    · exact h1
    · exact h1.trans (sub_modify _ _ (fun e => by split <;> rfl))

theorem sub_get_ (s : St K V E) (k : K) (incl : Bool) : Sub s (get_ cfg env s k incl).1 := by
  have h1 := sub_applyWalk (cfg := cfg) (s := s) (s.bucketFor (cfg.hash k)) (getWalk_cover (cfg := cfg) (env := env) k incl (s.bucket (s.bucketFor (cfg.hash k))))
  simp only [get_]
  split
  · exact h1
  · exact h1.trans (sub_onHit _ _)

theorem sub_expire (s : St K V E) (k : K) : Sub s (expire_ cfg env s k) :=
  sub_applyWalk _ (expireWalk_cover k _)

theorem sub_clear (s : St K V E) : Sub s (clear cfg s) := by
  rintro t ⟨e, he, hi⟩
  refine in_dispose _ ?_
  rcases List.mem_append.1 he with he | he
  · cases hp : e.isPending with
    | true =>
      refine .inl ⟨e.upd .markExpired, List.mem_append_left _ ?_, hi⟩
      simp only [St.ents, List.mem_flatten] at he ⊢
      obtain ⟨b, hb, he⟩ := he
      exact ⟨_, List.mem_map.2 ⟨b, hb, rfl⟩, List.mem_map.2 ⟨e, List.mem_filter.2 ⟨he, hp⟩, rfl⟩⟩
    | false => exact .inr ⟨e, List.mem_filter.2 ⟨he, by simp [hp]⟩, hi⟩
  · exact .inl ⟨e, List.mem_append_right _ he, hi⟩

theorem sub_purge (s : St K V E) : Sub s (purge cfg env s) := by
  rintro t ⟨e, he, hi⟩
  refine in_dispose _ ?_
  rcases List.mem_append.1 he with he | he
  · cases hp : stale env e with
    | false =>
      refine .inl ⟨e, List.mem_append_left _ ?_, hi⟩
      simp only [St.ents, List.mem_flatten] at he ⊢
      obtain ⟨b, hb, he⟩ := he
      exact ⟨_, List.mem_map.2 ⟨b, hb, rfl⟩, List.mem_filter.2 ⟨he, by simp [hp]⟩⟩
    | true => exact .inr ⟨e, List.mem_filter.2 ⟨he, hp⟩, hi⟩
  · exact .inl ⟨e, List.mem_append_right _ he, hi⟩

theorem sub_beforeLink (s : St K V E) : Sub s (beforeLink cfg env s) := by
  unfold beforeLink; split
  · exact sub_purge _
  · exact .refl _

theorem sub_maybeRehash (s : St K V E) : Sub s (maybeRehash cfg env s) := by
  refine (sub_beforeLink (cfg := cfg) (env := env) s).trans ?_
  simp only [maybeRehash]
  split
  · rename_i hg
    refine .of (fun e he => ?_)
    rcases List.mem_append.1 he with he | he
    · exact List.mem_append_left _ ((rehash_perm _ _ (grown_pos hg)).mem_iff.2 he)
    · exact List.mem_append_right _ he
  · exact .refl _

theorem sub_assign (s : St K V E) (i : Nat) (b : Bool) : Sub s (onAssign cfg env s i b) := by
  refine (sub_modify s i (f := assignTimes cfg env b) (fun e => (assignTimes_same b e).1)).trans (.of (fun e he => ?_))
  simp only [onAssign]; split <;> exact he

theorem sub_link (s : St K V E) (e : Entry K V E) : Sub s (link cfg env s e) := by
  have h2 : Sub s ({ maybeRehash cfg env s with tbl := place cfg (maybeRehash cfg env s).tbl e, nextId := (maybeRehash cfg env s).nextId + 1 } : St K V E) := by
    refine (sub_maybeRehash (cfg := cfg) (env := env) s).trans (.of (fun x hx => ?_))
    rcases List.mem_append.1 hx with hx | hx
    · refine List.mem_append_left _ ?_
      simp only [St.ents, place, List.mem_flatten] at hx ⊢
      obtain ⟨b, hb, hx⟩ := hx
      obtain ⟨j, hj⟩ := List.getElem?_of_mem hb
      by_cases hq : cfg.hash e.key % (maybeRehash cfg env s).tbl.length = j
      · exact ⟨b ++ [e], List.mem_of_getElem? (i := j) (by rw [List.getElem?_modify, hj]; simp [hq]), List.mem_append_left _ hx⟩
      · exact ⟨b, List.mem_of_getElem? (i := j) (by rw [List.getElem?_modify, hj]; simp [hq]), hx⟩
    · exact List.mem_append_right _ hx
  have h3 : ∀ x : St K V E, Sub x (onCreate cfg env x e.id) := by
    intro x
    simp only [onCreate]
    split
    · split
      · exact .of (fun _ y => y)
      · exact Sub.trans (b := { x with bq := (x.bq.onCreate e.id).1 }) (.of (fun _ y => y)) (sub_modify _ _ (fun _ => rfl))
    · exact .refl _
  simp only [link]
  split
  · exact h2.trans (h3 _)
  · exact (h2.trans (h3 _)).trans (sub_assign _ _ _)

theorem sub_tryLink (s : St K V E) (e : Entry K V E) (f : Fail) : Sub s (tryLink cfg env s e f).1 := by
  cases f with
  | none => exact sub_link _ _
  | alloc => exact .refl _
  | grow =>
    simp only [tryLink]
    split
    · exact sub_beforeLink _
    · exact sub_link _ _

theorem sub_drop (s : St K V E) (t : Nat) : Sub s (drop s t).1 := by
  by_cases ho : t ∈ s.opens
  · rw [drop_pos ho]
    exact (sub_modify s t (f := (·.upd .cancel)) (fun _ => rfl)).trans (.of (fun _ x => x))
  · rw [drop_neg ho]; exact .refl _

theorem sub_runCbs (i : Nat) (cbs : List Cb) : ∀ s : St K V E, Sub s (runCbs s i cbs) := by
  induction cbs with
  | nil => intro s; exact .refl _
  | cons cb cbs ih =>
    intro s
    refine Sub.trans ?_ (ih (runCb s i cb))
    cases cb with
    | user w => exact .refl _
    | refresh old =>
      simp only [runCb]
      exact (sub_modify s i (f := fun e => { e with canTp := tpMin e.canTp _ }) (fun _ => rfl)).trans (sub_modify _ _ (fun _ => rfl))

theorem sub_complete (s : St K V E) (t : Nat) (r : Res V E) : Sub s (complete cfg env s t r).1 := by
  by_cases ho : t ∈ s.opens
  · cases hd : s.destroyed with
    | true =>
      rw [complete_dead ho hd]
      exact (sub_modify s t (f := (·.upd .cancel)) (fun _ => rfl)).trans (.of (fun _ x => x))
    | false =>
      rw [complete_pos ho hd]
      exact (((sub_runCbs t _ s).trans (sub_modify _ t (f := (·.upd (completed cfg r))) (fun _ => rfl))).trans (sub_assign _ t r.isOk)).trans (.of (fun _ x => x))
  · rw [complete_neg ho]; exact .refl _

theorem sub_maintenance (s : St K V E) : Sub s (maintenance cfg s) := by
  cases hN : cfg.maxSize with
  | none => simp only [maintenance, hN]; exact .refl _
  | some N =>
    simp only [maintenance, hN]
    generalize s.bq.victims (s.size - N) = vs
    induction vs generalizing s with
    | nil => exact .refl _
    | cons v vs ih =>
      exact (sub_modify s v (f := (·.upd (if cfg.weaken then .weaken cfg.ptr else .markExpired))) (fun _ => rfl)).trans (ih (s.modify v (·.upd (if cfg.weaken then .weaken cfg.ptr else .markExpired))))

theorem sub_answer (s : St K V E) (i w : Nat) (l : Look V E) : Sub s (answer s i w l).1 := by
  cases l with
  | pend => exact sub_modify _ _ (fun _ => rfl)
  | _ => exact .refl _

/-- No step taken while a functor runs loses an entry. -/
theorem sub_next {n : NSt K V E} {e : Ev K V E} (hev : e.ok cfg n) (hst : n.stack ≠ []) : Sub n.s (next cfg env n e).1.s := by
  cases e with
  | throw =>
    simp only [next]
    cases n.stack with
    | nil => exact .refl _
    | cons q st => exact .refl _
  | ret =>
    simp only [next]
    cases n.stack with
    | nil => exact .refl _
    | cons q st => exact sub_answer _ _ _ _
  | get k u =>
    simp only [next]
    cases (getWalk cfg env k true (n.s.bucket (n.s.bucketFor (cfg.hash k)))).hit with
    | some q => exact (sub_get_ _ _ _).trans (sub_answer _ _ _ _)
    | none => exact ((sub_get_ _ _ _).trans (sub_link _ _)).trans (.of (fun _ x => x))
  | op o =>
    simp only [next]
    cases o with
    | getIfExists k => exact .refl _
    | count => exact .refl _
    | destroy => exact absurd (hev.2.2 (.inr rfl)) hst
    | tick r b => exact absurd (hev.2.2 (.inl ⟨r, b, rfl⟩)) hst
    | asyncGet k w b => exact absurd rfl (hev.2.1 k w b)
    | erase k => exact sub_expire _ _
    | clear => exact sub_clear _
    | drop t => exact sub_drop _ _
    | complete t r => exact sub_complete _ _ _
    | get k r =>
      have h1 := sub_get_ (cfg := cfg) (env := env) n.s k false
      simp only [step, get]
      generalize get_ cfg env n.s k false = g at *
      obtain ⟨s1, l⟩ := g
      simp only at *
      split
      · exact h1.trans (sub_link _ _)
      · exact h1
      · exact h1
      · exact h1
    | emplace k v f =>
      have h1 := (sub_expire (cfg := cfg) (env := env) n.s k).trans (sub_tryLink (cfg := cfg) (env := env) _ (newEntry (expire_ cfg env n.s k) k (.value v : Mapped V E)) f)
      simp only [step, emplace]
      split
      · exact h1.trans (sub_maintenance _)
      · exact h1
    | getOrEmplace k v f =>
      have h1 := sub_get_ (cfg := cfg) (env := env) n.s k true
      simp only [step, getOrEmplace]
      generalize get_ cfg env n.s k true = g at *
      obtain ⟨s1, l⟩ := g
      simp only at *
      cases l with
      | none =>
        have h2 := h1.trans (sub_tryLink (cfg := cfg) (env := env) _ (newEntry s1 k (.value v : Mapped V E)) f)
        simp only
        split
        · exact h2.trans (sub_maintenance _)
        · exact h2
      | val u => exact h1.trans (sub_maintenance _)
      | err u => exact h1.trans (sub_maintenance _)
      | pend => exact h1.trans (sub_maintenance _)

/-- While a functor runs, no entry is lost. -/
theorem in_run (hc : cfg.Ok) {t w : Nat} {h0 : NHist K V E} (h2 : NHist K V E) (hok : NOk cfg {} (h0 ++ h2)) (hst : (t, w) ∈ (endN cfg (h0 ++ h2)).stack)
    (ht : t < (endN cfg h0).s.nextId) (hin : In t (endN cfg h0).s) : In t (endN cfg (h0 ++ h2)).s := by
  have hlt : ∀ l : NHist K V E, (endN cfg h0).s.nextId ≤ (endN cfg (h0 ++ l)).s.nextId := by
    intro l
    induction l using snoc_ind with
    | h0 => rw [List.append_nil]; exact Nat.le_refl _
    | h1 l q ihl => rw [← List.append_assoc, endN_snoc]; exact Nat.le_trans ihl (next_nextId _)
  induction h2 using snoc_ind with
  | h0 => rw [List.append_nil]; exact hin
  | h1 h2 p ih =>
    obtain ⟨env, e⟩ := p
    rw [← List.append_assoc] at hok hst ⊢
    rw [NOk_append] at hok
    have I := inv_end _ hok.1
    rw [endN_snoc] at hst ⊢
    have hs0 : (t, w) ∈ (endN cfg (h0 ++ h2)).stack := stack_back hc (I.wf1 hc) hst (Nat.lt_of_lt_of_le ht (hlt h2))
    exact sub_next hok.2.1 (List.ne_nil_of_mem hs0) t (ih hok.1 hs0)

/-- The end of the cache is final. -/
theorem des_mono {h0 : NHist K V E} (l : NHist K V E) (hok : NOk cfg {} (h0 ++ l)) (hd : (endN cfg h0).s.destroyed = true) : (endN cfg (h0 ++ l)).s.destroyed = true := by
  induction l using snoc_ind with
  | h0 => rw [List.append_nil]; exact hd
  | h1 l p ih =>
    obtain ⟨env, e⟩ := p
    rw [← List.append_assoc] at hok ⊢
    have I' := inv_end _ hok
    rw [NOk_append] at hok
    have ih := ih hok.1
    have I := inv_end _ hok.1
    rw [I'.destroyed, flat_snoc]
    rw [I.destroyed] at ih
    have key : ∀ o : Op K V E, (step cfg env (stateAfter cfg (flat (h0 ++ l))) o).1.destroyed = true := by
      intro o
      by_cases ho : o = .destroy
      · subst ho; rfl
      · rw [step_destroyed _ _ _ o ho]; exact ih
    cases e with
    | op o => show (stateAfter cfg (flat (h0 ++ l) ++ [(env, o)])).destroyed = true; rw [stateAfter_snoc]; exact key o
    | get k w => show (stateAfter cfg (flat (h0 ++ l) ++ [(env, .asyncGet k w .later)])).destroyed = true; rw [stateAfter_snoc]; exact key _
    | ret => show (stateAfter cfg (flat (h0 ++ l) ++ [])).destroyed = true; rw [List.append_nil]; exact ih
    | throw => show (stateAfter cfg (flat (h0 ++ l) ++ [])).destroyed = true; rw [List.append_nil]; exact ih

end Hoard.NestedAsync
