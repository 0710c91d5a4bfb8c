import Verif.RefreshLemmas
import Verif.Tokens
/-! Helper lemmas about which entries are linked: removal of dead entries, and pending entries that stay. -/
namespace Hoard
variable {K V E : Type} {cfg : Cfg K} {env : Env V}

/-- The entry `i` is not linked. -/
def Out_ (s : St K V E) (i : Nat) : Prop := ∀ e ∈ s.ents, e.id ≠ i

/-- How the linked entries develop: nothing old comes back, and pending entries without open lookup stay. -/
structure Flow (s s' : St K V E) : Prop where
  next : s.nextId ≤ s'.nextId
  back : ∀ e' ∈ s'.ents, (∃ e ∈ s.ents, e.id = e'.id) ∨ s.nextId ≤ e'.id
  keep : ∀ e ∈ s.ents, e.isPending = true → e.id ∉ s.opens → e.id < s.nextId → ∃ e' ∈ s'.ents, e'.id = e.id ∧ e'.isPending = true
  opn : ∀ i, i < s.nextId → i ∉ s.opens → i ∉ s'.opens

namespace Flow
variable {s s' s'' : St K V E}

theorem refl (s : St K V E) : Flow s s := ⟨Nat.le_refl _, fun e he => .inl ⟨e, he, rfl⟩, fun e he hp _ _ => ⟨e, he, rfl, hp⟩, fun _ _ h => h⟩

theorem trans (h : Flow s s') (h' : Flow s' s'') : Flow s s'' where
  next := Nat.le_trans h.next h'.next
  back := by
    intro e he
    rcases h'.back e he with ⟨e1, h1, h2⟩ | h1
    · rcases h.back e1 h1 with ⟨e0, h3, h4⟩ | h3
      · exact .inl ⟨e0, h3, h4.trans h2⟩
      · exact .inr (h2 ▸ h3)
    · exact .inr (Nat.le_trans h.next h1)
  keep := by
    intro e he hp ho hl
    obtain ⟨e1, h1, h2, h3⟩ := h.keep e he hp ho hl
    obtain ⟨e2, h4, h5, h6⟩ := h'.keep e1 h1 h3 (by rw [h2]; exact h.opn _ hl ho) (by rw [h2]; exact Nat.lt_of_lt_of_le hl h.next)
    exact ⟨e2, h4, h5.trans h2, h6⟩
  opn := fun i hl ho => h'.opn i (Nat.lt_of_lt_of_le hl h.next) (h.opn i hl ho)

theorem out (h : Flow s s') {i : Nat} (hi : i < s.nextId) (ho : Out_ s i) : Out_ s' i := by
  intro e he hid
  rcases h.back e he with ⟨e0, h0, h1⟩ | h1
  · exact ho e0 h0 (h1.trans hid)
  · omega

/-- Entries are changed one by one. -/
theorem map {g : Entry K V E → Entry K V E} (hents : s'.ents = s.ents.map g) (hid : ∀ e, (g e).id = e.id)
    (hp : ∀ e ∈ s.ents, e.isPending = true → e.id ∉ s.opens → e.id < s.nextId → (g e).isPending = true)
    (hn : s'.nextId = s.nextId) (ho : ∀ i ∈ s'.opens, i ∈ s.opens) : Flow s s' where
  next := Nat.le_of_eq hn.symm
  back := by
    intro e he
    rw [hents] at he
    obtain ⟨e0, h0, rfl⟩ := List.mem_map.1 he
    exact .inl ⟨e0, h0, (hid e0).symm⟩
  keep := by
    intro e he h1 h2 h3
    exact ⟨g e, by rw [hents]; exact List.mem_map_of_mem he, hid e, hp e he h1 h2 h3⟩
  opn := fun i _ h1 h2 => h1 (ho i h2)

theorem modify (s : St K V E) (i : Nat) {f : Entry K V E → Entry K V E} (hf : IdKey f) (hp : i ∈ s.opens ∨ ∀ e, e.isPending = true → (f e).isPending = true) :
    Flow s (s.modify i f) := by
  refine .map (g := atId i f) (ents_modify _ _ _) (fun e => ?_) (fun e _ h1 h2 _ => ?_) rfl (fun _ h => h)
  · unfold atId; split
    · exact (hf e).1
    · rfl
  · unfold atId; split
    · rename_i hh
      rcases hp with h | h
      · exact absurd h (hh ▸ h2)
      · exact h e h1
    · exact h1

/-- Only entries that are not pending are removed. -/
theorem removal {kept rem : List (Entry K V E)} {g : Entry K V E → Entry K V E} (h1 : s.ents.Perm (kept ++ rem)) (h2 : s'.ents.Perm (kept.map g))
    (hid : ∀ e, (g e).id = e.id) (hp : ∀ e, e.isPending = true → (g e).isPending = true) (hr : ∀ e ∈ rem, e.isPending = false)
    (hn : s'.nextId = s.nextId) (ho : s'.opens = s.opens) : Flow s s' where
  next := Nat.le_of_eq hn.symm
  back := by
    intro e he
    obtain ⟨e0, h0, rfl⟩ := List.mem_map.1 (h2.mem_iff.1 he)
    exact .inl ⟨e0, h1.mem_iff.2 (List.mem_append_left _ h0), (hid e0).symm⟩
  keep := by
    intro e he hpe _ _
    rcases List.mem_append.1 (h1.mem_iff.1 he) with h | h
    · exact ⟨g e, h2.mem_iff.2 (List.mem_map_of_mem h), hid e, hp e hpe⟩
    · rw [hr e h] at hpe; cases hpe
  opn := fun i _ h1 h2 => h1 (ho ▸ h2)

theorem drops (h : Drops env s.ents s'.ents) (hn : s'.nextId = s.nextId) (ho : s'.opens = s.opens) : Flow s s' := by
  obtain ⟨rem, h1, h2⟩ := h
  refine .removal (g := fun e => e) h1 (by simp) (fun _ => rfl) (fun _ h => h) (fun e he => ?_) hn ho
  have := h2 e he
  unfold stale at this
  simp at this; exact this.2

end Flow

variable {s : St K V E}

theorem upd_strengthen_pend (env : Env V) (e : Entry K V E) (h : e.isPending = true) : (e.upd (.strengthen env)).isPending = true := by
  unfold Entry.isPending Entry.upd at *
  cases hm : e.mapped <;> rw [hm] at h <;> simp_all [Mapped.strengthen, Mapped.isPending]
  rename_i p
  cases p.expired <;> rfl

theorem upd_markExpired_pend (e : Entry K V E) (h : e.isPending = true) : (e.upd .markExpired).isPending = true := by
  unfold Entry.isPending Entry.upd at *
  cases hm : e.mapped <;> rw [hm] at h <;> simp_all [Mapped.markExpired, Mapped.isPending]

theorem upd_weaken_pend (b : Bool) (e : Entry K V E) (h : e.isPending = true) : (e.upd (.weaken b)).isPending = true := by
  unfold Entry.isPending Entry.upd at *
  cases hm : e.mapped <;> rw [hm] at h <;> simp_all [Mapped.weaken, Mapped.isPending]

theorem upd_addCb_pend (cb : Cb) (e : Entry K V E) (h : e.isPending = true) : (e.upd (.addCb cb)).isPending = true := by
  unfold Entry.isPending Entry.upd at *
  cases hm : e.mapped <;> rw [hm] at h <;> simp_all [Mapped.addCb, Mapped.isPending]

theorem upd_cancel_pend (e : Entry K V E) (h : e.isPending = true) : (e.upd .cancel).isPending = true := by
  unfold Entry.isPending Entry.upd at *
  cases hm : e.mapped <;> rw [hm] at h <;> simp_all [Mapped.cancel, Mapped.isPending]

theorem onHit_flow (i : Nat) : Flow s (onHit cfg env s i) := by
  refine .map (g := atId i (hitUpd cfg env)) (onHit_ents _ _ _ _) (fun e => ?_) (fun e _ h _ _ => ?_) (by simp) (by simp)
  · exact ((hitUpd_idKey cfg env).atId i e).1
  · unfold atId; split
    · unfold hitUpd; simp only
      have h1 : ∀ x : Entry K V E, x.isPending = true → (if cfg.maxSize.isSome = true then x.upd (.strengthen env) else x).isPending = true := by
        intro x hx; split
        · exact upd_strengthen_pend env x hx
        · exact hx
      repeat' split
      all_goals first | exact upd_strengthen_pend env e h | exact h
    · exact h

theorem onCreate_flow (i : Nat) : Flow s (onCreate cfg env s i) := by
  refine .map (g := creUpd (strId cfg s i) env) (onCreate_ents _ _ _ _) (fun e => ?_) (fun e _ h _ _ => ?_) (by simp) (by simp)
  · unfold creUpd; split <;> rfl
  · unfold creUpd; split
    · exact upd_strengthen_pend env e h
    · exact h

theorem onAssign_flow (i : Nat) (b : Bool) : Flow s (onAssign cfg env s i b) := by
  refine .map (g := atId i (assignTimes cfg env b)) (onAssign_ents _ _ _ _ _) (fun e => ?_) (fun e _ h _ _ => ?_) (by simp) (by simp)
  · exact ((assignTimes_idKey cfg env b).atId i e).1
  · unfold atId; split
    · unfold assignTimes; simp only; repeat' split
      all_goals exact h
    · exact h

theorem evictAll_flow (vs : List Nat) : Flow s (evictAll cfg s vs) := by
  unfold evictAll
  induction vs generalizing s with
  | nil => exact .refl _
  | cons i vs ih =>
    rw [List.foldl_cons]
    refine Flow.trans ?_ ih
    refine .modify _ _ (IdKey.upd _) (.inr fun e h => ?_)
    split
    · exact upd_weaken_pend _ e h
    · exact upd_markExpired_pend e h

theorem maintenance_flow : Flow s (maintenance cfg s) := by
  unfold maintenance; split
  · exact .refl _
  · exact evictAll_flow _

theorem walked_flow (k : K) (incl : Bool) : Flow s (walked cfg env s k incl) := by
  obtain ⟨oth, h1, h2, _⟩ := applyWalk_perm (cfg := cfg) (s := s) (i := s.bucketFor (cfg.hash k))
    (w := getWalk cfg env k incl (s.bucket (s.bucketFor (cfg.hash k)))) (kept0 := (getWalk cfg env k incl (s.bucket (s.bucketFor (cfg.hash k)))).kept)
    (g := fun e => e) (getWalk_perm cfg env k incl _) (by simp)
  refine .drops (env := env) ⟨_, h1.trans (List.Perm.append_right _ ?_), getWalk_removed cfg env k incl _⟩ (by simp [walked]) (by simp [walked])
  simpa [walked] using h2.symm

theorem get__flow (k : K) (incl : Bool) : Flow s (get_ cfg env s k incl).1 := by
  unfold get_; simp only
  split
  · exact walked_flow k incl
  · exact (walked_flow k incl).trans (onHit_flow _)

theorem expire__flow (hc : cfg.Ok) (h : WF1 cfg s) (k : K) : Flow s (expire_ cfg env s k) := by
  obtain ⟨kept, rem, h1, h2, h3, _⟩ := expire_spec hc h env k
  refine .removal h1 h2 (fun e => (expUpd_idKey cfg k e).1) (fun e he => ?_) (fun e he => ?_) (by simp) (by simp)
  · unfold expUpd; split
    · exact upd_markExpired_pend e he
    · exact he
  · have := h3 e he
    split at this
    · exact this
    · unfold stale at this; simp at this; exact this.2

theorem beforeLink_flow : Flow s (beforeLink cfg env s) := .drops (beforeLink_drops cfg env s) (by simp) (by simp)

theorem link_flow {e : Entry K V E} (he : e.id = s.nextId) : Flow s (link cfg env s e) := by
  have f1 : Flow s (maybeRehash cfg env s) := .drops (maybeRehash_drops cfg env s) (by simp) (by simp)
  have hne := maybeRehash_ne (cfg := cfg) env s
  have hn : (maybeRehash cfg env s).nextId = s.nextId := by simp
  unfold link; simp only
  generalize maybeRehash cfg env s = s1 at *
  have f2 : Flow s1 { s1 with tbl := place cfg s1.tbl e, nextId := s1.nextId + 1 } := by
    have hp : St.ents { s1 with tbl := place cfg s1.tbl e, nextId := s1.nextId + 1 } |>.Perm (s1.ents ++ [e]) :=
      Buckets.perm_place (fun e : Entry K V E => cfg.hash e.key) hne e
    refine ⟨Nat.le_succ _, ?_, ?_, fun _ _ h => h⟩
    · intro x hx
      rcases List.mem_append.1 (hp.mem_iff.1 hx) with h | h
      · exact .inl ⟨x, h, rfl⟩
      · rw [List.mem_singleton] at h; subst h
        exact .inr (by omega)
    · intro x hx h1 _ _
      exact ⟨x, hp.mem_iff.2 (List.mem_append_left _ hx), rfl, h1⟩
  have f3 := (f1.trans f2).trans (onCreate_flow (cfg := cfg) (env := env) e.id)
  split
  · exact f3
  · exact f3.trans (onAssign_flow _ _)

theorem tryLink_flow {e : Entry K V E} (he : e.id = s.nextId) (f : Fail) : Flow s (tryLink cfg env s e f).1 := by
  rcases tryLink_cases cfg env s e f with h | h | h <;> rw [h]
  · exact link_flow he
  · exact .refl _
  · exact beforeLink_flow

theorem runCb_flow (i : Nat) (cb : Cb) : Flow s (runCb s i cb) := by
  cases cb with
  | user w => exact .refl _
  | refresh old =>
    simp only [runCb]
    refine Flow.trans (s' := s.modify i _) (.modify _ _ ?_ (.inr ?_)) (.modify _ _ (IdKey.upd _) (.inr upd_markExpired_pend))
    · exact fun _ => ⟨rfl, rfl⟩
    · exact fun _ h => h

theorem runCbs_flow (i : Nat) (cbs : List Cb) : Flow s (runCbs s i cbs) := by
  unfold runCbs
  induction cbs generalizing s with
  | nil => exact .refl _
  | cons c cbs ih => rw [List.foldl_cons]; exact (runCb_flow i c).trans ih

theorem complete_flow (tok : Nat) (r : Res V E) : Flow s (complete cfg env s tok r).1 := by
  unfold complete; simp only
  split
  · rename_i ht
    -- the lookup is closed last, which makes no difference to the entries
    have key : ∀ s2 : St K V E, Flow s { s2 with opens := s.opens } → s2.opens = s.opens.erase tok → Flow s s2 := by
      intro s2 f ho
      exact ⟨f.next, f.back, f.keep, fun i h1 h2 h3 => h2 (List.mem_of_mem_erase (ho ▸ h3))⟩
    have hcb : ∀ (cbs : List Cb) (x : St K V E) (l : List Nat), { runCbs { x with opens := l } tok cbs with opens := x.opens } = runCbs x tok cbs := by
      intro cbs
      unfold runCbs
      induction cbs with
      | nil => intro x l; rfl
      | cons c cbs ih =>
        intro x l
        rw [List.foldl_cons, List.foldl_cons]
        cases c with
        | user w => exact ih x l
        | refresh old =>
          have := ih (runCb x tok (.refresh old)) l
          rw [runCb_opens] at this
          exact this
    split
    · refine key _ ?_ (by simp)
      exact Flow.modify s tok (IdKey.upd _) (.inl ht)
    · refine key _ ?_ (by simp)
      have := runCbs_flow (s := s) tok (((({ s with opens := s.opens.erase tok } : St K V E).findAny tok).map (·.mapped.cbs)).getD [])
      have f2 := this.trans ((Flow.modify _ tok (IdKey.upd (completed cfg r)) (.inl (by simpa using ht))).trans (onAssign_flow (cfg := cfg) (env := env) tok r.isOk))
      rw [← hcb _ s (s.opens.erase tok)] at f2
      unfold onAssign at f2 ⊢
      simp only at f2 ⊢
      split <;> (rename_i hh; simp only [hh, if_true] at f2; exact f2)
  · exact .refl _

theorem drop_flow (tok : Nat) : Flow s (drop s tok).1 := by
  unfold drop; simp only
  split
  · have f : Flow s ({ s with opens := s.opens.erase tok }) :=
      ⟨Nat.le_refl _, fun e he => .inl ⟨e, he, rfl⟩, fun e he hp _ _ => ⟨e, he, rfl, hp⟩, fun i _ h1 h2 => h1 (List.mem_of_mem_erase h2)⟩
    exact f.trans (.modify _ _ (IdKey.upd _) (.inr upd_cancel_pend))
  · exact .refl _

theorem resolveAsync_flow (k : K) (b : Beh V E) : Flow s (resolveAsync cfg env s k b).1 := by
  have f1 : Flow s (link cfg env s (newEntry s k (.pending {}))) := link_flow rfl
  have f2 : Flow s ({ link cfg env s (newEntry s k (.pending {})) with opens := (link cfg env s (newEntry s k (.pending {}))).opens ++ [s.nextId] } : St K V E) := by
    refine ⟨f1.next, f1.back, f1.keep, fun i h1 h2 h3 => ?_⟩
    rcases List.mem_append.1 h3 with h | h
    · exact f1.opn i h1 h2 h
    · rw [List.mem_singleton] at h; omega
  cases b with
  | later => exact f2
  | now r => exact f2.trans (complete_flow _ r)
  | drop => exact f2.trans (drop_flow _)

theorem answer_flow (i w : Nat) (l : Look V E) : Flow s (answer s i w l).1 := by
  cases l with
  | pend => exact .modify _ _ (IdKey.upd _) (.inr (upd_addCb_pend _))
  | _ => exact .refl _

theorem refresh_flow (e : Entry K V E) (r : Res V E) (b : Beh V E) : Flow s (refresh cfg env s e r b).1 := by
  unfold refresh
  split
  · exact .refl _
  · have f1 : Flow s (if cfg.resolver = .async then resolveAsync cfg env s e.key b else resolveSync cfg env s e.key r).1 := by
      split
      · exact resolveAsync_flow _ _
      · exact link_flow rfl
    simp only
    generalize (if cfg.resolver = .async then resolveAsync cfg env s e.key b else resolveSync cfg env s e.key r) = g at *
    obtain ⟨s1, tok⟩ := g
    simp only at *
    have f2 := f1.trans (Flow.modify s1 e.id (f := fun x => { x with refreshing := true }) (fun _ => ⟨rfl, rfl⟩) (.inr fun _ h => h))
    repeat' split
    · exact f2.trans (.modify _ _ (IdKey.upd _) (.inr (upd_addCb_pend _)))
    · exact f2.trans (runCb_flow tok (.refresh e.id))
    · exact f2

/-- Every operation except destruction. -/
theorem step_flow (hc : cfg.Ok) (h : WF1 cfg s) (o : Op K V E) (hd : o ≠ .destroy) : Flow s (step cfg env s o).1 := by
  cases o with
  | getIfExists k => exact .refl _
  | count => exact .refl _
  | get k r =>
    simp only [step, get]
    have := get__flow (cfg := cfg) (env := env) (s := s) k false
    split
    · exact this.trans (link_flow rfl)
    all_goals exact this
  | asyncGet k w b =>
    simp only [step, asyncGet]
    have := get__flow (cfg := cfg) (env := env) (s := s) k true
    split
    · exact this.trans (answer_flow _ _ _)
    · exact (this.trans (resolveAsync_flow _ _)).trans (answer_flow _ _ _)
  | emplace k v f =>
    simp only [step, emplace]
    have f1 := expire__flow (env := env) hc h k
    have f2 := f1.trans (tryLink_flow (cfg := cfg) (env := env) (e := newEntry (expire_ cfg env s k) k (.value v)) rfl f)
    split
    · exact f2.trans maintenance_flow
    · exact f2
  | getOrEmplace k v f =>
    simp only [step, getOrEmplace]
    have f1 := get__flow (cfg := cfg) (env := env) (s := s) k true
    split
    · exact f1.trans maintenance_flow
    · have f2 := f1.trans (tryLink_flow (cfg := cfg) (env := env) (e := newEntry (get_ cfg env s k true).1 k (.value v)) rfl f)
      split
      · exact f2.trans maintenance_flow
      · exact f2
    · exact f1.trans maintenance_flow
  | erase k => exact expire__flow hc h k
  | clear =>
    simp only [step]
    refine .removal (kept := s.ents.filter (·.isPending)) (rem := s.ents.filter (fun e => !e.isPending)) (g := fun e => e.upd .markExpired)
      (filter_append_not _ _) (by rw [clear_ents]) (fun _ => rfl) upd_markExpired_pend (fun e he => ?_) (by simp) (by simp)
    simpa using (List.mem_filter.1 he).2
  | complete tok r => exact complete_flow tok r
  | drop tok => exact drop_flow tok
  | tick r b =>
    simp only [step, tick]; repeat' split
    · exact .refl _
    · exact .refl _
    · rename_i q hq _ e _ _
      have f0 : Flow s { s with delayQ := q } := ⟨Nat.le_refl _, fun e he => .inl ⟨e, he, rfl⟩, fun e he hp _ _ => ⟨e, he, rfl, hp⟩, fun _ _ h => h⟩
      exact f0.trans (refresh_flow _ _ _)
    · exact .refl _
  | destroy => exact absurd rfl hd

/-! ### Removal of dead entries -/

theorem out_of_removed (h : WF1 cfg s) {s' : St K V E} {kept rem : List (Entry K V E)} {g : Entry K V E → Entry K V E} (hg : ∀ e, (g e).id = e.id)
    (h1 : s.ents.Perm (kept ++ rem)) (h2 : ∀ e ∈ s'.ents, ∃ e0 ∈ kept, e.id = (g e0).id) {e : Entry K V E} (he : e ∈ rem) : Out_ s' e.id := by
  intro x hx hid
  obtain ⟨x0, h0, h3⟩ := h2 x hx
  rw [hg] at h3
  have hn := (h1.map (·.id)).nodup_iff.1 (nodup_ents h)
  rw [List.map_append, List.nodup_append] at hn
  exact hn.2.2 _ (List.mem_map_of_mem h0) _ (List.mem_map_of_mem he) (h3.symm.trans hid)

theorem expire__out (hc : cfg.Ok) (h : WF1 cfg s) (k : K) {e : Entry K V E} (he : e ∈ s.bucket (s.bucketFor (cfg.hash k))) (hp : e.isPending = false)
    (hx : e.expired env = true ∨ cfg.eqv e.key k = true) : Out_ (expire_ cfg env s k) e.id := by
  have heq := expireWalk_eq hc env k (s.bucket (s.bucketFor (cfg.hash k)))
  have hperm : (s.bucket (s.bucketFor (cfg.hash k))).Perm ((s.bucket (s.bucketFor (cfg.hash k))).filter (fun e => if cfg.eqv e.key k then e.isPending else !stale env e) ++
      (expireWalk cfg env k (s.bucket (s.bucketFor (cfg.hash k)))).removed) := by
    rw [heq.2]
    refine (filter_append_not _ (fun e => if cfg.eqv e.key k then e.isPending else !stale env e)).trans ?_
    refine List.Perm.append_left _ (List.Perm.of_eq ?_)
    apply List.filter_congr
    intro x _
    cases cfg.eqv x.key k <;> simp
  obtain ⟨oth, h1, h2, _⟩ := applyWalk_perm (cfg := cfg) hperm heq.1
  have hm : e ∈ (expireWalk cfg env k (s.bucket (s.bucketFor (cfg.hash k)))).removed := by
    rw [heq.2, List.mem_filter]
    refine ⟨he, ?_⟩
    split
    · simp [hp]
    · rename_i hh
      rcases hx with h | h
      · simp [stale, h, hp]
      · exact absurd h hh
  refine out_of_removed h (g := expUpd cfg k) (fun e => (expUpd_idKey cfg k e).1) h1 (fun x hx => ?_) hm
  have hx : x ∈ (applyWalk cfg s (s.bucketFor (cfg.hash k)) (expireWalk cfg env k (s.bucket (s.bucketFor (cfg.hash k))))).ents := hx
  rcases List.mem_append.1 (h2.mem_iff.1 hx) with hh | hh
  · exact ⟨x, List.mem_append_left _ hh, ((expUpd_idKey cfg k x).1).symm⟩
  · obtain ⟨x0, h0, rfl⟩ := List.mem_map.1 hh
    exact ⟨x0, List.mem_append_right _ h0, rfl⟩

theorem getWalk_removes (hc : cfg.Ok) (k : K) (incl : Bool) {e : Entry K V E} (hs : stale env e = true) : ∀ (pre post : List (Entry K V E)),
    (∀ x ∈ pre, cfg.eqv x.key k = true → x.expired env = true) → e ∈ (getWalk cfg env k incl (pre ++ e :: post)).removed
  | [], post, _ => by
    have hs' := hs
    unfold stale at hs'; simp only [Bool.and_eq_true, Bool.not_eq_true'] at hs'
    simp only [List.nil_append, getWalk]
    by_cases hh : cfg.hash e.key ≠ cfg.hash k
    · rw [if_pos hh, if_pos hs]; exact List.mem_cons_self
    · rw [if_neg hh, if_pos hs'.1, if_neg (by simp [hs'.2])]; exact List.mem_cons_self
  | x :: pre, post, hpre => by
    have ih := getWalk_removes hc k incl hs pre post (fun x hx => hpre x (List.mem_cons_of_mem _ hx))
    have hx := hpre x List.mem_cons_self
    simp only [List.cons_append, getWalk]
    split
    · split
      · exact List.mem_cons_of_mem _ ih
      · exact ih
    · split
      · split
        · exact ih
        · exact List.mem_cons_of_mem _ ih
      · rename_i hne
        have hk : ¬ cfg.eqv x.key k = true := fun hh => hne (hx hh)
        simp only [getIfMatching, hk]
        exact ih

theorem get__out (hc : cfg.Ok) (h : WF1 cfg s) (k : K) (incl : Bool) {e : Entry K V E} {pre post : List (Entry K V E)}
    (hb : s.bucket (s.bucketFor (cfg.hash k)) = pre ++ e :: post) (hp : e.isPending = false) (hx : e.expired env = true)
    (hpre : ∀ x ∈ pre, cfg.eqv x.key k = true → x.expired env = true) : Out_ (get_ cfg env s k incl).1 e.id := by
  have hm : e ∈ (getWalk cfg env k incl (s.bucket (s.bucketFor (cfg.hash k)))).removed := by
    rw [hb]; exact getWalk_removes hc k incl (by simp [stale, hp, hx]) pre post hpre
  obtain ⟨oth, h1, h2, _⟩ := applyWalk_perm (cfg := cfg) (s := s) (i := s.bucketFor (cfg.hash k))
    (w := getWalk cfg env k incl (s.bucket (s.bucketFor (cfg.hash k)))) (kept0 := (getWalk cfg env k incl (s.bucket (s.bucketFor (cfg.hash k)))).kept)
    (g := fun e => e) (getWalk_perm cfg env k incl _) (by simp)
  have hw : Out_ (walked cfg env s k incl) e.id := by
    refine out_of_removed h (g := fun e => e) (fun _ => rfl) h1 (fun x hx => ⟨x, ?_, rfl⟩) hm
    simpa using h2.mem_iff.1 hx
  have hlt : e.id < (walked cfg env s k incl).nextId := by
    have := h.lt e (List.mem_append_left _ (h1.mem_iff.2 (List.mem_append_right _ hm)))
    simpa [walked] using this
  unfold get_; simp only
  split
  · exact hw
  · exact (onHit_flow _).out hlt hw

/-! ### Growth -/

theorem modify_len (s : St K V E) (i : Nat) (f) : (s.modify i f).tbl.length = s.tbl.length := by simp [St.modify]

theorem onHit_len (i : Nat) : (onHit cfg env s i).tbl.length = s.tbl.length := by
  unfold onHit; simp only; repeat' split
  all_goals simp [St.modify]

theorem onCreate_len (i : Nat) : (onCreate cfg env s i).tbl.length = s.tbl.length := by
  unfold onCreate; split
  · simp only; split
    · rfl
    · simp [St.modify]
  · rfl

theorem onAssign_len (i : Nat) (b : Bool) : (onAssign cfg env s i b).tbl.length = s.tbl.length := by
  unfold onAssign; simp only; split <;> simp [St.modify]

theorem applyWalk_len (i : Nat) (w : Walk K V E) : (applyWalk cfg s i w).tbl.length = s.tbl.length := by
  simp [applyWalk, dispose_tbl, St.setBucket]

theorem evictAll_len (vs : List Nat) : (evictAll cfg s vs).tbl.length = s.tbl.length := by
  unfold evictAll
  induction vs generalizing s with
  | nil => rfl
  | cons i vs ih => rw [List.foldl_cons, ih, modify_len]

theorem maintenance_len : (maintenance cfg s).tbl.length = s.tbl.length := by
  unfold maintenance; split
  · rfl
  · exact evictAll_len _

theorem get__len (k : K) (incl : Bool) : (get_ cfg env s k incl).1.tbl.length = s.tbl.length := by
  unfold get_; simp only; split
  · exact applyWalk_len _ _
  · rw [onHit_len]; exact applyWalk_len _ _

theorem expire__len (k : K) : (expire_ cfg env s k).tbl.length = s.tbl.length := applyWalk_len _ _

theorem beforeLink_len : (beforeLink cfg env s).tbl.length = s.tbl.length := by
  unfold beforeLink; split
  · exact purge_len _ _ _
  · rfl

theorem runCb_len (i : Nat) (cb : Cb) : (runCb s i cb).tbl.length = s.tbl.length := by
  cases cb <;> simp [runCb, modify_len]

theorem runCbs_len (i : Nat) (cbs : List Cb) : (runCbs s i cbs).tbl.length = s.tbl.length := by
  unfold runCbs
  induction cbs generalizing s with
  | nil => rfl
  | cons c cbs ih => rw [List.foldl_cons, ih, runCb_len]

theorem complete_len (tok : Nat) (r : Res V E) : (complete cfg env s tok r).1.tbl.length = s.tbl.length := by
  unfold complete; simp only; repeat' split
  · simp [modify_len]
  · simp [onAssign_len, modify_len, runCbs_len]
  · rfl

theorem drop_len (tok : Nat) : (drop s tok).1.tbl.length = s.tbl.length := by
  unfold drop; simp only; split
  · simp [modify_len]
  · rfl

theorem answer_len (i w : Nat) (l : Look V E) : (answer s i w l).1.tbl.length = s.tbl.length := by
  cases l <;> simp [answer, modify_len]

theorem resolveAsync_len (k : K) (b : Beh V E) : (resolveAsync cfg env s k b).1.tbl.length = (link cfg env s (newEntry s k (.pending {}))).tbl.length := by
  cases b <;> simp [resolveAsync, complete_len, drop_len]

/-- The entries that are dead and not pending are no longer linked after the table grew. -/
theorem link_grow (h : WF1 cfg s) {e : Entry K V E} (he : e.id = s.nextId) (hg : (link cfg env s e).tbl.length ≠ s.tbl.length)
    {x : Entry K V E} (hx : x ∈ s.ents) (hs : stale env x = true) : Out_ (link cfg env s e) x.id := by
  have hlen : (link cfg env s e).tbl.length = (maybeRehash cfg env s).tbl.length := by
    unfold link; simp only
    split
    · rw [onCreate_len]; simp [place]
    · rw [onAssign_len, onCreate_len]; simp [place]
  have hmr : Out_ (maybeRehash cfg env s) x.id := by
    rw [hlen] at hg
    have hm : mustGrow cfg (beforeLink cfg env s) = true := by
      cases hh : mustGrow cfg (beforeLink cfg env s)
      · refine absurd ?_ hg
        unfold maybeRehash; simp only; rw [hh]; simp [beforeLink_len]
      · rfl
    have hne : ¬ s.tbl.length = 0 := by
      intro h0
      rw [List.length_eq_zero_iff] at h0
      unfold St.ents at hx; rw [h0] at hx; cases hx
    have hov : cfg.over (s.size + 1) s.tbl.length = true := by
      cases hh : cfg.over (s.size + 1) s.tbl.length
      · have : beforeLink cfg env s = s := by unfold beforeLink; rw [hh]; rfl
        rw [this] at hm
        simp [mustGrow, hh, hne] at hm
      · rfl
    have hb : beforeLink cfg env s = purge cfg env s := by unfold beforeLink; rw [if_pos hov]
    intro y hy hid
    unfold maybeRehash at hy; simp only at hy
    rw [if_pos hm] at hy
    have hy := (rehash_perm cfg _ (grown_pos hm)).mem_iff.1 hy
    rw [hb, purge_ents, List.mem_filter] at hy
    obtain rfl := eq_of_id h hy.1 hx hid
    rw [hs] at hy; simp at hy
  have hlt : x.id < s.nextId := h.lt x (List.mem_append_left _ hx)
  -- the rest of `link` brings nothing back
  have f1 : Flow s (maybeRehash cfg env s) := .drops (maybeRehash_drops cfg env s) (by simp) (by simp)
  intro y hy hid
  obtain ⟨_, _, _, _, kept, o, hd, hp, _⟩ := link_spec env h he
  have hne := maybeRehash_ne (cfg := cfg) env s
  have hn : (maybeRehash cfg env s).nextId = s.nextId := by simp
  have : Out_ (link cfg env s e) x.id := by
    unfold link; simp only
    generalize maybeRehash cfg env s = s1 at *
    have h2 : Out_ { s1 with tbl := place cfg s1.tbl e, nextId := s1.nextId + 1 } x.id := by
      intro z hz hzid
      have hp : St.ents { s1 with tbl := place cfg s1.tbl e, nextId := s1.nextId + 1 } |>.Perm (s1.ents ++ [e]) :=
        Buckets.perm_place (fun e : Entry K V E => cfg.hash e.key) hne e
      rcases List.mem_append.1 (hp.mem_iff.1 hz) with hh | hh
      · exact hmr z hh hzid
      · rw [List.mem_singleton] at hh; subst hh; omega
    have hlt2 : x.id < s1.nextId + 1 := by omega
    have h3 := (onCreate_flow (cfg := cfg) (env := env) e.id).out (s := { s1 with tbl := place cfg s1.tbl e, nextId := s1.nextId + 1 }) hlt2 h2
    split
    · exact h3
    · exact (onAssign_flow _ _).out (by simpa using hlt2) h3
  exact this y hy hid

/-- Walking does not touch dead entries except by removing them. -/
theorem walked_keeps (k : K) (incl : Bool) {x : Entry K V E} (hx : x ∈ (walked cfg env s k incl).ents) : x ∈ s.ents := by
  obtain ⟨oth, h1, h2, _⟩ := applyWalk_perm (cfg := cfg) (s := s) (i := s.bucketFor (cfg.hash k))
    (w := getWalk cfg env k incl (s.bucket (s.bucketFor (cfg.hash k)))) (kept0 := (getWalk cfg env k incl (s.bucket (s.bucketFor (cfg.hash k)))).kept)
    (g := fun e => e) (getWalk_perm cfg env k incl _) (by simp)
  have := h2.mem_iff.1 hx
  exact h1.mem_iff.2 (List.mem_append_left _ (by simpa using this))

/-- Either the entry is still there unchanged, or its id is not linked any more. -/
theorem same_or_out (h : WF1 cfg s) {s' : St K V E} (hk : ∀ e' ∈ s'.ents, ∃ e ∈ s.ents, e'.id = e.id ∧ (e.isPending = false → e' = e)) {x : Entry K V E} (hx : x ∈ s.ents)
    (hp : x.isPending = false) : x ∈ s'.ents ∨ Out_ s' x.id := by
  by_cases hh : x ∈ s'.ents
  · exact .inl hh
  · refine .inr fun y hy hid => ?_
    obtain ⟨e, he, h1, h2⟩ := hk y hy
    obtain rfl := eq_of_id h he hx (h1.symm.trans hid)
    exact hh (h2 hp ▸ hy)

/-- Whatever operation makes the table grow, no dead entry survives it. -/
theorem step_grow (hc : cfg.Ok) {M : Md V} {L} {X} (h : Good cfg M X s L) (o : Op K V E) (hg : (step cfg M.env s o).1.tbl.length ≠ s.tbl.length)
    {x : Entry K V E} (hx : x ∈ s.ents) (hs : stale M.env x = true) : Out_ (step cfg M.env s o).1 x.id := by
  have hpx : x.isPending = false := by unfold stale at hs; simp at hs; exact hs.2
  have hlt := h.wf1.lt x (List.mem_append_left _ hx)
  -- a lookup that misses, followed by an insertion
  have hmiss : ∀ k incl, s.ents.find? (isHit cfg M.env k incl) = none →
      WF1 cfg (get_ cfg M.env s k incl).1 ∧ (x ∈ (get_ cfg M.env s k incl).1.ents ∨ Out_ (get_ cfg M.env s k incl).1 x.id) := by
    intro k incl hh
    rw [get__eq hc h.wf1.placed, hh]
    exact ⟨walked_wf1 h.wf1 _ _ _, same_or_out h.wf1 (fun e' he' => ⟨e', walked_keeps k incl he', rfl, fun _ => rfl⟩) hx hpx⟩
  have hlink : ∀ (s1 : St K V E) (e : Entry K V E), WF1 cfg s1 → e.id = s1.nextId → s1.nextId = s.nextId → (x ∈ s1.ents ∨ Out_ s1 x.id) →
      (link cfg M.env s1 e).tbl.length ≠ s1.tbl.length → Out_ (link cfg M.env s1 e) x.id := by
    intro s1 e w he hn hh hlen
    rcases hh with hh | hh
    · exact link_grow w he hlen hh hs
    · exact (link_flow he).out (hn ▸ hlt) hh
  have htry : ∀ (s1 : St K V E) (e : Entry K V E) (f : Fail), WF1 cfg s1 → e.id = s1.nextId → s1.nextId = s.nextId → (x ∈ s1.ents ∨ Out_ s1 x.id) →
      (tryLink cfg M.env s1 e f).1.tbl.length ≠ s1.tbl.length → Out_ (tryLink cfg M.env s1 e f).1 x.id := by
    intro s1 e f w he hn hh hlen
    rcases tryLink_cases cfg M.env s1 e f with q | q | q
    · rw [q] at hlen ⊢; exact hlink s1 e w he hn hh hlen
    · rw [q] at hlen; exact absurd rfl hlen
    · rw [q] at hlen; exact absurd beforeLink_len hlen
  cases o with
  | getIfExists k => exact absurd rfl hg
  | count => exact absurd rfl hg
  | erase k => exact absurd (expire__len k) hg
  | clear => exact absurd (by simp [step, clear, dispose_tbl]) hg
  | complete tok r => exact absurd (complete_len tok r) hg
  | drop tok => exact absurd (drop_len tok) hg
  | destroy => exact absurd (by simp [step, destroy, dispose_tbl]) hg
  | get k r =>
    simp only [step, get] at hg ⊢
    have hq := get__eq hc h.wf1.placed M.env k false
    have hl := get__len (cfg := cfg) (env := M.env) (s := s) k false
    cases hf : s.ents.find? (isHit cfg M.env k false) with
    | none =>
      obtain ⟨w, hh⟩ := hmiss k false hf
      have hn : (get_ cfg M.env s k false).1.nextId = s.nextId := by simp
      rw [hf] at hq
      have h2 : (get_ cfg M.env s k false).2 = .none := by rw [hq]
      generalize get_ cfg M.env s k false = g at *
      obtain ⟨s1, l⟩ := g
      simp only at *
      subst h2
      cases hr : cfg.resolver <;> simp only [hr] at hg ⊢
      · exact absurd hl hg
      · exact hlink s1 (newEntry s1 k (syncMapped r)) w rfl hn hh (by rw [hl]; exact hg)
      · exact absurd hl hg
    | some e =>
      exfalso
      rw [hf] at hq
      obtain ⟨_, _, _, ⟨u, _, h3⟩ | h3⟩ := hit_facts hf
      · have h2 : (get_ cfg M.env s k false).2 = .val u := by rw [hq]; exact h3
        generalize get_ cfg M.env s k false = g at *
        obtain ⟨s1, l⟩ := g
        simp only at *
        subst h2
        cases hr : cfg.resolver <;> simp only [hr] at hg <;> exact hg hl
      · cases h3.1
  | asyncGet k w b =>
    simp only [step] at hg ⊢
    rw [asyncGet_eq hc h.wf1.placed] at hg ⊢
    have hl := get__len (cfg := cfg) (env := M.env) (s := s) k true
    cases hf : s.ents.find? (isHit cfg M.env k true) with
    | none =>
      obtain ⟨w1, hh⟩ := hmiss k true hf
      have hn : (get_ cfg M.env s k true).1.nextId = s.nextId := by simp
      rw [hf] at hg
      simp only at hg ⊢
      generalize (get_ cfg M.env s k true).1 = s1 at *
      rw [answer_len, resolveAsync_len] at hg
      have ho := hlink s1 (newEntry s1 k (.pending {})) w1 rfl hn hh (by rw [hl]; exact hg)
      have f2 : Flow s1 (resolveAsync cfg M.env s1 k b).1 := resolveAsync_flow k b
      have ho2 : Out_ (resolveAsync cfg M.env s1 k b).1 x.id := by
        have hlt1 : x.id < (link cfg M.env s1 (newEntry s1 k (.pending {}))).nextId := by simp; omega
        cases b with
        | later => exact ho
        | now r => exact (complete_flow (cfg := cfg) (env := M.env) _ r).out (s := { link cfg M.env s1 (newEntry s1 k (.pending {})) with opens := _ }) hlt1 ho
        | drop => exact (drop_flow _).out (s := { link cfg M.env s1 (newEntry s1 k (.pending {})) with opens := _ }) hlt1 ho
      exact (answer_flow _ _ _).out (by have := f2.next; omega) ho2
    | some e =>
      rw [hf] at hg
      simp only at hg
      rw [answer_len] at hg
      exact absurd hl hg
  | emplace k v f =>
    simp only [step, emplace] at hg ⊢
    have hl := expire__len (cfg := cfg) (env := M.env) (s := s) k
    have hn : (expire_ cfg M.env s k).nextId = s.nextId := by simp
    have w := (expire_ok hc h k).1.wf1
    have hh : x ∈ (expire_ cfg M.env s k).ents ∨ Out_ (expire_ cfg M.env s k) x.id := by
      obtain ⟨kept, rem, p1, p2, p3, p4⟩ := expire_spec hc h.wf1 M.env k
      refine same_or_out h.wf1 (fun e' he' => ?_) hx hpx
      obtain ⟨e0, h0, rfl⟩ := List.mem_map.1 (p2.mem_iff.1 he')
      refine ⟨e0, p1.mem_iff.2 (List.mem_append_left _ h0), (expUpd_idKey cfg k e0).1, fun hp => ?_⟩
      unfold expUpd; split
      · rename_i hk; rw [p4 e0 h0 hk] at hp; cases hp
      · rfl
    generalize expire_ cfg M.env s k = s1 at *
    have ht := htry s1 (newEntry s1 k (.value v)) f w rfl hn hh
    have hnn := tryLink_nextId cfg M.env s1 (newEntry s1 k (.value v)) f
    generalize tryLink cfg M.env s1 (newEntry s1 k (.value v)) f = g at *
    obtain ⟨s2, b⟩ := g
    simp only at *
    cases b
    · exact ht (by rw [hl]; exact hg)
    · simp only [if_true] at hg ⊢
      rw [maintenance_len] at hg
      exact maintenance_flow.out (by omega) (ht (by rw [hl]; exact hg))
  | getOrEmplace k v f =>
    simp only [step, getOrEmplace] at hg ⊢
    have hq := get__eq hc h.wf1.placed M.env k true
    have hl := get__len (cfg := cfg) (env := M.env) (s := s) k true
    cases hf : s.ents.find? (isHit cfg M.env k true) with
    | none =>
      obtain ⟨w, hh⟩ := hmiss k true hf
      have hn : (get_ cfg M.env s k true).1.nextId = s.nextId := by simp
      rw [hf] at hq
      have h2 : (get_ cfg M.env s k true).2 = .none := by rw [hq]
      generalize get_ cfg M.env s k true = g at *
      obtain ⟨s1, l⟩ := g
      simp only at *
      subst h2
      simp only at *
      have ht := htry s1 (newEntry s1 k (.value v)) f w rfl hn hh
      have hnn := tryLink_nextId cfg M.env s1 (newEntry s1 k (.value v)) f
      generalize tryLink cfg M.env s1 (newEntry s1 k (.value v)) f = g at *
      obtain ⟨s2, b⟩ := g
      simp only at *
      cases b
      · exact ht (by rw [hl]; exact hg)
      · simp only [if_true] at hg ⊢
        rw [maintenance_len] at hg
        exact maintenance_flow.out (by omega) (ht (by rw [hl]; exact hg))
    | some e =>
      exfalso
      rw [hf] at hq
      obtain ⟨_, _, _, ⟨u, _, h3⟩ | h3⟩ := hit_facts hf
      · have h2 : (get_ cfg M.env s k true).2 = .val u := by rw [hq]; exact h3
        generalize get_ cfg M.env s k true = g at *
        obtain ⟨s1, l⟩ := g
        simp only at *
        subst h2
        simp only [maintenance_len] at hg
        exact hg hl
      · have h2 : (get_ cfg M.env s k true).2 = .pend := by rw [hq]; exact h3.2.2
        generalize get_ cfg M.env s k true = g at *
        obtain ⟨s1, l⟩ := g
        simp only at *
        subst h2
        simp only [maintenance_len] at hg
        exact hg hl
  | tick r b =>
    simp only [step, tick] at hg ⊢
    cases hdq : s.delayQ with
    | nil => simp only [hdq] at hg; exact absurd rfl hg
    | cons i q =>
      simp only [hdq] at hg ⊢
      cases hfi : s.find i with
      | none => simp only [hfi] at hg; exact absurd rfl hg
      | some e =>
        simp only [hfi] at hg ⊢
        by_cases hre : reached M.env.now e.refTp = true
        · rw [if_pos hre] at hg ⊢
          have w0 : WF1 cfg { s with delayQ := q } :=
            ⟨h.wf1.ids, h.wf1.lt, h.wf1.placed, h.wf1.sorted, h.wf1.bq, (by have := h.wf1.dqN; rw [hdq] at this; exact (List.nodup_cons.1 this).2),
              fun i hi => h.wf1.dqM i (by rw [hdq]; exact List.mem_cons_of_mem _ hi)⟩
          unfold refresh at hg ⊢
          split
          · rename_i hh; rw [if_pos hh] at hg; exact absurd rfl hg
          · rename_i hh; rw [if_neg hh] at hg
            simp only at hg ⊢
            have hres : (if cfg.resolver = .async then resolveAsync cfg M.env { s with delayQ := q } e.key b else resolveSync cfg M.env { s with delayQ := q } e.key r).1.tbl.length ≠ s.tbl.length →
                Out_ (if cfg.resolver = .async then resolveAsync cfg M.env { s with delayQ := q } e.key b else resolveSync cfg M.env { s with delayQ := q } e.key r).1 x.id ∧
                x.id < (if cfg.resolver = .async then resolveAsync cfg M.env { s with delayQ := q } e.key b else resolveSync cfg M.env { s with delayQ := q } e.key r).1.nextId := by
              intro hlen
              split
              · rename_i ha; rw [if_pos ha, resolveAsync_len] at hlen
                have ho := hlink { s with delayQ := q } (newEntry { s with delayQ := q } e.key (.pending {})) w0 rfl rfl (.inl hx) hlen
                have hlt1 : x.id < (link cfg M.env { s with delayQ := q } (newEntry { s with delayQ := q } e.key (.pending {}))).nextId := by simp; omega
                refine ⟨?_, by simp; omega⟩
                cases b with
                | later => exact ho
                | now r => exact (complete_flow (cfg := cfg) (env := M.env) _ r).out (s := { link cfg M.env { s with delayQ := q } (newEntry { s with delayQ := q } e.key (.pending {})) with opens := _ }) hlt1 ho
                | drop => exact (drop_flow _).out (s := { link cfg M.env { s with delayQ := q } (newEntry { s with delayQ := q } e.key (.pending {})) with opens := _ }) hlt1 ho
              · rename_i ha; rw [if_neg ha] at hlen
                exact ⟨hlink { s with delayQ := q } (newEntry { s with delayQ := q } e.key (syncMapped r)) w0 rfl rfl (.inl hx) hlen, by simp [resolveSync]; omega⟩
            generalize (if cfg.resolver = .async then resolveAsync cfg M.env { s with delayQ := q } e.key b else resolveSync cfg M.env { s with delayQ := q } e.key r) = g at *
            obtain ⟨s1, tok⟩ := g
            simp only at *
            have hlen : s1.tbl.length ≠ s.tbl.length := by
              intro h0; apply hg
              repeat' split
              · simp [modify_len, h0]
              · simp [runCb_len, modify_len, h0]
              · simp [modify_len, h0]
            obtain ⟨o1, o2⟩ := hres hlen
            have f2 := Flow.modify s1 e.id (f := fun x => { x with refreshing := true }) (fun _ => ⟨rfl, rfl⟩) (.inr fun _ h => h)
            have o3 := f2.out o2 o1
            repeat' split
            · exact (Flow.modify _ _ (IdKey.upd _) (.inr (upd_addCb_pend _))).out (by simpa using o2) o3
            · exact (runCb_flow tok (.refresh e.id)).out (by simpa using o2) o3
            · exact o3
        · rw [if_neg hre] at hg; exact absurd rfl hg

/-! ### Counting -/

/-- Counting by representatives of keys. -/
theorem length_by_keys (hc : cfg.Ok) : ∀ (ks : List K) (l : List (Entry K V E)), ks.Pairwise (fun a b => cfg.eqv a b = false) →
    l.Pairwise (fun a b => cfg.eqv a.key b.key = false) → (∀ e ∈ l, ∃ k ∈ ks, cfg.eqv e.key k = true) →
    l.length = (ks.filter (fun k => l.any (fun e => cfg.eqv e.key k))).length
  | [], l, _, _, h => by
    cases l with
    | nil => rfl
    | cons e l => obtain ⟨k, hk, _⟩ := h e List.mem_cons_self; cases hk
  | k :: ks, l, hk, hl, h => by
    obtain ⟨hk1, hk2⟩ := List.pairwise_cons.1 hk
    have ih := length_by_keys hc ks (l.filter (fun e => !cfg.eqv e.key k)) hk2 (hl.sublist List.filter_sublist) (by
      intro e he
      obtain ⟨h1, h2⟩ := List.mem_filter.1 he
      obtain ⟨a, ha, hea⟩ := h e h1
      rcases List.mem_cons.1 ha with rfl | ha
      · simp [hea] at h2
      · exact ⟨a, ha, hea⟩)
    have hone : ∀ l : List (Entry K V E), l.Pairwise (fun a b => cfg.eqv a.key b.key = false) →
        (l.filter (fun e => cfg.eqv e.key k)).length = if l.any (fun e => cfg.eqv e.key k) then 1 else 0 := by
      intro l hl
      induction l with
      | nil => rfl
      | cons e l ih =>
        obtain ⟨h1, h2⟩ := List.pairwise_cons.1 hl
        cases he : cfg.eqv e.key k
        · simp [he, ih h2]
        · have : l.filter (fun e => cfg.eqv e.key k) = [] := by
            rw [List.filter_eq_nil_iff]
            intro b hb hbk
            have := hc.trans _ _ _ he (hc.symm _ _ hbk)
            rw [h1 b hb] at this; cases this
          simp [he, this]
    have hsum : l.length = (l.filter (fun e => cfg.eqv e.key k)).length + (l.filter (fun e => !cfg.eqv e.key k)).length := by
      have := (filter_append_not l (fun e => cfg.eqv e.key k)).length_eq
      simpa using this
    have hrest : ks.filter (fun a => (l.filter (fun e => !cfg.eqv e.key k)).any (fun e => cfg.eqv e.key a)) = ks.filter (fun a => l.any (fun e => cfg.eqv e.key a)) := by
      apply List.filter_congr
      intro a ha
      rw [Bool.eq_iff_iff]
      simp only [List.any_eq_true, List.mem_filter]
      constructor
      · rintro ⟨e, ⟨he, _⟩, hea⟩; exact ⟨e, he, hea⟩
      · rintro ⟨e, he, hea⟩
        refine ⟨e, ⟨he, ?_⟩, hea⟩
        cases hek : cfg.eqv e.key k
        · rfl
        · have := hc.trans _ _ _ (hc.symm _ _ hek) hea
          rw [hk1 a ha] at this; cases this
    rw [hsum, ih, hrest, hone l hl, List.filter_cons]
    cases l.any (fun e => cfg.eqv e.key k) <;> simp <;> omega

/-- There is a lookup of `k` in flight that a get could join. -/
def joins (cfg : Cfg K) (s : St K V E) (k : K) : Bool := s.ents.any (fun e => e.mapped.live && cfg.eqv e.key k)

/-- The key has a value. -/
def holds (cfg : Cfg K) (env : Env V) (s : St K V E) (k : K) : Bool :=
  s.ents.any (fun e => (!e.expired env && e.mapped.val?.isSome) && cfg.eqv e.key k)

theorem count_split {M : Md V} {L} {X} (h : Good cfg M X s L) (env : Env V) :
    count env s = (s.ents.filter (fun e => !e.expired env && e.mapped.val?.isSome)).length + (s.ents.filter (fun e => e.mapped.live)).length +
      (s.ents.filter (fun e => !e.expired env && e.mapped.isVoid)).length := by
  have : ∀ l : List (Entry K V E), (∀ e ∈ l, e ∈ s.ents) →
      (l.filter (fun e => !e.expired env)).length = (l.filter (fun e => !e.expired env && e.mapped.val?.isSome)).length + (l.filter (fun e => e.mapped.live)).length +
        (l.filter (fun e => !e.expired env && e.mapped.isVoid)).length := by
    intro l hl
    induction l with
    | nil => rfl
    | cons e l ih =>
      have ih := ih (fun x hx => hl x (List.mem_cons_of_mem _ hx))
      have he := hl e List.mem_cons_self
      simp only [List.filter_cons]
      have hcase : (e.expired env = true ∧ e.mapped.live = false) ∨ (e.expired env = false ∧ e.mapped.val?.isSome = true ∧ e.mapped.live = false ∧ e.mapped.isVoid = false) ∨
          (e.expired env = false ∧ e.mapped.val?.isSome = false ∧ e.mapped.live = true ∧ e.mapped.isVoid = false) ∨
          (e.expired env = false ∧ e.mapped.val?.isSome = false ∧ e.mapped.live = false ∧ e.mapped.isVoid = true) := by
        cases hm : e.mapped with
        | pending p =>
          obtain ⟨p1, p2, _⟩ := h.wf2.pen e he (by simp [Entry.isPending, hm, Mapped.isPending])
          cases hp : p.expired <;> simp [Entry.expired, hm, p1, p2, reached, Mapped.expired, Mapped.holdsError, Mapped.live, Mapped.val?, Mapped.isVoid, hp]
        | value v => cases e.expired env <;> simp [Mapped.live, Mapped.val?, Mapped.isVoid]
        | weak v => cases e.expired env <;> simp [Mapped.live, Mapped.val?, Mapped.isVoid]
        | void => cases e.expired env <;> simp [Mapped.live, Mapped.val?, Mapped.isVoid]
        | gone => simp [Entry.expired, hm, Mapped.expired, Mapped.live]
        | error x => simp [Entry.expired, hm, Mapped.holdsError, Mapped.live]
      rcases hcase with ⟨h1, h2⟩ | ⟨h1, h2, h3, h4⟩ | ⟨h1, h2, h3, h4⟩ | ⟨h1, h2, h3, h4⟩ <;> simp [*] <;> omega
  exact this s.ents (fun _ h => h)

/-- The number of live entries, counted by keys. -/
theorem count_keys (hc : cfg.Ok) {M : Md V} {L} {X} (h : Good cfg M X s L) (htm : M.tm) (env : Env V) (ks : List K) (hks : ks.Pairwise (fun a b => cfg.eqv a b = false))
    (hcov : ∀ a, holds cfg env s a = true ∨ joins cfg s a = true → ∃ k ∈ ks, cfg.eqv a k = true) :
    count env s = (ks.filter (holds cfg env s)).length + (ks.filter (joins cfg s)).length := by
  have hpw : ∀ p : Entry K V E → Bool, (∀ a ∈ s.ents, ∀ b ∈ s.ents, p a = true → p b = true → cfg.eqv a.key b.key = true → a.id = b.id) →
      (s.ents.filter p).Pairwise (fun a b => cfg.eqv a.key b.key = false) := by
    intro p hp
    have hn := nodup_ents h.wf1
    rw [List.Nodup, List.pairwise_map] at hn
    refine ((hn.imp_of_mem (S := fun a b => p a = true → p b = true → cfg.eqv a.key b.key = false) ?_).sublist List.filter_sublist).imp_of_mem ?_
    · intro a b ha hb hne pa pb
      cases hh : cfg.eqv a.key b.key
      · rfl
      · exact absurd (hp a ha b hb pa pb hh) hne
    · intro a b ha hb hab
      exact hab (List.mem_filter.1 ha).2 (List.mem_filter.1 hb).2
  have hnv : s.ents.filter (fun e => !e.expired env && e.mapped.isVoid) = [] := by
    rw [List.filter_eq_nil_iff]; intro e he; simp [h.dq.noVoid htm e he]
  rw [count_split h env, hnv, List.length_nil, Nat.add_zero]
  congr 1
  · have hA := hpw (fun e => !e.expired env && e.mapped.val?.isSome) (by
      intro a ha b hb pa pb hk
      simp only [Bool.and_eq_true, Option.isSome_iff_exists] at pa pb
      obtain ⟨_, v, hv⟩ := pa
      obtain ⟨_, w, hw⟩ := pb
      exact h.wf2.va a ha b hb v w hv hw hk)
    rw [length_by_keys hc ks _ hks hA]
    · congr 1
      apply List.filter_congr
      intro k _
      simp [holds, List.any_filter, Bool.and_assoc]
    · intro e he
      obtain ⟨h1, h2⟩ := List.mem_filter.1 he
      refine hcov e.key (.inl ?_)
      simp only [holds, List.any_eq_true]
      exact ⟨e, h1, by simp only [h2, hc.refl, Bool.and_self]⟩
  · have hB := hpw (fun e => e.mapped.live) (by
      intro a ha b hb pa pb hk
      exact h.wf2.vb a ha b hb pa pb hk)
    rw [length_by_keys hc ks _ hks hB]
    · congr 1
      apply List.filter_congr
      intro k _
      simp [joins, List.any_filter]
    · intro e he
      obtain ⟨h1, h2⟩ := List.mem_filter.1 he
      refine hcov e.key (.inr ?_)
      simp only [joins, List.any_eq_true]
      exact ⟨e, h1, by simp only [h2, hc.refl, Bool.and_self]⟩

theorem holds_iff (hc : cfg.Ok) {M : Md V} {L} {X} (h : Good cfg M X s L) (env : Env V) (k : K) :
    holds cfg env s k = true ↔ ∃ v, (getIfExists cfg env s k).ret = .val v := by
  simp only [peek_val hc h env k, holds, List.any_eq_true, Bool.and_eq_true, Bool.not_eq_true', Option.isSome_iff_exists]
  constructor
  · rintro ⟨e, he, ⟨hx, v, hv⟩, hk⟩; exact ⟨v, e, he, hk, hx, hv⟩
  · rintro ⟨v, e, he, hk, hx, hv⟩; exact ⟨e, he, ⟨hx, v, hv⟩, hk⟩

end Hoard
