import Verif.NestedAsyncKeep
/-! Lookups in flight are never unlinked while the cache exists. -/
namespace Hoard.NestedAsync
open Spec
open Handlers (AllE cbsOf withOpens complete_pos complete_neg complete_dead drop_pos drop_neg)
variable {K V E : Type} {cfg : Cfg K} {env : Env V} {s s' : St K V E}

/-- No unlinked entry is pending. -/
def LimNP (s : St K V E) : Prop := ∀ e ∈ s.limbo, e.isPending = false

theorem LimNP.modify (h : LimNP s) (i : Nat) {f : Entry K V E → Entry K V E} (hf : ∀ e, e.isPending = false → (f e).isPending = false) : LimNP (s.modify i f) := by
  intro e he
  rw [limbo_modify] at he
  obtain ⟨x, hx, rfl⟩ := List.mem_map.1 he
  simp only [atId]; split
  · exact hf x (h x hx)
  · exact h x hx

theorem LimNP.same (h : LimNP s) (e : s'.limbo = s.limbo) : LimNP s' := by intro x hx; rw [e] at hx; exact h x hx

theorem np_mark (e : Entry K V E) (h : e.isPending = false) : (e.upd .markExpired).isPending = false := by
  obtain ⟨i, k, m, a, b, c, d⟩ := e; cases m <;> first | cases h; done | rfl
theorem np_str (e : Entry K V E) (h : e.isPending = false) : (e.upd (.strengthen env)).isPending = false := by
  obtain ⟨i, k, m, a, b, c, d⟩ := e
  cases m <;> first | cases h; done | (simp only [Entry.upd, Entry.isPending, Mapped.strengthen]; (try split) <;> rfl)
theorem np_weak (p : Bool) (e : Entry K V E) (h : e.isPending = false) : (e.upd (.weaken p)).isPending = false := by
  obtain ⟨i, k, m, a, b, c, d⟩ := e
  cases m <;> first | cases h; done | (simp only [Entry.upd, Entry.isPending, Mapped.weaken]; (try split) <;> rfl)
theorem np_cb (cb : Cb) (e : Entry K V E) (h : e.isPending = false) : (e.upd (.addCb cb)).isPending = false := by
  obtain ⟨i, k, m, a, b, c, d⟩ := e; cases m <;> first | cases h; done | rfl
theorem np_cancel (e : Entry K V E) (h : e.isPending = false) : (e.upd .cancel).isPending = false := by rw [cancel_np h]; exact h
theorem np_completed (r : Res V E) (e : Entry K V E) : (e.upd (completed cfg r)).isPending = false := completed_notPending cfg r e.mapped

theorem lim_dispose (es : List (Entry K V E)) : ∀ {s : St K V E}, LimNP s → (∀ e ∈ es, e.isPending = false) → LimNP (dispose cfg s es) := by
  induction es with
  | nil => intro s h _; exact h
  | cons e es ih =>
    intro s h he
    refine ih (s := disposeOne cfg s e) ?_ (fun x hx => he x (List.mem_cons_of_mem _ hx))
    intro x hx
    simp only [disposeOne, List.mem_append, List.mem_singleton] at hx
    rcases hx with hx | hx
    · exact h x hx
    · rw [hx]; exact np_cancel e (he e (List.mem_cons_self ..))

theorem lim_applyWalk (h : LimNP s) (i : Nat) {w : Walk K V E} (hr : ∀ e ∈ w.removed, e.isPending = false) : LimNP (applyWalk cfg s i w) :=
  lim_dispose _ (h.same rfl) hr

theorem lim_onHit (h : LimNP s) (i : Nat) : LimNP (onHit cfg env s i) := by
  have h1 : LimNP (if cfg.maxSize.isSome then ({ s.modify i (·.upd (.strengthen env)) with bq := s.bq.onHit i } : St K V E) else s) := by
    split
    · exact (h.modify i (f := (·.upd (.strengthen env))) (fun e => np_str e)).same rfl
    · exact h
  simp only [onHit]
  generalize (if cfg.maxSize.isSome then ({ s.modify i (·.upd (.strengthen env)) with bq := s.bq.onHit i } : St K V E) else s) = s1 at h1
  split
  · exact h1
  · split
    · exact h1
    · refine h1.modify i (fun e he => ?_)
      split <;> exact he

theorem lim_get_ (h : LimNP s) (k : K) (incl : Bool) : LimNP (get_ cfg env s k incl).1 := by
  have := lim_applyWalk (cfg := cfg) h (s.bucketFor (cfg.hash k)) (getWalk_np (cfg := cfg) (env := env) k incl (s.bucket (s.bucketFor (cfg.hash k))))
  simp only [get_]
  split
  · exact this
  · exact lim_onHit this _

theorem expireWalk_np (k : K) : ∀ (es : List (Entry K V E)), ∀ e ∈ (expireWalk cfg env k es).removed, e.isPending = false
  | [] => by simp [expireWalk]
  | e :: es => by
    have ih := expireWalk_np k es
    intro x hx
    simp only [expireWalk] at hx
    split at hx
    · split at hx
      · exact ih x hx
      · rename_i hp
        rcases List.mem_cons.1 hx with rfl | hx
        · simpa using hp
        · exact ih x hx
    · split at hx
      · rename_i hs
        rcases List.mem_cons.1 hx with rfl | hx
        · exact stale_np hs
        · exact ih x hx
      · exact ih x hx

theorem lim_expire (h : LimNP s) (k : K) : LimNP (expire_ cfg env s k) := lim_applyWalk h _ (expireWalk_np k _)

theorem lim_clear (h : LimNP s) : LimNP (clear cfg s) := by
  refine lim_dispose _ (h.same rfl) ?_
  intro e he
  simp only [expireAllWalk] at he
  simpa using (List.mem_filter.1 he).2

theorem lim_beforeLink (h : LimNP s) : LimNP (beforeLink cfg env s) := by
  unfold beforeLink; split
  · refine lim_dispose _ (h.same rfl) ?_
    intro e he
    simp only [purgeWalk] at he
    exact stale_np (List.mem_filter.1 he).2
  · exact h

theorem lim_maybeRehash (h : LimNP s) : LimNP (maybeRehash cfg env s) := by
  have h1 := lim_beforeLink (cfg := cfg) (env := env) h
  simp only [maybeRehash]
  split
  · exact h1.same rfl
  · exact h1

theorem lim_assign (h : LimNP s) (i : Nat) (b : Bool) : LimNP (onAssign cfg env s i b) := by
  refine LimNP.same (s := s.modify i (assignTimes cfg env b)) (h.modify _ (fun y hy => ?_)) ?_
  · rw [Entry.isPending, (assignTimes_same b y).2]; exact hy
  · simp only [onAssign]; split <;> rfl

theorem lim_link (h : LimNP s) (e : Entry K V E) : LimNP (link cfg env s e) := by
  have h2 : LimNP ({ maybeRehash cfg env s with tbl := place cfg (maybeRehash cfg env s).tbl e, nextId := (maybeRehash cfg env s).nextId + 1 } : St K V E) :=
    (lim_maybeRehash (cfg := cfg) (env := env) h).same rfl
  have h3 : ∀ {x : St K V E}, LimNP x → LimNP (onCreate cfg env x e.id) := by
    intro x hx
    simp only [onCreate]
    split
    · split
      · exact hx.same rfl
      · exact LimNP.modify (s := { x with bq := (x.bq.onCreate e.id).1 }) (hx.same rfl) _ (fun y => np_str y)
    · exact hx
  simp only [link]
  split
  · exact h3 h2
  · exact lim_assign (h3 h2) _ _

theorem lim_tryLink (h : LimNP s) (e : Entry K V E) (f : Fail) : LimNP (tryLink cfg env s e f).1 := by
  cases f with
  | none => exact lim_link h e
  | alloc => exact h
  | grow =>
    simp only [tryLink]
    split
    · exact lim_beforeLink h
    · exact lim_link h e

theorem lim_drop (h : LimNP s) (t : Nat) : LimNP (drop s t).1 := by
  by_cases ho : t ∈ s.opens
  · rw [drop_pos ho]
    exact (h.modify t (f := (·.upd .cancel)) np_cancel).same rfl
  · rw [drop_neg ho]; exact h

theorem lim_runCb (h : LimNP s) (i : Nat) (cb : Cb) : LimNP (runCb s i cb) := by
  cases cb with
  | user w => exact h
  | refresh old =>
    simp only [runCb]
    refine LimNP.modify (LimNP.modify h _ (fun e he => ?_)) _ np_mark
    exact he

theorem lim_runCbs (i : Nat) (cbs : List Cb) : ∀ {s : St K V E}, LimNP s → LimNP (runCbs s i cbs) := by
  induction cbs with
  | nil => intro s h; exact h
  | cons cb cbs ih => intro s h; exact ih (s := runCb s i cb) (lim_runCb h i cb)

theorem lim_complete (h : LimNP s) (t : Nat) (r : Res V E) : LimNP (complete cfg env s t r).1 := by
  by_cases ho : t ∈ s.opens
  · cases hd : s.destroyed with
    | true =>
      rw [complete_dead ho hd]
      exact (h.modify t (f := (·.upd .cancel)) np_cancel).same rfl
    | false =>
      rw [complete_pos ho hd]
      refine LimNP.same (s := onAssign cfg env ((runCbs s t (cbsOf s t)).modify t (·.upd (completed cfg r))) t r.isOk) ?_ rfl
      exact lim_assign ((lim_runCbs t (cbsOf s t) h).modify t (f := (·.upd (completed cfg r))) (fun e _ => np_completed r e)) _ _
  · rw [complete_neg ho]; exact h

theorem lim_resolveAsync (h : LimNP s) (k : K) (b : Beh V E) : LimNP (resolveAsync cfg env s k b).1 := by
  have h2 : LimNP ({ link cfg env s (newEntry s k (.pending {})) with opens := (link cfg env s (newEntry s k (.pending {}))).opens ++ [s.nextId] } : St K V E) := (lim_link h _).same rfl
  cases b with
  | later => exact h2
  | now r => exact lim_complete h2 _ r
  | drop => exact lim_drop h2 _

theorem lim_answer (h : LimNP s) (i w : Nat) (l : Look V E) : LimNP (answer s i w l).1 := by
  cases l with
  | pend => exact h.modify _ (np_cb _)
  | _ => exact h

theorem lim_maintenance (h : LimNP s) : LimNP (maintenance cfg s) := by
  cases hN : cfg.maxSize with
  | none => simp only [maintenance, hN]; exact h
  | some N =>
    simp only [maintenance, hN]
    generalize s.bq.victims (s.size - N) = vs
    induction vs generalizing s with
    | nil => exact h
    | cons v vs ih =>
      refine ih (s := s.modify v (·.upd (if cfg.weaken then .weaken cfg.ptr else .markExpired))) (h.modify _ (fun e he => ?_))
      split
      · exact np_weak _ e he
      · exact np_mark e he

theorem lim_refresh (h : LimNP s) (e : Entry K V E) (r : Res V E) (b : Beh V E) : LimNP (refresh cfg env s e r b).1 := by
  have h1 : LimNP (if cfg.resolver = .async then resolveAsync cfg env s e.key b else resolveSync cfg env s e.key r).1 := by
    split
    · exact lim_resolveAsync h _ b
    · exact lim_link h _
  simp only [refresh]
  generalize (if cfg.resolver = .async then resolveAsync cfg env s e.key b else resolveSync cfg env s e.key r) = p at h1
  split
  · exact h
  · have h2 : LimNP (p.1.modify e.id (fun x => { x with refreshing := true })) := h1.modify _ (fun e he => he)
    split
    · split
      · exact h2.modify _ (np_cb _)
      · exact lim_runCb h2 _ _
    · exact h2

theorem lim_step (h : LimNP s) {o : Op K V E} (h3 : o ≠ .destroy) : LimNP (step cfg env s o).1 := by
  cases o with
  | getIfExists k => exact h
  | count => exact h
  | destroy => exact absurd rfl h3
  | erase k => exact lim_expire h k
  | clear => exact lim_clear h
  | drop t => exact lim_drop h t
  | complete t r => exact lim_complete h t r
  | tick r b =>
    simp only [step, tick]
    split
    · exact h
    · split
      · exact h
      · split
        · rename_i q _ _ _ _ _
          exact lim_refresh (s := { s with delayQ := q }) (h.same rfl) _ r b
        · exact h
  | get k r =>
    have h1 := lim_get_ (cfg := cfg) (env := env) h k false
    simp only [step, get]
    split
    · exact lim_link h1 _
    · exact h1
    · exact h1
    · exact h1
  | asyncGet k w b =>
    have h1 := lim_get_ (cfg := cfg) (env := env) h k true
    simp only [step, asyncGet]
    split
    · exact lim_answer h1 _ _ _
    · exact lim_answer (lim_resolveAsync h1 k b) _ _ _
  | emplace k v f =>
    have h1 := lim_tryLink (cfg := cfg) (env := env) (lim_expire (cfg := cfg) (env := env) h k) (newEntry (expire_ cfg env s k) k (.value v : Mapped V E)) f
    simp only [step, emplace]
    split
    · exact lim_maintenance h1
    · exact h1
  | getOrEmplace k v f =>
    have h1 := lim_get_ (cfg := cfg) (env := env) h k true
    simp only [step, getOrEmplace]
    generalize get_ cfg env s k true = g at *
    obtain ⟨s1, l⟩ := g
    simp only at *
    cases l with
    | none =>
      have h2 := lim_tryLink (cfg := cfg) (env := env) h1 (newEntry s1 k (.value v : Mapped V E)) f
      simp only
      split
      · exact lim_maintenance h2
      · exact h2
    | val u => exact lim_maintenance h1
    | err u => exact lim_maintenance h1
    | pend => exact lim_maintenance h1

theorem lim_run (h : Hist K V E) (hd : (stateAfter cfg h).destroyed = false) : LimNP (stateAfter cfg h) := by
  induction h using snoc_ind with
  | h0 => intro e he; cases he
  | h1 h p ih =>
    obtain ⟨e, o⟩ := p
    rw [stateAfter_snoc] at hd ⊢
    have hne : o ≠ .destroy := by
      intro he; subst he; simp [step, destroy] at hd
    rw [step_destroyed _ _ _ o hne] at hd
    exact lim_step (ih hd) hne

end Hoard.NestedAsync
