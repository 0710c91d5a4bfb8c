import Verif.NestedAsyncLemmas
/-! What operations leave alone about the entry of one lookup. -/
namespace Hoard.NestedAsync
open Spec
open Handlers (AllE cbsOf withOpens complete_pos complete_neg complete_dead drop_pos drop_neg mem_bucket mem_setBucket getWalk_all)
variable {K V E : Type} {cfg : Cfg K} {env : Env V} {s s' : St K V E} {P : Entry K V E → Prop}

/-- A property of entries that survives what operations do to them, other than completing, cancelling, evicting or refreshing them, or adding
waiters. -/
structure ClW (env : Env V) (P : Entry K V E → Prop) : Prop where
  time : ∀ e e', e'.id = e.id → e'.mapped = e.mapped → P e → P e'
  mark : ∀ e, e.isPending = true → P e → P (e.upd .markExpired)
  str : ∀ e, P e → P (e.upd (.strengthen env))
  cb : ∀ x old, P x → Cb.refresh old ∈ x.mapped.cbs → ∀ e, e.id = old → P e → P (e.upd .markExpired)

/-- A property of entries that survives what operations do to them, other than completing or cancelling them, or adding
waiters. -/
structure Cl (cfg : Cfg K) (env : Env V) (P : Entry K V E → Prop) : Prop where
  time : ∀ e e', e'.id = e.id → e'.mapped = e.mapped → P e → P e'
  mark : ∀ e, P e → P (e.upd .markExpired)
  str : ∀ e, P e → P (e.upd (.strengthen env))
  weak : ∀ e, P e → P (e.upd (.weaken cfg.ptr))
  addR : ∀ e i, P e → P (e.upd (.addCb (.refresh i)))

theorem Cl.w (c : Cl cfg env P) : ClW env P := ⟨c.time, fun e _ => c.mark e, c.str, fun _ _ _ _ e _ => c.mark e⟩

theorem cancel_np {e : Entry K V E} (h : e.isPending = false) : e.upd .cancel = e := by
  obtain ⟨i, k, m, a, b, c, d⟩ := e
  cases m with
  | pending p => cases h
  | _ => rfl

theorem keep_dispose (es : List (Entry K V E)) : ∀ {s : St K V E}, AllE P s → (∀ e ∈ es, P e ∧ e.isPending = false) → AllE P (dispose cfg s es) := by
  induction es with
  | nil => intro s h _; exact h
  | cons e es ih =>
    intro s h he
    refine ih (s := disposeOne cfg s e) ?_ (fun x hx => he x (List.mem_cons_of_mem _ hx))
    intro x hx
    simp only [disposeOne, St.ents, List.mem_append, List.mem_singleton] at hx
    rcases hx with hx | hx | hx
    · exact h x (List.mem_append_left _ hx)
    · exact h x (List.mem_append_right _ hx)
    · have := he e (List.mem_cons_self ..)
      rw [hx, cancel_np this.2]; exact this.1

theorem keep_applyWalk (h : AllE P s) (i : Nat) {w : Walk K V E} (hk : ∀ e ∈ w.kept, P e) (hr : ∀ e ∈ w.removed, P e ∧ e.isPending = false) :
    AllE P (applyWalk cfg s i w) := by
  refine keep_dispose _ ?_ hr
  intro e he
  rcases List.mem_append.1 he with he | he
  · rcases mem_setBucket he with he | he
    · exact h e (List.mem_append_left _ he)
    · exact hk e he
  · exact h e (List.mem_append_right _ he)

theorem stale_np {e : Entry K V E} (h : stale env e = true) : e.isPending = false := by
  simp only [stale, Bool.and_eq_true, Bool.not_eq_true'] at h; exact h.2

theorem getWalk_np (k : K) (incl : Bool) : ∀ (es : List (Entry K V E)), ∀ e ∈ (getWalk cfg env k incl es).removed, e.isPending = false
  | [] => by simp [getWalk]
  | e :: es => by
    have ih := getWalk_np k incl es
    intro x hx
    simp only [getWalk] at hx
    split at hx
    · split at hx
      · rename_i hs
        rcases List.mem_cons.1 hx with rfl | hx
        · exact stale_np hs
        · exact ih x hx
      · exact ih x hx
    · split at hx
      · split at hx
        · exact ih x hx
        · rename_i hp
          rcases List.mem_cons.1 hx with rfl | hx
          · simpa using hp
          · exact ih x hx
      · split at hx
        · exact ih x hx
        · cases hx

theorem expireWalk_keep (c : ClW env P) (k : K) : ∀ (es : List (Entry K V E)), (∀ e ∈ es, P e) →
    (∀ e ∈ (expireWalk cfg env k es).kept, P e) ∧ (∀ e ∈ (expireWalk cfg env k es).removed, P e ∧ e.isPending = false)
  | [], _ => by simp [expireWalk]
  | e :: es, h => by
    obtain ⟨i1, i2⟩ := expireWalk_keep c k es (fun x hx => h x (List.mem_cons_of_mem _ hx))
    have he := h e (List.mem_cons_self ..)
    simp only [expireWalk]
    split
    · split
      · rename_i hp
        refine ⟨fun x hx => ?_, i2⟩
        rcases List.mem_cons.1 hx with rfl | hx
        · exact c.mark _ hp he
        · exact i1 x hx
      · rename_i hp
        refine ⟨i1, fun x hx => ?_⟩
        rcases List.mem_cons.1 hx with rfl | hx
        · exact ⟨he, by simpa using hp⟩
        · exact i2 x hx
    · split
      · rename_i hs
        refine ⟨i1, fun x hx => ?_⟩
        rcases List.mem_cons.1 hx with rfl | hx
        · exact ⟨he, stale_np hs⟩
        · exact i2 x hx
      · refine ⟨fun x hx => ?_, i2⟩
        rcases List.mem_cons.1 hx with rfl | hx
        · exact he
        · exact i1 x hx

theorem keep_onHit (c : ClW env P) (h : AllE P s) (i : Nat) : AllE P (onHit cfg env s i) := by
  have h1 : AllE P (if cfg.maxSize.isSome then ({ s.modify i (·.upd (.strengthen env)) with bq := s.bq.onHit i } : St K V E) else s) := by
    split
    · exact (h.modify i (·.upd (.strengthen env)) (fun e _ => c.str e)).mono (fun _ x => x) rfl
    · exact h
  simp only [onHit]
  generalize (if cfg.maxSize.isSome then ({ s.modify i (·.upd (.strengthen env)) with bq := s.bq.onHit i } : St K V E) else s) = s1 at h1
  split
  · exact h1
  · split
    · exact h1
    · refine h1.modify i _ (fun e _ he => ?_)
      split
      · exact c.time e _ rfl rfl he
      · exact he

theorem keep_get_ (c : ClW env P) (h : AllE P s) (k : K) (incl : Bool) : AllE P (get_ cfg env s k incl).1 := by
  obtain ⟨h1, h2⟩ := getWalk_all (cfg := cfg) (env := env) k incl _ (fun e he => h e (List.mem_append_left _ (mem_bucket (i := s.bucketFor (cfg.hash k)) he)))
  have := keep_applyWalk (cfg := cfg) h (s.bucketFor (cfg.hash k)) h1 (fun e he => ⟨h2 e he, getWalk_np k incl _ e he⟩)
  simp only [get_]
  split
  · exact this
  · exact keep_onHit c this _

theorem keep_expire (c : ClW env P) (h : AllE P s) (k : K) : AllE P (expire_ cfg env s k) := by
  obtain ⟨h1, h2⟩ := expireWalk_keep c k _ (fun e he => h e (List.mem_append_left _ (mem_bucket (i := s.bucketFor (cfg.hash k)) he)))
  exact keep_applyWalk h _ h1 h2

theorem keep_clear (c : ClW env P) (h : AllE P s) : AllE P (clear cfg s) := by
  refine keep_dispose _ ?_ ?_
  · intro e he
    rcases List.mem_append.1 he with he | he
    · simp only [St.ents, List.mem_flatten, List.mem_map] at he
      obtain ⟨b, ⟨b0, hb0, rfl⟩, hb⟩ := he
      simp only [expireAllWalk] at hb
      obtain ⟨x, hx, rfl⟩ := List.mem_map.1 hb
      obtain ⟨hx, hp⟩ := List.mem_filter.1 hx
      exact c.mark _ hp (h x (List.mem_append_left _ (List.mem_flatten.2 ⟨b0, hb0, hx⟩)))
    · exact h e (List.mem_append_right _ he)
  · intro e he
    simp only [expireAllWalk] at he
    obtain ⟨h1, h2⟩ := List.mem_filter.1 he
    exact ⟨h e (List.mem_append_left _ h1), by simpa using h2⟩

theorem keep_purge (h : AllE P s) : AllE P (purge cfg env s) := by
  refine keep_dispose _ ?_ ?_
  · refine h.mono (fun e he => ?_) rfl
    simp only [St.ents, List.mem_flatten, List.mem_map] at he
    obtain ⟨b, ⟨b0, hb0, rfl⟩, hb⟩ := he
    exact List.mem_flatten.2 ⟨b0, hb0, (List.mem_filter.1 hb).1⟩
  · intro e he
    simp only [purgeWalk] at he
    obtain ⟨h1, h2⟩ := List.mem_filter.1 he
    exact ⟨h e (List.mem_append_left _ h1), stale_np h2⟩

theorem keep_beforeLink (h : AllE P s) : AllE P (beforeLink cfg env s) := by
  unfold beforeLink; split
  · exact keep_purge h
  · exact h

theorem keep_maybeRehash (h : AllE P s) : AllE P (maybeRehash cfg env s) := by
  have h1 := keep_beforeLink (cfg := cfg) (env := env) h
  simp only [maybeRehash]
  split
  · rename_i hg
    exact h1.mono (fun e he => (rehash_perm _ _ (grown_pos hg)).mem_iff.1 he) rfl
  · exact h1

theorem assignTimes_same (b : Bool) (e : Entry K V E) : (assignTimes cfg env b e).id = e.id ∧ (assignTimes cfg env b e).mapped = e.mapped := by
  simp only [assignTimes]; split <;> (try split) <;> exact ⟨rfl, rfl⟩

theorem keep_assign (c : ClW env P) (h : AllE P s) (i : Nat) (b : Bool) : AllE P (onAssign cfg env s i b) := by
  refine AllE.mono (s := s.modify i (assignTimes cfg env b)) (h.modify _ _ (fun y _ hy => c.time y _ (assignTimes_same b y).1 (assignTimes_same b y).2 hy)) (fun x hx => ?_) ?_
  · simp only [onAssign] at hx; split at hx <;> exact hx
  · simp only [onAssign]; split <;> rfl

theorem keep_link (c : ClW env P) (h : AllE P s) {e : Entry K V E} (he : P e) : AllE P (link cfg env s e) := by
  have h1 := keep_maybeRehash (cfg := cfg) (env := env) h
  have h2 : AllE P ({ maybeRehash cfg env s with tbl := place cfg (maybeRehash cfg env s).tbl e, nextId := (maybeRehash cfg env s).nextId + 1 } : St K V E) := by
    intro x hx
    rcases List.mem_append.1 hx with hx | hx
    · simp only [St.ents, place, List.mem_flatten] at hx
      obtain ⟨b, hb, hx⟩ := hx
      have : b ∈ (maybeRehash cfg env s).tbl ∨ ∃ b0 ∈ (maybeRehash cfg env s).tbl, b = b0 ++ [e] := by
        generalize (maybeRehash cfg env s).tbl = tbl at hb ⊢
        obtain ⟨j, hj⟩ := List.getElem?_of_mem hb
        rw [List.getElem?_modify] at hj
        cases ht : tbl[j]? with
        | none => rw [ht] at hj; cases hj
        | some b0 =>
          rw [ht] at hj
          have hm := List.mem_of_getElem? ht
          split at hj
          · exact .inr ⟨b0, hm, (Option.some.inj hj).symm⟩
          · exact .inl (Option.some.inj hj ▸ hm)
      rcases this with hb | ⟨b0, hb', rfl⟩
      · exact h1 x (List.mem_append_left _ (List.mem_flatten.2 ⟨b, hb, hx⟩))
      · rcases List.mem_append.1 hx with hx | hx
        · exact h1 x (List.mem_append_left _ (List.mem_flatten.2 ⟨b0, hb', hx⟩))
        · rw [List.mem_singleton.1 hx]; exact he
    · exact h1 x (List.mem_append_right _ hx)
  have h3 : ∀ {x : St K V E}, AllE P x → AllE P (onCreate cfg env x e.id) := by
    intro x hx
    simp only [onCreate]
    split
    · split
      · exact hx.mono (fun _ y => y) rfl
      · exact AllE.modify (s := { x with bq := (x.bq.onCreate e.id).1 }) (hx.mono (fun _ y => y) rfl) _ _ (fun y _ => c.str y)
    · exact hx
  simp only [link]
  split
  · exact h3 h2
  · exact keep_assign c (h3 h2) _ _

theorem keep_tryLink (c : ClW env P) (h : AllE P s) {e : Entry K V E} (he : P e) (f : Fail) : AllE P (tryLink cfg env s e f).1 := by
  cases f with
  | none => exact keep_link c h he
  | alloc => exact h
  | grow =>
    simp only [tryLink]
    split
    · exact keep_beforeLink h
    · exact keep_link c h he

theorem keep_drop (h : AllE P s) {t' : Nat} (ht : ∀ e, e.id = t' → P e → P (e.upd .cancel)) : AllE P (drop s t').1 := by
  by_cases ho : t' ∈ s.opens
  · rw [drop_pos ho]
    exact (h.modify t' _ ht).mono (fun _ x => x) rfl
  · rw [drop_neg ho]; exact h

theorem keep_runCb (ct : ∀ e e', e'.id = e.id → e'.mapped = e.mapped → P e → P e') (h : AllE P s) (i : Nat) (cb : Cb) (hm : ∀ old, cb = .refresh old → ∀ e, e.id = old → P e → P (e.upd .markExpired)) :
    AllE P (runCb s i cb) := by
  cases cb with
  | user w => exact h
  | refresh old => 
    simp only [runCb]
    refine AllE.modify (AllE.modify h _ _ (fun e _ he => ?_)) _ _ (fun e hi he => hm old rfl e hi he)
    exact ct e _ rfl rfl he

theorem keep_runCbs (ct : ∀ e e', e'.id = e.id → e'.mapped = e.mapped → P e → P e') (i : Nat) (cbs : List Cb) (hm : ∀ old, Cb.refresh old ∈ cbs → ∀ e, e.id = old → P e → P (e.upd .markExpired)) :
    ∀ {s : St K V E}, AllE P s → AllE P (runCbs s i cbs) := by
  induction cbs with
  | nil => intro s h; exact h
  | cons cb cbs ih =>
    intro s h
    exact ih (fun old ho => hm old (List.mem_cons_of_mem _ ho)) (s := runCb s i cb)
      (keep_runCb ct h i cb (fun old ho => hm old (ho ▸ List.mem_cons_self ..)))

/-- The refreshes waiting for a lookup are those of some entry. -/
theorem cbsOf_mem {t : Nat} {cb : Cb} (h : cb ∈ cbsOf s t) : ∃ x ∈ s.ents ++ s.limbo, cb ∈ x.mapped.cbs := by
  simp only [cbsOf] at h
  cases hf : s.findAny t with
  | none => rw [hf] at h; cases h
  | some x => rw [hf] at h; exact ⟨x, List.mem_of_find?_eq_some hf, h⟩

theorem keep_complete (c : ClW env P) (h : AllE P s) {t' : Nat} (r : Res V E) (ht : ∀ e, e.id = t' → P e → P (e.upd .cancel))
    (hr : ∀ e, e.id = t' → P e → P (e.upd (completed cfg r))) : AllE P (complete cfg env s t' r).1 := by
  by_cases ho : t' ∈ s.opens
  · cases hd : s.destroyed with
    | true =>
      rw [complete_dead ho hd]
      exact (h.modify t' _ ht).mono (fun _ x => x) rfl
    | false =>
      rw [complete_pos ho hd]
      have h1 := keep_runCbs c.time t' (cbsOf s t') (fun old ho e hi he => by
        obtain ⟨x, hx, hxo⟩ := cbsOf_mem ho
        exact c.cb x old (h x hx) hxo e hi he) h
      refine AllE.mono (s := onAssign cfg env ((runCbs s t' (cbsOf s t')).modify t' (·.upd (completed cfg r))) t' r.isOk) ?_ (fun _ x => x) rfl
      exact keep_assign c (h1.modify t' _ hr) _ _
  · rw [complete_neg ho]; exact h

/-- The property holds for a new entry, whatever is done with it. -/
structure New (cfg : Cfg K) (n : Nat) (P : Entry K V E → Prop) : Prop where
  new : ∀ e, e.id = n → e.mapped.cbs = [] → P e
  can : ∀ e, e.id = n → P e → P (e.upd .cancel)
  com : ∀ e r, e.id = n → P e → P (e.upd (completed cfg r))

theorem keep_resolveAsync (c : ClW env P) (h : AllE P s) (hn : New cfg s.nextId P) (k : K) (b : Beh V E) : AllE P (resolveAsync cfg env s k b).1 := by
  have h1 : AllE P (link cfg env s (newEntry s k (.pending {}))) := keep_link c h (hn.new _ rfl rfl)
  have h2 : AllE P ({ link cfg env s (newEntry s k (.pending {})) with opens := (link cfg env s (newEntry s k (.pending {}))).opens ++ [s.nextId] } : St K V E) := h1
  cases b with
  | later => exact h2
  | now r => exact keep_complete c h2 r hn.can (fun e => hn.com e r)
  | drop => exact keep_drop h2 hn.can

theorem keep_answer (h : AllE P s) {i : Nat} (w : Nat) (l : Look V E) (hi : l = .pend → ∀ e, e.id = i → P e → P (e.upd (.addCb (.user w)))) :
    AllE P (answer s i w l).1 := by
  cases l with
  | pend => exact h.modify _ _ (hi rfl)
  | _ => exact h

theorem maintenance_fits (hs : ∀ N, cfg.maxSize = some N → s.size ≤ N) : maintenance cfg s = s := by
  cases hN : cfg.maxSize with
  | none => simp only [maintenance, hN]
  | some N =>
    have : s.size - N = 0 := by have := hs N hN; omega
    simp only [maintenance, hN, this]
    have : s.bq.victims 0 = [] := by simp only [BQ.victims]; cases s.bq.q.reverse <;> rfl
    rw [this]; rfl

theorem maintenance_size : (maintenance cfg s).size = s.size := by
  cases hN : cfg.maxSize with
  | none => simp only [maintenance, hN]
  | some N =>
    simp only [maintenance, hN]
    generalize s.bq.victims (s.size - N) = vs
    induction vs generalizing s with
    | nil => rfl
    | cons v vs ih =>
      refine (ih (s := s.modify v (·.upd (if cfg.weaken then .weaken cfg.ptr else .markExpired)))).trans ?_
      simp only [St.size, ents_modify, List.length_map]

theorem keep_maintenance (h : AllE P s) (hv : (∀ e, P e → P (e.upd .markExpired) ∧ P (e.upd (.weaken cfg.ptr))) ∨
    ∀ N, cfg.maxSize = some N → (maintenance cfg s).size ≤ N) : AllE P (maintenance cfg s) := by
  rcases hv with c | hs
  · cases hN : cfg.maxSize with
    | none => simp only [maintenance, hN]; exact h
    | some N =>
      simp only [maintenance, hN]
      generalize s.bq.victims (s.size - N) = vs
      induction vs generalizing s with
      | nil => exact h
      | cons v vs ih =>
        refine ih (s := s.modify v (·.upd (if cfg.weaken then .weaken cfg.ptr else .markExpired))) (h.modify _ _ (fun e _ he => ?_))
        split
        · exact (c e he).2
        · exact (c e he).1
  · rw [maintenance_fits (fun N hN => by have := hs N hN; rwa [maintenance_size] at this)]; exact h

theorem keep_refresh (c : Cl cfg env P) (h : AllE P s) (hn : New cfg s.nextId P) (e : Entry K V E) (r : Res V E) (b : Beh V E) : AllE P (refresh cfg env s e r b).1 := by
  have h1 : AllE P (if cfg.resolver = .async then resolveAsync cfg env s e.key b else resolveSync cfg env s e.key r).1 := by
    split
    · exact keep_resolveAsync c.w h hn _ b
    · exact keep_link c.w h (hn.new _ rfl (cbs_syncMapped r))
  simp only [refresh]
  generalize (if cfg.resolver = .async then resolveAsync cfg env s e.key b else resolveSync cfg env s e.key r) = p at h1
  split
  · exact h
  · have h2 : AllE P (p.1.modify e.id (fun x => { x with refreshing := true })) := h1.modify _ _ (fun e _ he => c.time e _ rfl rfl he)
    split
    · split
      · exact h2.modify _ _ (fun e _ he => c.addR e _ he)
      · exact keep_runCb c.time h2 _ _ (fun _ _ e _ => c.mark e)
    · exact h2

theorem keep_tick (c : Cl cfg env P) (h : AllE P s) (hn : New cfg s.nextId P) (r : Res V E) (b : Beh V E) : AllE P (tick cfg env s r b).1 := by
  simp only [tick]
  split
  · exact h
  · split
    · exact h
    · split
      · rename_i q _ _ _ _ _
        exact keep_refresh (s := { s with delayQ := q }) c (h.mono (fun _ x => x) rfl) hn _ r b
      · exact h

/-- What operations other than the destructor and `async_get` leave alone, if nothing is evicted and nothing refreshed. -/
theorem keep_stepW (hc : cfg.Ok) (c : ClW env P) (w : WF1 cfg s) (h : AllE P s) (hn : New cfg s.nextId P) {o : Op K V E}
    (h1 : ∀ t r, o = .complete t r → ∀ e, e.id = t → P e → P (e.upd .cancel) ∧ P (e.upd (completed cfg r)))
    (h2 : ∀ t, o = .drop t → ∀ e, e.id = t → P e → P (e.upd .cancel)) (h3 : o ≠ .destroy) (h4 : ∀ k w b, o ≠ .asyncGet k w b)
    (h5 : (∀ r b, o ≠ .tick r b) ∨ Cl cfg env P)
    (h6 : (∀ e, P e → P (e.upd .markExpired) ∧ P (e.upd (.weaken cfg.ptr))) ∨ ∀ N, cfg.maxSize = some N → (step cfg env s o).1.size ≤ N) :
    AllE P (step cfg env s o).1 := by
  cases o with
  | getIfExists k => exact h
  | count => exact h
  | destroy => exact absurd rfl h3
  | asyncGet k w b => exact absurd rfl (h4 k w b)
  | erase k => exact keep_expire c h k
  | clear => exact keep_clear c h
  | drop t => exact keep_drop h (h2 t rfl)
  | complete t r => exact keep_complete c h r (fun e he hp => (h1 t r rfl e he hp).1) (fun e he hp => (h1 t r rfl e he hp).2)
  | tick r b =>
    rcases h5 with h5 | h5
    · exact absurd rfl (h5 r b)
    · exact keep_tick h5 h hn r b
  | get k r =>
    have h1 := keep_get_ (cfg := cfg) c h k false
    have hn1 : (get_ cfg env s k false).1.nextId = s.nextId := (get__shr (env := env) hc w k false).same.nextId
    simp only [step, get]
    generalize get_ cfg env s k false = g at *
    obtain ⟨s1, l⟩ := g
    simp only at *
    split
    · exact keep_link c h1 (hn.new _ hn1 (cbs_syncMapped r))
    · exact h1
    · exact h1
    · exact h1
  | emplace k v f =>
    have h1 := keep_tryLink (cfg := cfg) c (keep_expire (cfg := cfg) c h k) (hn.new (newEntry (expire_ cfg env s k) k (.value v : Mapped V E)) (expire_same cfg s env k).nextId rfl) f
    simp only [step, emplace] at h6 ⊢
    split
    · rename_i hq
      rw [if_pos hq] at h6
      exact keep_maintenance h1 h6
    · exact h1
  | getOrEmplace k v f =>
    have h1 := keep_get_ (cfg := cfg) c h k true
    have hn1 : (get_ cfg env s k true).1.nextId = s.nextId := (get__shr (env := env) hc w k true).same.nextId
    simp only [step, getOrEmplace] at h6 ⊢
    generalize get_ cfg env s k true = g at *
    obtain ⟨s1, l⟩ := g
    simp only at *
    cases l with
    | none =>
      have h2 := keep_tryLink (cfg := cfg) c h1 (hn.new (newEntry s1 k (.value v : Mapped V E)) hn1 rfl) f
      simp only at h6 ⊢
      split
      · rename_i hq
        rw [if_pos hq] at h6
        exact keep_maintenance h2 h6
      · exact h2
    | val u => exact keep_maintenance h1 h6
    | err u => exact keep_maintenance h1 h6
    | pend => exact keep_maintenance h1 h6

/-- What operations other than the destructor and `async_get` leave alone. -/
theorem keep_step (hc : cfg.Ok) (c : Cl cfg env P) (w : WF1 cfg s) (h : AllE P s) (hn : New cfg s.nextId P) {o : Op K V E}
    (h1 : ∀ t r, o = .complete t r → ∀ e, e.id = t → P e → P (e.upd .cancel) ∧ P (e.upd (completed cfg r)))
    (h2 : ∀ t, o = .drop t → ∀ e, e.id = t → P e → P (e.upd .cancel)) (h3 : o ≠ .destroy) (h4 : ∀ k w b, o ≠ .asyncGet k w b) :
    AllE P (step cfg env s o).1 :=
  keep_stepW hc c.w w h hn h1 h2 h3 h4 (.inr c) (.inl (fun e he => ⟨c.mark e he, c.weak e he⟩))

end Hoard.NestedAsync
