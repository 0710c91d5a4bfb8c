import Verif.HandlersLemmas
/-! What operations leave alone about the entries of some lookups. -/
namespace Hoard.Handlers
open Spec
variable {K V E : Type} {cfg : Cfg K} {env : Env V} {T : List Nat} {s s' : St K V E} {P : Entry K V E → Prop}

/-- All entries, in the table or not. -/
def AllE (P : Entry K V E → Prop) (s : St K V E) : Prop := ∀ e ∈ s.ents ++ s.limbo, P e

/-- A property that only matters for entries in `T`, and survives what is done to entries that are not being completed. -/
structure Cl (env : Env V) (T : List Nat) (P : Entry K V E → Prop) : Prop where
  out : ∀ e, e.id ∉ T → P e
  mark : ∀ e, e.isPending = true → P e → P (e.upd .markExpired)
  cancel : ∀ e, P e → P (e.upd .cancel)
  str : ∀ e, P e → P (e.upd (.strengthen env))
  add : ∀ e cb, P e → P (e.upd (.addCb cb))

theorem AllE.mono (h : AllE P s) (h1 : ∀ e ∈ s'.ents, e ∈ s.ents) (h2 : s'.limbo = s.limbo) : AllE P s' := by
  intro e he
  rcases List.mem_append.1 he with he | he
  · exact h e (List.mem_append_left _ (h1 e he))
  · exact h e (List.mem_append_right _ (h2 ▸ he))

theorem AllE.modify (h : AllE P s) (i : Nat) (f : Entry K V E → Entry K V E) (hf : ∀ e, e.id = i → P e → P (f e)) : AllE P (s.modify i f) := by
  have key : ∀ e, P e → P (if e.id = i then f e else e) := by
    intro e he; split
    · rename_i hi; exact hf e hi he
    · exact he
  intro e he
  rcases List.mem_append.1 he with he | he
  · simp only [St.ents, St.modify, List.mem_flatten, List.mem_map] at he
    obtain ⟨b, ⟨b0, hb0, rfl⟩, hb⟩ := he
    obtain ⟨x, hx, rfl⟩ := List.mem_map.1 hb
    exact key x (h x (List.mem_append_left _ (List.mem_flatten.2 ⟨b0, hb0, hx⟩)))
  · simp only [St.modify, List.mem_map] at he
    obtain ⟨x, hx, rfl⟩ := he
    exact key x (h x (List.mem_append_right _ hx))

theorem AllE.dispose (c : Cl env T P) (es : List (Entry K V E)) : ∀ {s : St K V E}, AllE P s → (∀ e ∈ es, P e) → AllE P (Hoard.dispose cfg s es) := by
  induction es with
  | nil => intro s h _; exact h
  | cons e es ih =>
    intro s h he
    refine ih (s := disposeOne cfg s e) ?_ (fun x hx => he x (List.mem_cons_of_mem _ hx))
    intro x hx
    simp only [disposeOne, St.ents, List.mem_append, List.mem_singleton] at hx
    rcases hx with hx | hx | hx
    · exact h x (List.mem_append_left _ hx)
    · exact h x (List.mem_append_right _ hx)
    · rw [hx]; exact c.cancel _ (he e (List.mem_cons_self ..))

theorem mem_bucket {i : Nat} {e : Entry K V E} (he : e ∈ s.bucket i) : e ∈ s.ents := by
  simp only [St.bucket] at he
  cases hb : s.tbl[i]? with
  | none => rw [hb] at he; cases he
  | some b => rw [hb] at he; exact List.mem_flatten.2 ⟨b, List.mem_of_getElem? hb, he⟩

theorem mem_setBucket {i : Nat} {b : List (Entry K V E)} {e : Entry K V E} (he : e ∈ (s.setBucket i b).ents) : e ∈ s.ents ∨ e ∈ b := by
  simp only [St.ents, St.setBucket, List.mem_flatten] at he
  obtain ⟨c, hc, he⟩ := he
  rcases List.mem_or_eq_of_mem_set hc with hc | rfl
  · exact .inl (List.mem_flatten.2 ⟨c, hc, he⟩)
  · exact .inr he

theorem AllE.applyWalk (c : Cl env T P) (h : AllE P s) (i : Nat) {w : Walk K V E} (hk : ∀ e ∈ w.kept, P e) (hr : ∀ e ∈ w.removed, P e) :
    AllE P (Hoard.applyWalk cfg s i w) := by
  refine AllE.dispose c _ ?_ hr
  intro e he
  rcases List.mem_append.1 he with he | he
  · rcases mem_setBucket he with he | he
    · exact h e (List.mem_append_left _ he)
    · exact hk e he
  · exact h e (List.mem_append_right _ he)

theorem getWalk_all (k : K) (incl : Bool) : ∀ (es : List (Entry K V E)), (∀ e ∈ es, P e) →
    (∀ e ∈ (getWalk cfg env k incl es).kept, P e) ∧ (∀ e ∈ (getWalk cfg env k incl es).removed, P e) := by
  intro es h
  have hp := getWalk_perm cfg env k incl es
  constructor <;> intro e he <;> exact h e (hp.mem_iff.2 (by simp [he]))

theorem expireWalk_all (c : Cl env T P) (k : K) : ∀ (es : List (Entry K V E)), (∀ e ∈ es, P e) →
    (∀ e ∈ (expireWalk cfg env k es).kept, P e) ∧ (∀ e ∈ (expireWalk cfg env k es).removed, P e)
  | [], _ => by simp [expireWalk]
  | e :: es, h => by
    obtain ⟨i1, i2⟩ := expireWalk_all c k es (fun x hx => h x (List.mem_cons_of_mem _ hx))
    have he := h e (List.mem_cons_self ..)
    simp only [expireWalk]
    split
    · split
      · rename_i hp
        refine ⟨fun x hx => ?_, i2⟩
        rcases List.mem_cons.1 hx with rfl | hx
        · exact c.mark _ hp he
        · exact i1 x hx
      · refine ⟨i1, fun x hx => ?_⟩
        rcases List.mem_cons.1 hx with rfl | hx
        · exact he
        · exact i2 x hx
    · split
      · refine ⟨i1, fun x hx => ?_⟩
        rcases List.mem_cons.1 hx with rfl | hx
        · exact he
        · exact i2 x hx
      · refine ⟨fun x hx => ?_, i2⟩
        rcases List.mem_cons.1 hx with rfl | hx
        · exact he
        · exact i1 x hx

theorem AllE.onHit (hr : cfg.refresh = none) (c : Cl env T P) (h : AllE P s) (i : Nat) : AllE P (Hoard.onHit cfg env s i) := by
  simp only [Hoard.onHit, hr]
  split
  · exact (h.modify i (·.upd (.strengthen env)) (fun e _ => c.str e)).mono (fun _ x => x) rfl
  · exact h

theorem AllE.get_ (hr : cfg.refresh = none) (c : Cl env T P) (h : AllE P s) (k : K) (incl : Bool) : AllE P (Hoard.get_ cfg env s k incl).1 := by
  obtain ⟨h1, h2⟩ := getWalk_all (cfg := cfg) (env := env) k incl _ (fun e he => h e (List.mem_append_left _ (mem_bucket (i := s.bucketFor (cfg.hash k)) he)))
  have := AllE.applyWalk (cfg := cfg) c h (s.bucketFor (cfg.hash k)) h1 h2
  simp only [Hoard.get_]
  split
  · exact this
  · exact this.onHit hr c _

theorem AllE.expire (c : Cl env T P) (h : AllE P s) (k : K) : AllE P (expire_ cfg env s k) := by
  obtain ⟨h1, h2⟩ := expireWalk_all (cfg := cfg) c k _ (fun e he => h e (List.mem_append_left _ (mem_bucket (i := s.bucketFor (cfg.hash k)) he)))
  exact AllE.applyWalk c h _ h1 h2

theorem AllE.clear (c : Cl env T P) (h : AllE P s) : AllE P (Hoard.clear cfg s) := by
  refine AllE.dispose c _ ?_ ?_
  · intro e he
    rcases List.mem_append.1 he with he | he
    · simp only [St.ents, List.mem_flatten, List.mem_map] at he
      obtain ⟨b, ⟨b0, hb0, rfl⟩, hb⟩ := he
      simp only [expireAllWalk] at hb
      obtain ⟨x, hx, rfl⟩ := List.mem_map.1 hb
      obtain ⟨hx, hp⟩ := List.mem_filter.1 hx
      exact c.mark _ hp (h x (List.mem_append_left _ (List.mem_flatten.2 ⟨b0, hb0, hx⟩)))
    · exact h e (List.mem_append_right _ he)
  · intro e he
    simp only [expireAllWalk] at he
    exact h e (List.mem_append_left _ (List.mem_filter.1 he).1)

theorem AllE.purge (c : Cl env T P) (h : AllE P s) : AllE P (Hoard.purge cfg env s) := by
  refine AllE.dispose c _ ?_ ?_
  · refine h.mono (fun e he => ?_) rfl
    simp only [St.ents, List.mem_flatten, List.mem_map] at he
    obtain ⟨b, ⟨b0, hb0, rfl⟩, hb⟩ := he
    exact List.mem_flatten.2 ⟨b0, hb0, (List.mem_filter.1 hb).1⟩
  · intro e he
    simp only [purgeWalk] at he
    exact h e (List.mem_append_left _ (List.mem_filter.1 he).1)

theorem AllE.maybeRehash (c : Cl env T P) (h : AllE P s) : AllE P (Hoard.maybeRehash cfg env s) := by
  have h1 : AllE P (beforeLink cfg env s) := by
    unfold beforeLink; split
    · exact h.purge c
    · exact h
  simp only [Hoard.maybeRehash]
  split
  · rename_i hg
    exact h1.mono (fun e he => (rehash_perm _ _ (grown_pos hg)).mem_iff.1 he) rfl
  · exact h1

theorem AllE.assign (c : Cl env T P) (h : AllE P s) {i : Nat} (hi : i ∉ T) (b : Bool) : AllE P (onAssign cfg env s i b) := by
  refine AllE.mono (s := s.modify i (assignTimes cfg env b)) (h.modify _ _ (fun y hy _ => c.out _ ?_)) (fun x hx => ?_) ?_
  · rw [show ∀ b, (assignTimes cfg env b y).id = y.id from fun b => by simp only [assignTimes]; split <;> (try split) <;> rfl, hy]; exact hi
  · simp only [onAssign] at hx; split at hx <;> exact hx
  · simp only [onAssign]; split <;> rfl

theorem AllE.link (c : Cl env T P) (h : AllE P s) {e : Entry K V E} (he : e.id ∉ T) : AllE P (Hoard.link cfg env s e) := by
  have h1 := h.maybeRehash (cfg := cfg) c
  have h2 : AllE P ({ Hoard.maybeRehash cfg env s with tbl := place cfg (Hoard.maybeRehash cfg env s).tbl e, nextId := (Hoard.maybeRehash cfg env s).nextId + 1 } : St K V E) := by
    intro x hx
    rcases List.mem_append.1 hx with hx | hx
    · simp only [St.ents, place, List.mem_flatten] at hx
      obtain ⟨b, hb, hx⟩ := hx
      have : b ∈ (Hoard.maybeRehash cfg env s).tbl ∨ ∃ b0 ∈ (Hoard.maybeRehash cfg env s).tbl, b = b0 ++ [e] := by
        generalize (Hoard.maybeRehash cfg env s).tbl = tbl at hb ⊢
        obtain ⟨j, hj⟩ := List.getElem?_of_mem hb
        rw [List.getElem?_modify] at hj
        cases ht : tbl[j]? with
        | none => rw [ht] at hj; cases hj
        | some b0 =>
          rw [ht] at hj
          have hm := List.mem_of_getElem? ht
          split at hj
          · exact .inr ⟨b0, hm, (Option.some.inj hj).symm⟩
          · exact .inl (Option.some.inj hj ▸ hm)
      rcases this with hb | ⟨b0, hb', rfl⟩
      · exact h1 x (List.mem_append_left _ (List.mem_flatten.2 ⟨b, hb, hx⟩))
      · rcases List.mem_append.1 hx with hx | hx
        · exact h1 x (List.mem_append_left _ (List.mem_flatten.2 ⟨b0, hb', hx⟩))
        · rw [List.mem_singleton.1 hx]; exact c.out _ he
    · exact h1 x (List.mem_append_right _ hx)
  have h3 : ∀ {x : St K V E}, AllE P x → AllE P (onCreate cfg env x e.id) := by
    intro x hx
    simp only [onCreate]
    split
    · split
      · exact hx.mono (fun _ y => y) rfl
      · exact AllE.modify (s := { x with bq := (x.bq.onCreate e.id).1 }) (hx.mono (fun _ y => y) rfl) _ _ (fun y _ => c.str y)
    · exact hx
  simp only [Hoard.link]
  split
  · exact h3 h2
  · exact (h3 h2).assign c he _

theorem AllE.tryLink (c : Cl env T P) (h : AllE P s) {e : Entry K V E} (he : e.id ∉ T) (f : Fail) : AllE P (Hoard.tryLink cfg env s e f).1 := by
  cases f with
  | none => exact h.link c he
  | alloc => exact h
  | grow =>
    simp only [Hoard.tryLink]
    split
    · unfold beforeLink; split
      · exact h.purge c
      · exact h
    · exact h.link c he

theorem AllE.cancelled (c : Cl env T P) (h : AllE P s) (t : Nat) : AllE P (drop s t).1 := by
  by_cases ho : t ∈ s.opens
  · rw [drop_pos ho]
    exact (h.modify t _ (fun e _ => c.cancel e)).mono (fun _ x => x) rfl
  · rw [drop_neg ho]; exact h

/-- A completion of another lookup without refresh callbacks. -/
theorem AllE.complete (c : Cl env T P) (h : AllE P s) {t : Nat} (ht : t ∉ T) (hu : ∀ cb ∈ cbsOf s t, ∃ w, cb = .user w) (r : Res V E) :
    AllE P (Hoard.complete cfg env s t r).1 := by
  by_cases ho : t ∈ s.opens
  · cases hd : s.destroyed with
    | true => rw [complete_dead ho hd]; exact (h.modify t _ (fun e _ => c.cancel e)).mono (fun _ x => x) rfl
    | false =>
      rw [complete_pos ho hd]
      have h1 : runCbs s t (cbsOf s t) = s := by
        generalize cbsOf s t = l at hu
        clear h hd ho
        induction l with
        | nil => rfl
        | cons cb l ih =>
          obtain ⟨w, rfl⟩ := hu cb (List.mem_cons_self ..)
          exact ih (fun x hx => hu x (List.mem_cons_of_mem _ hx))
      rw [h1]
      refine AllE.mono (s := onAssign cfg env (s.modify t (·.upd (completed cfg r))) t r.isOk) ?_ (fun _ x => x) rfl
      refine AllE.assign c (h.modify t _ (fun e he _ => c.out _ ?_)) ht _
      exact he.symm ▸ ht
  · rw [complete_neg ho]; exact h

theorem AllE.resolveAsync (c : Cl env T P) (w : WF1 cfg s) (h : AllE P s) (hn : s.nextId ∉ T) (k : K) (b : Beh V E) : AllE P (Hoard.resolveAsync cfg env s k b).1 := by
  have h1 : AllE P (Hoard.link cfg env s (newEntry s k (.pending {}))) := h.link c hn
  have h2 : AllE P ({ Hoard.link cfg env s (newEntry s k (.pending {})) with opens := (Hoard.link cfg env s (newEntry s k (.pending {}))).opens ++ [s.nextId] } : St K V E) := h1
  obtain ⟨w1, _, hin, _⟩ := link_spc (F := ({} : Eff K V)) env w (e := newEntry s k (.pending {} : Mapped V E)) rfl
  rw [(linkUpd_facts cfg env _).2.2.2.2 rfl] at hin
  cases b with
  | later => exact h2
  | now r =>
    simp only [Hoard.resolveAsync]
    refine AllE.complete c h2 hn ?_ r
    have hf : (Hoard.link cfg env s (newEntry s k (.pending {}))).findAny s.nextId = some (newEntry s k (.pending {})) := findAny_mem w1 hin
    intro cb hcb
    have he : cbsOf ({ Hoard.link cfg env s (newEntry s k (.pending {})) with opens := (Hoard.link cfg env s (newEntry s k (.pending {}))).opens ++ [s.nextId] } : St K V E) s.nextId =
        cbsOf (Hoard.link cfg env s (newEntry s k (.pending {}))) s.nextId := rfl
    rw [he] at hcb
    simp only [cbsOf, hf] at hcb
    cases hcb
  | drop => exact AllE.cancelled c h2 _

theorem AllE.answer (c : Cl env T P) (h : AllE P s) (i w : Nat) (l : Look V E) : AllE P (Hoard.answer s i w l).1 := by
  cases l with
  | pend => exact h.modify _ _ (fun e _ => c.add e _)
  | _ => exact h

theorem AllE.maintenance (h : AllE P s)
    (hw : (∀ e, P e → P (e.upd (if cfg.weaken then .weaken cfg.ptr else .markExpired))) ∨ ∀ N, cfg.maxSize = some N → (Hoard.maintenance cfg s).size ≤ N) :
    AllE P (Hoard.maintenance cfg s) := by
  cases hN : cfg.maxSize with
  | none => simp only [Hoard.maintenance, hN]; exact h
  | some N =>
    rcases hw with hw | hw
    · simp only [Hoard.maintenance, hN]
      generalize s.bq.victims (s.size - N) = vs
      induction vs generalizing s with
      | nil => exact h
      | cons v vs ih => exact ih (s := s.modify v (·.upd (if cfg.weaken then .weaken cfg.ptr else .markExpired))) (h.modify _ _ (fun e _ => hw e))
    · have := hw N hN
      rw [maintenance_size] at this
      have h0 : s.bq.victims (s.size - N) = [] := by
        rw [show s.size - N = 0 by omega]
        unfold BQ.victims
        cases s.bq.q.reverse <;> rfl
      simp only [Hoard.maintenance, hN, h0]; exact h

/-- Operations that can happen while something is being delivered. -/
def Mid (o : Op K V E) : Prop := (∀ k r, o ≠ .get k r) ∧ (∀ t r, o ≠ .complete t r) ∧ (∀ r b, o ≠ .tick r b) ∧ o ≠ .destroy

theorem AllE.step (hc : cfg.Ok) (hr : cfg.refresh = none) (c : Cl env T P) (w : WF1 cfg s) (h : AllE P s) (hT : ∀ t ∈ T, t < s.nextId) {o : Op K V E} (ho : Mid o)
    (hw : (∀ e, P e → P (e.upd (if cfg.weaken then .weaken cfg.ptr else .markExpired))) ∨ ∀ N, cfg.maxSize = some N → (Hoard.step cfg env s o).1.size ≤ N) :
    AllE P (Hoard.step cfg env s o).1 := by
  have hn : s.nextId ∉ T := fun x => Nat.lt_irrefl _ (hT _ x)
  cases o with
  | getIfExists k => exact h
  | count => exact h
  | get k r => exact absurd rfl (ho.1 k r)
  | complete t r => exact absurd rfl (ho.2.1 t r)
  | tick r b => exact absurd rfl (ho.2.2.1 r b)
  | destroy => exact absurd rfl ho.2.2.2
  | erase k => exact h.expire c k
  | clear => exact h.clear c
  | drop t => exact h.cancelled c t
  | emplace k v f =>
    simp only [Hoard.step, emplace] at hw ⊢
    have hn1 : (newEntry (expire_ cfg env s k) k (.value v : Mapped V E)).id ∉ T := by
      show (expire_ cfg env s k).nextId ∉ T
      rw [(expire_same cfg s env k).nextId]; exact hn
    have h1 := (h.expire (cfg := cfg) c k).tryLink (cfg := cfg) c hn1 f
    split
    · rename_i hh
      rw [if_pos hh] at hw
      exact h1.maintenance hw
    · exact h1
  | getOrEmplace k v f =>
    have h1 := h.get_ hr c k true
    simp only [Hoard.step, getOrEmplace] at hw ⊢
    have hn1 : (newEntry (Hoard.get_ cfg env s k true).1 k (.value v : Mapped V E)).id ∉ T := by
      show (Hoard.get_ cfg env s k true).1.nextId ∉ T
      rw [(get__shr (env := env) hc w k true).same.nextId]; exact hn
    generalize Hoard.get_ cfg env s k true = g at *
    obtain ⟨s1, l⟩ := g
    simp only at *
    cases l with
    | none =>
      simp only at hw ⊢
      split
      · rename_i hh
        rw [if_pos hh] at hw
        exact (h1.tryLink c hn1 f).maintenance hw
      · exact h1.tryLink c hn1 f
    | val u => exact h1.maintenance hw
    | err u => exact h1.maintenance hw
    | pend => exact h1.maintenance hw
  | asyncGet k x b =>
    have h1 := h.get_ hr c k true
    have w1 := get__wf1 hc w env k true
    have hn1 : (Hoard.get_ cfg env s k true).1.nextId ∉ T := by
      rw [(get__shr (env := env) hc w k true).same.nextId]; exact hn
    simp only [Hoard.step, asyncGet]
    split
    · exact h1.answer c _ _ _
    · exact (h1.resolveAsync c w1 hn1 k b).answer c _ _ _

end Hoard.Handlers
