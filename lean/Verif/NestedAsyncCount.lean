import Verif.NestedAsyncRun
/-! Asynchronous resolvers that use the cache: every callback is accounted for. -/
namespace Hoard.NestedAsync
open Spec
open Handlers (AllE cbsOf withOpens complete_pos complete_neg complete_dead drop_pos drop_neg)
variable {K V E : Type} {cfg : Cfg K} {env : Env V} {s s' : St K V E} {n : NSt K V E}

theorem Wt_refresh' (w1 : WF1 cfg s) (hN : ∀ k b, WF1 cfg (resolveAsync cfg env s k b).1) (w : Nat) (e : Entry K V E) (r : Res V E) (b : Beh V E) :
    Wt w (refresh cfg env s e r b).1 = Wt w s ∧ (refresh cfg env s e r b).2.fired = [] ∧ (refresh cfg env s e r b).2.broken = [] := by
  have hg : ∀ p : St K V E × Nat, p = (if cfg.resolver = .async then resolveAsync cfg env s e.key b else resolveSync cfg env s e.key r) →
      Wt w p.1 = Wt w s ∧ ((p.1.ents ++ p.1.limbo).map (·.id)).Nodup := by
    intro p hp; subst hp
    split
    · exact ⟨Wt_resolveAsync w1 w _ _, (hN e.key b).ids⟩
    · exact ⟨Wt_link w1 w rfl (cbs_syncMapped r), (link_spec env w1 (e := newEntry s e.key (syncMapped r)) rfl).1.ids⟩
  unfold refresh
  split
  · exact ⟨rfl, rfl, rfl⟩
  · simp only
    obtain ⟨hW, hN⟩ := hg _ rfl
    generalize (if cfg.resolver = .async then resolveAsync cfg env s e.key b else resolveSync cfg env s e.key r) = p at hW hN ⊢
    have hW2 : Wt w (p.1.modify e.id (fun x => { x with refreshing := true })) = Wt w s := by
      refine Eq.trans ?_ hW
      apply Wt_modify; intro x; rfl
    have hN2 := ids_modify hN e.id (f := fun x => { x with refreshing := true }) (fun _ => rfl)
    split
    · rename_i n hf
      split
      · refine ⟨?_, rfl, rfl⟩
        rw [← hW2]
        have hm := List.mem_of_find?_eq_some hf
        have hi : n.id = p.2 := by simpa using List.find?_some hf
        have := Wt_modify_at (w := w) (f := (·.upd (.addCb (.refresh e.id)))) hN2 (List.mem_append_left _ hm)
        have h0 : wt w (n.upd (.addCb (.refresh e.id))) = wt w n := by
          unfold wt Entry.upd
          cases hmm : n.mapped <;> simp [Mapped.addCb, Mapped.cbs, users, List.filterMap_append]
        rw [h0, hi] at this
        simp only at this ⊢
        omega
      · exact ⟨(Wt_runCb _ _ _ _).trans hW2, rfl, rfl⟩
    · exact ⟨hW2, rfl, rfl⟩

theorem Wt_op (hc : cfg.Ok) (w1 : WF1 cfg s) (o : Op K V E) (w : Nat) (ha : ∀ k w b, o ≠ .asyncGet k w b)
    (hT : ∀ r b i q, o = .tick r b → s.delayQ = i :: q → WF1 cfg ({ s with delayQ := q } : St K V E) ∧ ∀ k b, WF1 cfg (resolveAsync cfg env ({ s with delayQ := q } : St K V E) k b).1) :
    Wt w (step cfg env s o).1 + ((step cfg env s o).2.fired.map (·.1)).count w + (step cfg env s o).2.broken.count w = Wt w s := by
  have asked0 : asked [(env, o)] = [] := by
    cases o with
    | asyncGet k w b => exact absurd rfl (ha k w b)
    | _ => rfl
  suffices Wt w (step cfg env s o).1 + ((step cfg env s o).2.fired.map (·.1)).count w + (step cfg env s o).2.broken.count w = Wt w s + (asked [(env, o)]).count w by
    rw [asked0] at this; exact this
  have tl : ∀ {t : St K V E} (_ : WF1 cfg t) (k : K) (v : V) (f : Fail), Wt w (tryLink cfg env t (newEntry t k (.value v)) f).1 = Wt w t := by
    intro t h k v f
    unfold tryLink; split
    · exact Wt_link h w rfl rfl
    · rfl
    · simp only; split
      · exact Wt_beforeLink w t
      · exact Wt_link h w rfl rfl
  cases o with
  | getIfExists k => simp [step, getIfExists, asked]
  | count => simp [step, asked]
  | get k r =>
    have h1 := Wt_get_ (env := env) hc w1 w k false
    have h2 : ∀ r, Wt w (resolveSync cfg env (get_ cfg env s k false).1 k r).1 = Wt w s := fun r =>
      (Wt_link (get__wf1 hc w1 env k false) w rfl (cbs_syncMapped r)).trans h1
    simp only [step, get, asked]
    split <;> simp [h1, h2]
  | asyncGet k u b => exact absurd rfl (ha k u b)
  | emplace k v f =>
    have h1 := Wt_expire (env := env) hc w1 w k
    have h2 := tl (expire_wf1 hc w1 env k) k v f
    simp only [step, emplace, asked]
    split <;> simp [Wt_maintenance, h2, h1]
  | getOrEmplace k v f =>
    have h1 := Wt_get_ (env := env) hc w1 w k true
    have h2 := tl (get__wf1 hc w1 env k true) k v f
    simp only [step, getOrEmplace, asked]
    split
    · simp [Wt_maintenance, h1]
    · split <;> simp [Wt_maintenance, h2, h1]
    · simp [Wt_maintenance, h1]
  | erase k => simp [step, erase, asked, Wt_expire hc w1 w k]
  | clear => simp [step, asked, Wt_clear w s]
  | complete tok r => simpa [step, asked] using Wt_complete (cfg := cfg) (env := env) w1.ids w tok r
  | drop tok => simpa [step, asked] using Wt_drop w1.ids w tok
  | tick r b =>
    simp only [step, tick, asked]
    split
    · simp
    · split
      · simp
      · rename_i i q hq _ e he
        split
        · obtain ⟨w1', w2'⟩ := hT r b i q rfl hq
          obtain ⟨a, b', c⟩ := Wt_refresh' (env := env) w1' w2' w e r b
          rw [a, b', c]; simp; rfl
        · simp
  | destroy =>
    simp only [step, destroy, asked]
    unfold Wt
    have h1 : Wl w (dispose cfg ({ s with tbl := s.tbl.map (fun _ => []) } : St K V E) s.ents).ents = 0 := by
      rw [dispose_ents]
      have : ({ s with tbl := s.tbl.map (fun _ => []) } : St K V E).ents = [] := by simp [St.ents]
      rw [this]; rfl
    have h2 := Wl_dispose (cfg := cfg) w ({ s with tbl := s.tbl.map (fun _ => []) } : St K V E) s.ents
    have h3 : ∀ l : List (Entry K V E), (l.flatMap (fun e => users e.mapped.cbs)).count w = Wl w l := by
      intro l
      induction l with
      | nil => rfl
      | cons a l ih => simp only [List.flatMap_cons, List.count_append, ih, Wl, List.map_cons, List.sum_cons, wt]
    have h1' : Wl w ({ dispose cfg ({ s with tbl := s.tbl.map (fun _ => []) } : St K V E) s.ents with destroyed := true } : St K V E).ents = 0 := h1
    simp only [h1', h2, h3, List.map_nil, List.count_nil]
    omega


/-- What a state of nested calls has in common with the state after the plain history. -/
structure Inv (cfg : Cfg K) (h : NHist K V E) : Prop where
  sim : er (endN cfg h).s = er (stateAfter cfg (flat h))
  ok : HistOk cfg St.init (flat h)
  lt : ∀ p ∈ (endN cfg h).stack, p.1 < (endN cfg h).s.nextId
  dead : (endN cfg h).stack ≠ [] → (endN cfg h).s.destroyed = false

theorem next_nextId (e : Ev K V E) : n.s.nextId ≤ (next cfg env n e).1.s.nextId := by
  have a := congrArg St.nextId (next_sim (cfg := cfg) (env := env) (n := n) e).1
  simp only [er_nextId] at a
  rw [a]
  cases e with
  | op o => exact (step_tokens cfg env n.s o).1
  | get k w => exact (step_tokens cfg env n.s (.asyncGet k w .later)).1
  | ret => exact Nat.le_refl _
  | throw => exact Nat.le_refl _

theorem inv_end (h : NHist K V E) (hok : NOk cfg {} h) : Inv cfg h := by
  induction h using snoc_ind with
  | h0 => exact ⟨rfl, trivial, fun _ hp => (by cases hp), fun hn => absurd rfl hn⟩
  | h1 h p ih =>
    obtain ⟨env, e⟩ := p
    have hs := hist_sim (cfg := cfg) (h ++ [(env, e)]) (n := {}) (s' := St.init) rfl hok
    rw [NOk_append] at hok
    have I := ih hok.1
    have hev : e.ok cfg (endN cfg h) := hok.2.1
    refine ⟨hs.1, hs.2.2, ?_, ?_⟩
    · rw [endN_snoc]
      intro p hp
      have hle := next_nextId (cfg := cfg) (env := env) (n := endN cfg h) e
      have old : p ∈ (endN cfg h).stack → p.1 < (next cfg env (endN cfg h) e).1.s.nextId := fun q => Nat.lt_of_lt_of_le (I.lt p q) hle
      cases e with
      | op o => exact old hp
      | get k w =>
        simp only [next] at hp hle ⊢
        revert hp hle
        cases (getWalk cfg env k true ((endN cfg h).s.bucket ((endN cfg h).s.bucketFor (cfg.hash k)))).hit with
        | some q => intro hp hle; exact Nat.lt_of_lt_of_le (I.lt p hp) hle
        | none =>
          intro hp hle
          rcases List.mem_cons.1 hp with rfl | hp
          · simp [resolveAsync]
          · exact Nat.lt_of_lt_of_le (I.lt p hp) hle
      | ret =>
        refine old ?_
        simp only [next] at hp
        cases hst : (endN cfg h).stack with
        | nil => rw [hst] at hp; simp only [hst] at hp; cases hp
        | cons q st => rw [hst] at hp; exact List.mem_cons_of_mem _ hp
      | throw =>
        refine old ?_
        simp only [next] at hp
        cases hst : (endN cfg h).stack with
        | nil => rw [hst] at hp; simp only [hst] at hp; cases hp
        | cons q st => rw [hst] at hp; exact List.mem_cons_of_mem _ hp
    · rw [endN_snoc]
      intro hn
      cases e with
      | op o =>
        have hne : o ≠ .destroy := fun q => hn (hev.2.2 (.inr q))
        exact (step_destroyed _ _ _ o hne).trans (I.dead hn)
      | get k w =>
        have a := congrArg St.destroyed (next_sim (cfg := cfg) (env := env) (n := endN cfg h) (.get k w)).1
        simp only [er_destroyed] at a
        rw [a]
        exact (step_destroyed _ _ _ (.asyncGet k w .later) (by intro q; cases q)).trans hev.2
      | ret =>
        have a := congrArg St.destroyed (next_sim (cfg := cfg) (env := env) (n := endN cfg h) .ret).1
        exact a.trans (I.dead hev)
      | throw =>
        have a := congrArg St.destroyed (next_sim (cfg := cfg) (env := env) (n := endN cfg h) .throw).1
        exact a.trans (I.dead hev)

variable {h : NHist K V E}

theorem Inv.good (I : Inv cfg h) (hc : cfg.Ok) (env : Env V) : Good cfg ⟨False, False, env, True⟩ (fun _ => False) (stateAfter cfg (flat h)) (ledgerAfter cfg (flat h)) :=
  good_any hc _ I.ok env

theorem Inv.wf1 (I : Inv cfg h) (hc : cfg.Ok) : WF1 cfg (endN cfg h).s :=
  wf1_er.1 (I.sim ▸ wf1_er.2 (I.good hc ⟨⟨0, 0⟩, fun _ => true⟩).wf1)

theorem Inv.opens (I : Inv cfg h) : (endN cfg h).s.opens = (stateAfter cfg (flat h)).opens := by rw [← er_opens, I.sim, er_opens]
theorem Inv.nextId (I : Inv cfg h) : (endN cfg h).s.nextId = (stateAfter cfg (flat h)).nextId := by rw [← er_nextId, I.sim, er_nextId]
theorem Inv.destroyed (I : Inv cfg h) : (endN cfg h).s.destroyed = (stateAfter cfg (flat h)).destroyed := by rw [← er_destroyed, I.sim, er_destroyed]

/-- Lookups in flight are pending entries. -/
theorem Inv.openE (I : Inv cfg h) (hc : cfg.Ok) (hd : (endN cfg h).s.destroyed = false) {t : Nat} (ht : t ∈ (endN cfg h).s.opens) :
    ∃ e ∈ (endN cfg h).s.ents, e.id = t ∧ e.isPending = true := by
  obtain ⟨e, he, hi, hp⟩ := (I.good hc ⟨⟨0, 0⟩, fun _ => true⟩).wf2.opE (I.destroyed ▸ hd) t (I.opens ▸ ht)
  have : fg e ∈ (er (endN cfg h).s).ents := by rw [I.sim, er_ents]; exact List.mem_map.2 ⟨e, he, rfl⟩
  rw [er_ents] at this
  obtain ⟨x, hx, hxe⟩ := List.mem_map.1 this
  refine ⟨x, hx, ?_, ?_⟩
  · rw [← fg_id x, hxe]; exact hi
  · rw [← fg_pending x, hxe, fg_pending]; exact hp

theorem Inv.lim (I : Inv cfg h) (hd : (endN cfg h).s.destroyed = false) : LimNP (endN cfg h).s := by
  intro e he
  have : fg e ∈ (er (endN cfg h).s).limbo := List.mem_map.2 ⟨e, he, rfl⟩
  rw [I.sim] at this
  obtain ⟨x, hx, hxe⟩ := List.mem_map.1 this
  rw [← fg_pending e, ← hxe, fg_pending]
  exact lim_run _ (I.destroyed ▸ hd) x hx

theorem er_delay (q : List Nat) : er ({ s with delayQ := q } : St K V E) = { er s with delayQ := q } := rfl

theorem Inv.tick (I : Inv cfg h) (hc : cfg.Ok) (env : Env V) (hd : (endN cfg h).s.destroyed = false) {i : Nat} {q : List Nat} (hq : (endN cfg h).s.delayQ = i :: q) :
    WF1 cfg ({ (endN cfg h).s with delayQ := q } : St K V E) ∧ ∀ k b, WF1 cfg (resolveAsync cfg env ({ (endN cfg h).s with delayQ := q } : St K V E) k b).1 := by
  have hq' : (stateAfter cfg (flat h)).delayQ = i :: q := by rw [← er_delayQ, ← I.sim, er_delayQ, hq]
  have g := popped hc hq' (I.good hc env)
  have he : er ({ (endN cfg h).s with delayQ := q } : St K V E) = er ({ stateAfter cfg (flat h) with delayQ := q } : St K V E) := by
    show ({ er (endN cfg h).s with delayQ := q } : St K V E) = { er (stateAfter cfg (flat h)) with delayQ := q }
    rw [I.sim]
  refine ⟨wf1_er.1 (he ▸ wf1_er.2 g.wf1), fun k b => wf1_er.1 ?_⟩
  have h1 := congrArg Prod.fst (er_resolveAsync (cfg := cfg) (env := env) (s := ({ (endN cfg h).s with delayQ := q } : St K V E)) k b)
  have h2 := congrArg Prod.fst (er_resolveAsync (cfg := cfg) (env := env) (s := ({ stateAfter cfg (flat h) with delayQ := q } : St K V E)) k b)
  simp only at h1 h2
  rw [← h1, he, h2]
  exact wf1_er.2 (resolveAsync_spc (F := {}) env g.wf1 g.wf2 (I.destroyed ▸ hd) k b).2.1

theorem hit_find (hc : cfg.Ok) (w1 : WF1 cfg s) (k : K) : (getWalk cfg env k true (s.bucket (s.bucketFor (cfg.hash k)))).hit =
    (s.ents.find? (isHit cfg env k true)).map (fun e => (e.id, e.mapped.get env true)) := by
  rw [getWalk_hit hc, find_ents_bucket hc w1.placed]

/-- The entry that a lookup found, afterwards. -/
theorem hit_pend (hc : cfg.Ok) (w1 : WF1 cfg s) {k : K} {i : Nat}
    (hh : (getWalk cfg env k true (s.bucket (s.bucketFor (cfg.hash k)))).hit = some (i, .pend)) :
    ∃ e ∈ (get_ cfg env s k true).1.ents, e.id = i ∧ e.isPending = true := by
  rw [hit_find hc w1] at hh
  obtain ⟨e, hf, he⟩ := Option.map_eq_some_iff.1 hh
  simp only [Prod.mk.injEq] at he
  have hge := get__eq hc w1.placed env k true
  rw [hf] at hge
  rw [hge]
  have hm := hit_mem_walked (cfg := cfg) hf
  refine ⟨atId e.id (hitUpd cfg env) e, ?_, ?_, ?_⟩
  · rw [onHit_ents]; exact List.mem_map.2 ⟨e, hm, rfl⟩
  · rw [← he.1]; exact ((hitUpd_idKey cfg env).atId e.id e).1
  · have hx : e.expired env = false := (hit_facts hf).2.2.1
    have hpe := get_pend he.2
    have := (hitUpd_facts (F := { hit := fun _ => True }) (cfg := cfg) e hx (.inl trivial)).1.pend
    simp only [atId, if_true]
    rw [this]; exact hpe

theorem Wt_answer' (hn : ((s.ents ++ s.limbo).map (·.id)).Nodup) (w u i : Nat) (l : Look V E)
    (hp : l = .pend → ∃ e ∈ s.ents ++ s.limbo, e.id = i ∧ e.isPending = true) :
    Wt w (answer s i u l).1 + ((answer s i u l).2.fired.map (·.1)).count w + (answer s i u l).2.broken.count w = Wt w s + [u].count w := by
  cases l with
  | none => simp [answer]
  | val v => simp [answer]
  | err v => simp [answer]
  | pend =>
    obtain ⟨e, he, hi, hpe⟩ := hp rfl
    have := Wt_modify_at (w := w) (f := (·.upd (.addCb (.user u)))) hn he
    rw [users_addCb w u hpe, hi] at this
    simp only [answer, List.map_nil, List.count_nil]
    omega

theorem lookAt_pend {t : Nat} (h : lookAt env s t = .pend) : ∃ e ∈ s.ents ++ s.limbo, e.id = t ∧ e.isPending = true := by
  simp only [lookAt] at h
  split at h
  · rename_i e hf
    exact ⟨e, List.mem_of_find?_eq_some hf, by simpa using List.find?_some hf, get_pend h⟩
  · cases h

/-- The callbacks invoked and destroyed by a step. -/
def firedA : Ans K V E → List (Nat × Res V E)
  | .out o => o.fired
  | _ => []
def brokenA : Ans K V E → List Nat
  | .out o => o.broken
  | _ => []
def askedE : Ev K V E → List Nat
  | .get _ w => [w]
  | _ => []

theorem answeredN_snoc (as : List (Ans K V E)) (a : Ans K V E) : answeredN (as ++ [a]) = answeredN as ++ firedA a := by
  simp only [answeredN, List.flatMap_append, List.flatMap_cons, List.flatMap_nil, List.append_nil]
  cases a <;> rfl
theorem brokenN_snoc (as : List (Ans K V E)) (a : Ans K V E) : brokenN (as ++ [a]) = brokenN as ++ brokenA a := by
  simp only [brokenN, List.flatMap_append, List.flatMap_cons, List.flatMap_nil, List.append_nil]
  cases a <;> rfl
theorem askedN_snoc (h : NHist K V E) (env : Env V) (e : Ev K V E) : askedN (h ++ [(env, e)]) = askedN h ++ askedE e := by
  simp only [askedN, List.flatMap_append, List.flatMap_cons, List.flatMap_nil, List.append_nil]
  cases e <;> rfl

/-- The callers whose functors are running. -/
abbrev heldBy (n : NSt K V E) : List Nat := n.stack.map (·.2)

theorem Wt_next (hc : cfg.Ok) (I : Inv cfg h) (e : Ev K V E) (hev : e.ok cfg (endN cfg h)) (w : Nat) :
    Wt w (next cfg env (endN cfg h) e).1.s + (heldBy (next cfg env (endN cfg h) e).1).count w +
      ((firedA (next cfg env (endN cfg h) e).2).map (·.1)).count w + (brokenA (next cfg env (endN cfg h) e).2).count w =
      Wt w (endN cfg h).s + (heldBy (endN cfg h)).count w + (askedE e).count w := by
  have w1 := I.wf1 hc
  cases e with
  | op o =>
    have := Wt_op (env := env) hc w1 o w hev.2.1 (fun r b i q ho hq => I.tick hc env (by subst ho; exact hev.1.2.2) hq)
    simp only [next, firedA, brokenA, askedE, heldBy, List.count_nil] at this ⊢
    omega
  | get k u =>
    have h1 := Wt_get_ (env := env) hc w1 w k true
    have g1 := get__wf1 hc w1 env k true
    simp only [next]
    cases hh : (getWalk cfg env k true ((endN cfg h).s.bucket ((endN cfg h).s.bucketFor (cfg.hash k)))).hit with
    | some p =>
      obtain ⟨i, l⟩ := p
      have := Wt_answer (s := (get_ cfg env (endN cfg h).s k true).1) g1.ids w u i l (fun hl => hit_pend hc w1 (by rw [hh, hl]))
      simp only [firedA, brokenA, askedE, heldBy] at this ⊢
      omega
    | none =>
      have := Wt_resolveAsync (env := env) g1 w k .later
      simp only [firedA, brokenA, askedE, heldBy, List.map_cons, List.map_nil, List.count_nil, List.count_cons] at this ⊢
      omega
  | ret =>
    simp only [next]
    cases hst : (endN cfg h).stack with
    | nil => exact absurd hst hev
    | cons p st =>
      obtain ⟨t, u⟩ := p
      have := Wt_answer' w1.ids w u t (lookAt env (endN cfg h).s t) lookAt_pend
      simp only [firedA, brokenA, askedE, heldBy, hst, List.map_cons, List.map_nil, List.count_nil, List.count_cons] at this ⊢
      omega
  | throw =>
    simp only [next]
    cases hst : (endN cfg h).stack with
    | nil => exact absurd hst hev
    | cons p st =>
      obtain ⟨t, u⟩ := p
      simp only [firedA, brokenA, askedE, heldBy, hst, List.map_cons, List.map_nil, List.count_nil, List.count_cons]
      omega

/-- Every callback is waiting, held by a running call, or settled. -/
theorem acct (hc : cfg.Ok) (h : NHist K V E) (hok : NOk cfg {} h) (w : Nat) :
    Wt w (endN cfg h).s + (heldBy (endN cfg h)).count w + ((answeredN (runN cfg {} h).2).map (·.1)).count w + (brokenN (runN cfg {} h).2).count w =
      (askedN h).count w := by
  induction h using snoc_ind with
  | h0 => simp [runN, endN, answeredN, brokenN, askedN, heldBy, Wt, Wl, St.ents]
  | h1 h p ih =>
    obtain ⟨env, e⟩ := p
    rw [NOk_append] at hok
    have A := ih hok.1
    have B := Wt_next (env := env) hc (inv_end h hok.1) e hok.2.1 w
    rw [ansN_snoc, answeredN_snoc, brokenN_snoc, askedN_snoc, endN_snoc, List.map_append, List.count_append, List.count_append, List.count_append]
    have e1 : ansAt cfg h env e = (next cfg env (endN cfg h) e).2 := rfl
    rw [e1]
    omega

theorem users_cancel (e : Entry K V E) : users (e.upd Mapped.cancel).mapped.cbs = [] := by
  have : (e.upd Mapped.cancel).mapped.cbs = [] := cbs_cancel e.mapped
  rw [this]; rfl

/-- Nobody waits in a destroyed cache. -/
theorem gone (hc : cfg.Ok) (h : NHist K V E) (hok : NOk cfg {} h) (hd : (endN cfg h).s.destroyed = true) (w : Nat) : Wt w (endN cfg h).s = 0 := by
  induction h using snoc_ind with
  | h0 => simp [endN, runN] at hd
  | h1 h p ih =>
    obtain ⟨env, e⟩ := p
    rw [NOk_append] at hok
    have I := inv_end h hok.1
    have hev : e.ok cfg (endN cfg h) := hok.2.1
    have B := Wt_next (env := env) hc I e hev w
    rw [endN_snoc] at hd ⊢
    cases hd0 : (endN cfg h).s.destroyed with
    | true =>
      have h0 := ih hok.1 hd0
      have hst : (endN cfg h).stack = [] := Classical.byContradiction fun hn => by rw [I.dead hn] at hd0; cases hd0
      have ha : askedE e = [] := by
        cases e with
        | get k w => rw [hev.2] at hd0; cases hd0
        | _ => rfl
      rw [h0, ha] at B
      simp only [heldBy, hst, List.map_nil, List.count_nil] at B
      omega
    | false =>
      cases e with
      | op o =>
        by_cases ho : o = .destroy
        · subst ho
          simp only [next, step, destroy]
          unfold Wt
          have h1 : Wl w (dispose cfg ({ (endN cfg h).s with tbl := (endN cfg h).s.tbl.map (fun _ => []) } : St K V E) (endN cfg h).s.ents).ents = 0 := by
            rw [dispose_ents]
            have : ({ (endN cfg h).s with tbl := (endN cfg h).s.tbl.map (fun _ => []) } : St K V E).ents = [] := by simp [St.ents]
            rw [this]; rfl
          have h2 := Wl_dispose (cfg := cfg) w ({ (endN cfg h).s with tbl := (endN cfg h).s.tbl.map (fun _ => []) } : St K V E) (endN cfg h).s.ents
          have h3 : Wl w (endN cfg h).s.limbo = 0 := by
            refine Wl_zero (fun e he => ?_)
            have := I.lim hd0 e he
            unfold Entry.isPending at this
            cases hm : e.mapped with
            | pending p => rw [hm] at this; cases this
            | _ => rfl
          have h1' : Wl w ({ dispose cfg ({ (endN cfg h).s with tbl := (endN cfg h).s.tbl.map (fun _ => []) } : St K V E) (endN cfg h).s.ents with destroyed := true } : St K V E).ents = 0 := h1
          simp only [h1', h2, h3]
        · exfalso
          have : (next cfg env (endN cfg h) (.op o)).1.s.destroyed = (endN cfg h).s.destroyed := step_destroyed _ _ _ o ho
          rw [this, hd0] at hd; cases hd
      | get k u =>
        exfalso
        have a := congrArg St.destroyed (next_sim (cfg := cfg) (env := env) (n := endN cfg h) (.get k u)).1
        have : (next cfg env (endN cfg h) (.get k u)).1.s.destroyed = (endN cfg h).s.destroyed :=
          a.trans (step_destroyed _ _ _ (.asyncGet k u .later) (by intro q; cases q))
        rw [this, hd0] at hd; cases hd
      | ret =>
        exfalso
        have a := congrArg St.destroyed (next_sim (cfg := cfg) (env := env) (n := endN cfg h) .ret).1
        have : (next cfg env (endN cfg h) .ret).1.s.destroyed = (endN cfg h).s.destroyed := a
        rw [this, hd0] at hd; cases hd
      | throw =>
        exfalso
        have a := congrArg St.destroyed (next_sim (cfg := cfg) (env := env) (n := endN cfg h) .throw).1
        have : (next cfg env (endN cfg h) .throw).1.s.destroyed = (endN cfg h).s.destroyed := a
        rw [this, hd0] at hd; cases hd

end Hoard.NestedAsync
