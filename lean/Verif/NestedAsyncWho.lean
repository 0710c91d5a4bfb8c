import Verif.NestedAsyncCount
import Verif.HandlersFull
/-! Asynchronous resolvers that use the cache: who is answered, and with what. -/
namespace Hoard.NestedAsync
open Spec
open Handlers (AllE cbsOf withOpens complete_pos complete_neg complete_dead drop_pos drop_neg)
variable {K V E : Type} {cfg : Cfg K} {env : Env V} {s s' : St K V E} {n : NSt K V E} {h : NHist K V E}

-- properties of the waiters of entries

theorem users_addR (e : Entry K V E) (i : Nat) : users (e.upd (.addCb (.refresh i))).mapped.cbs = users e.mapped.cbs := by
  obtain ⟨_, _, m, _, _, _, _⟩ := e
  cases m with
  | pending p => simp [Entry.upd, Mapped.addCb, Mapped.cbs, users, List.filterMap_append]
  | _ => rfl

/-- A property of the waiters of entries. -/
theorem cl_users (R : Nat → List Nat → Prop) : Cl cfg env (fun e : Entry K V E => R e.id (users e.mapped.cbs)) where
  time := by intro e e' h1 h2 h; rw [h1, h2]; exact h
  mark := by intro e h; show R e.id (users e.mapped.markExpired.cbs); rw [cbs_markExpired]; exact h
  str := by intro e h; show R e.id (users (e.mapped.strengthen env).cbs); rw [cbs_strengthen]; exact h
  weak := by intro e h; show R e.id (users (e.mapped.weaken cfg.ptr).cbs); rw [cbs_weaken]; exact h
  addR := by intro e i h; rw [users_addR]; exact h

theorem cbs_upd_cancel (e : Entry K V E) : (e.upd Mapped.cancel).mapped.cbs = [] := cbs_cancel e.mapped
theorem cbs_upd_completed (r : Res V E) (e : Entry K V E) : (e.upd (completed cfg r)).mapped.cbs = [] := cbs_completed r e.mapped

-- what happens to one entry

theorem findAny_id {t : Nat} {e : Entry K V E} (h : s.findAny t = some e) : e.id = t := by simpa using List.find?_some h
theorem findAny_in {t : Nat} {e : Entry K V E} (h : s.findAny t = some e) : e ∈ s.ents ++ s.limbo := List.mem_of_find?_eq_some h

theorem cbsOf_of (w : WF1 cfg s) {e : Entry K V E} (he : e ∈ s.ents ++ s.limbo) : cbsOf s e.id = e.mapped.cbs := by
  simp only [cbsOf, findAny_of w he, Option.map_some, Option.getD_some]

theorem users_of_all {t : Nat} {U : List Nat} (h : AllE (fun e : Entry K V E => e.id = t → users e.mapped.cbs = U) s)
    (hE : ∃ e ∈ s.ents ++ s.limbo, e.id = t) : users (cbsOf s t) = U := by
  obtain ⟨e, he, hi⟩ := hE
  cases hf : s.findAny t with
  | none => exact absurd (List.find?_eq_none.1 hf e he) (by simp [hi])
  | some x => simp only [cbsOf, hf, Option.map_some, Option.getD_some]; exact h x (findAny_in hf) (findAny_id hf)

theorem all_of_users (w : WF1 cfg s) (t : Nat) : AllE (fun e : Entry K V E => e.id = t → users e.mapped.cbs = users (cbsOf s t)) s := by
  intro e he hi
  rw [← hi, cbsOf_of w he]

theorem clU (t : Nat) (U : List Nat) : Cl cfg env (fun e : Entry K V E => e.id = t → users e.mapped.cbs = U) := cl_users (fun i u => i = t → u = U)

theorem newU {t m : Nat} (ht : t < m) (U : List Nat) : New cfg m (fun e : Entry K V E => e.id = t → users e.mapped.cbs = U) where
  new := by intro e h1 _ h2; omega
  can := by intro e h1 _ h2; have : e.id = t := h2; omega
  com := by intro e r h1 _ h2; have : e.id = t := h2; omega

theorem newU0 (t m : Nat) : New cfg m (fun e : Entry K V E => e.id = t → users e.mapped.cbs = []) where
  new := by intro e _ h2 _; rw [h2]; rfl
  can := by intro e _ _ _; rw [cbs_upd_cancel]; rfl
  com := by intro e r _ _ _; rw [cbs_upd_completed]; rfl

/-- The waiters of a lookup are left alone. -/
theorem U_step (hc : cfg.Ok) (w : WF1 cfg s) {t : Nat} (ht : t < s.nextId) {o : Op K V E} (h1 : ∀ r, o ≠ .complete t r) (h2 : o ≠ .drop t)
    (h3 : o ≠ .destroy) (h4 : ∀ k w b, o ≠ .asyncGet k w b) (hE : ∃ e ∈ (step cfg env s o).1.ents ++ (step cfg env s o).1.limbo, e.id = t) :
    users (cbsOf (step cfg env s o).1 t) = users (cbsOf s t) := by
  refine users_of_all (keep_step hc (clU t _) w (all_of_users w t) (newU ht _) ?_ ?_ h3 h4) hE
  · intro t' r ho e he _
    have hne : t' ≠ t := fun q => h1 r (q ▸ ho)
    exact ⟨fun hi => absurd (he.symm.trans hi) hne, fun hi => absurd (he.symm.trans hi) hne⟩
  · intro t' ho e he _ hi
    have hne : t' ≠ t := fun q => h2 (q ▸ ho)
    exact absurd (he.symm.trans hi) hne

/-- A lookup just started by the worker has no waiters. -/
theorem U_new (hc : cfg.Ok) (w : WF1 cfg s) {o : Op K V E} (h3 : o ≠ .destroy) (h4 : ∀ k w b, o ≠ .asyncGet k w b)
    (hE : ∃ e ∈ (step cfg env s o).1.ents ++ (step cfg env s o).1.limbo, e.id = s.nextId) : users (cbsOf (step cfg env s o).1 s.nextId) = [] := by
  refine users_of_all (keep_step hc (clU s.nextId []) w ?_ (newU0 _ _) ?_ ?_ h3 h4) hE
  · intro e he hi; have := w.lt e he; omega
  · intro t r _ e _ _; exact ⟨fun _ => by rw [cbs_upd_cancel]; rfl, fun _ => by rw [cbs_upd_completed]; rfl⟩
  · intro t _ e _ _ _; rw [cbs_upd_cancel]; rfl

theorem findAny_modify (i t : Nat) {f : Entry K V E → Entry K V E} (hf : ∀ e, (f e).id = e.id) :
    (s.modify i f).findAny t = (s.findAny t).map (atId i f) := by
  unfold St.findAny
  rw [ents_modify, limbo_modify, ← List.map_append, List.find?_map]
  have hp : (fun e : Entry K V E => e.id == t) ∘ atId i f = fun e => e.id == t := by
    funext e; simp only [Function.comp, atId]; split
    · rw [hf e]
    · rfl
  rw [hp]

/-- Registering a waiter. -/
theorem U_answer {i w : Nat} (hp : ∃ e, s.findAny i = some e ∧ e.isPending = true) (t : Nat) :
    users (cbsOf (answer s i w .pend).1 t) = users (cbsOf s t) ++ if t = i then [w] else [] := by
  obtain ⟨e, hf, hpe⟩ := hp
  have h1 : (answer s i w .pend).1 = s.modify i (·.upd (.addCb (.user w))) := rfl
  rw [h1]
  simp only [cbsOf]
  rw [findAny_modify (f := (·.upd (.addCb (.user w)))) i t (fun _ => rfl)]
  cases ht : s.findAny t with
  | none =>
    have hne : t ≠ i := by intro q; rw [q, hf] at ht; cases ht
    simp only [hne, if_false, Option.map_none, Option.getD_none, List.append_nil]
  | some x =>
    have hx := findAny_id ht
    simp only [Option.map_some, Option.getD_some, atId]
    by_cases hi : t = i
    · have hxe : x = e := by rw [hi, hf] at ht; exact (Option.some.inj ht).symm
      subst hxe
      have hi' : x.id = i := hx.trans hi
      rw [if_pos hi', if_pos hi]
      obtain ⟨a, b, m, c, d, g, j⟩ := x
      cases m with
      | pending p => simp [Entry.upd, Mapped.addCb, Mapped.cbs, users, List.filterMap_append]
      | _ => cases hpe
    · rw [if_neg (by rw [hx]; exact hi), if_neg hi, List.append_nil]

theorem U_answer_other {i w t : Nat} {l : Look V E} (hl : l ≠ .pend ∨ t ≠ i) : users (cbsOf (answer s i w l).1 t) = users (cbsOf s t) := by
  cases l with
  | pend =>
    rcases hl with hl | hl
    · exact absurd rfl hl
    · have h1 : (answer s i w .pend).1 = s.modify i (·.upd (.addCb (.user w))) := rfl
      rw [h1]
      simp only [cbsOf]
      rw [findAny_modify (f := (·.upd (.addCb (.user w)))) i t (fun _ => rfl)]
      cases ht : s.findAny t with
      | none => rfl
      | some x =>
        have hx := findAny_id ht
        simp only [Option.map_some, Option.getD_some, atId]
        rw [if_neg (by rw [hx]; exact hl)]
  | _ => rfl

theorem has_get_ (hc : cfg.Ok) (w : WF1 cfg s) (k : K) {t : Nat} (hE : ∃ e ∈ s.ents ++ s.limbo, e.id = t) :
    ∃ e ∈ (get_ cfg env s k true).1.ents ++ (get_ cfg env s k true).1.limbo, e.id = t := by
  obtain ⟨e, he, h1⟩ := hE
  obtain ⟨e', he', h2⟩ := (get__shr (env := env) hc w k true).any e he
  exact ⟨e', he', h2.id.trans h1⟩

theorem has_resolve (w : WF1 cfg s) (k : K) {t : Nat} (hE : ∃ e ∈ s.ents ++ s.limbo, e.id = t) :
    ∃ e ∈ (resolveAsync cfg env s k .later).1.ents ++ (resolveAsync cfg env s k .later).1.limbo, e.id = t := by
  obtain ⟨_, r, hin, _, hn, _, _⟩ := link_spc (F := ({} : Eff K V)) env w (e := newEntry s k (.pending {} : Mapped V E)) rfl
  obtain ⟨a, ha, h1⟩ := hE
  have hlt := w.lt a ha
  obtain ⟨a', ha', h2⟩ := r.any a ha (by show a.id ≠ s.nextId; omega)
  exact ⟨a', ha', h2.id.trans h1⟩

theorem U_get_ (hc : cfg.Ok) (w : WF1 cfg s) (k : K) {t : Nat} (hE : ∃ e ∈ s.ents ++ s.limbo, e.id = t) :
    users (cbsOf (get_ cfg env s k true).1 t) = users (cbsOf s t) :=
  users_of_all (keep_get_ (cfg := cfg) (clU (cfg := cfg) t _).w (all_of_users w t) k true) (has_get_ hc w k hE)

theorem U_resolve (w : WF1 cfg s) (k : K) {t : Nat} (hE : ∃ e ∈ s.ents ++ s.limbo, e.id = t) :
    users (cbsOf (resolveAsync cfg env s k .later).1 t) = users (cbsOf s t) := by
  have ht : t < s.nextId := by obtain ⟨e, he, hi⟩ := hE; rw [← hi]; exact w.lt e he
  exact users_of_all (keep_resolveAsync (cfg := cfg) (clU (cfg := cfg) t _).w (all_of_users w t) (newU ht _) k .later) (has_resolve w k hE)

/-- The entry of a lookup just started. -/
theorem new_pending (w : WF1 cfg s) (k : K) : ∃ e ∈ (resolveAsync cfg env s k .later).1.ents,
    e = newEntry s k (.pending {}) ∧ WF1 cfg (resolveAsync cfg env s k .later).1 := by
  obtain ⟨w2, _, _, _, kept, o, _, hp, _⟩ := link_spec env w (e := newEntry s k (.pending {} : Mapped V E)) rfl
  refine ⟨newEntry s k (.pending {}), ?_, rfl, w2.congr rfl rfl rfl rfl rfl⟩
  have hlu : linkUpd cfg env (newEntry s k (.pending {} : Mapped V E)) = newEntry s k (.pending {}) := rfl
  show _ ∈ (link cfg env s (newEntry s k (.pending {}))).ents
  rw [hp.mem_iff, hlu]; simp

theorem hit_er (k : K) : (getWalk cfg env k true ((er s).bucket ((er s).bucketFor (cfg.hash k)))).hit =
    (getWalk cfg env k true (s.bucket (s.bucketFor (cfg.hash k)))).hit := by
  rw [er_bucketFor, er_bucket, getWalk_fg]; rfl

theorem hit_same (h : er s = er s') (k : K) : (getWalk cfg env k true (s.bucket (s.bucketFor (cfg.hash k)))).hit =
    (getWalk cfg env k true (s'.bucket (s'.bucketFor (cfg.hash k)))).hit := by
  rw [← hit_er (s := s), h, hit_er]

/-- What a plain `async_get` does when the functor keeps the lookup for later. -/
theorem flat_get (hc : cfg.Ok) (w1 : WF1 cfg s) (k : K) (u : Nat) :
    step cfg env s (.asyncGet k u .later) = (match (getWalk cfg env k true (s.bucket (s.bucketFor (cfg.hash k)))).hit with
      | some (i, l) => answer (get_ cfg env s k true).1 i u l
      | none => ((answer (resolveAsync cfg env (get_ cfg env s k true).1 k .later).1 s.nextId u .pend).1, { calls := [(k, s.nextId)] })) := by
  simp only [step, asyncGet]
  cases (getWalk cfg env k true (s.bucket (s.bucketFor (cfg.hash k)))).hit with
  | some p => rfl
  | none =>
    have hn : (get_ cfg env s k true).1.nextId = s.nextId := (get__shr (env := env) hc w1 k true).same.nextId
    have g1 := get__wf1 hc w1 env k true
    obtain ⟨e, he, hee, w2⟩ := new_pending (env := env) g1 k
    have ht : (resolveAsync cfg env (get_ cfg env s k true).1 k .later).2 = s.nextId := hn
    have hfa : (resolveAsync cfg env (get_ cfg env s k true).1 k .later).1.find s.nextId = some e := by
      have hi : e.id = s.nextId := by rw [hee]; exact hn
      have h1 := findAny_mem w2 he
      rw [hi] at h1
      unfold St.findAny at h1
      rw [List.find?_append] at h1
      unfold St.find
      cases hf : (resolveAsync cfg env (get_ cfg env s k true).1 k .later).1.ents.find? (fun e => e.id == s.nextId) with
      | none => exact absurd (List.find?_eq_none.1 hf e he) (by simp [hi])
      | some x => rw [hf] at h1; exact h1
    simp only [ht, hfa]
    rw [hee]
    rfl

/-- The lookup that a second `async_get` for a key finds is the one in flight for that key. -/
theorem hit_valid {M : Md V} {L : Ledger K V} {X} (hc : cfg.Ok) (g : Good cfg M X s L) {k : K} {i : Nat}
    (hh : (getWalk cfg env k true (s.bucket (s.bucketFor (cfg.hash k)))).hit = some (i, .pend)) : L.valid k = some i := by
  rw [hit_find hc g.wf1] at hh
  obtain ⟨e, hf, he⟩ := Option.map_eq_some_iff.1 hh
  simp only [Prod.mk.injEq] at he
  obtain ⟨hm, hk, hx, ⟨v, h1, h2⟩ | ⟨h1, h2, h3⟩⟩ := hit_facts hf
  · rw [he.2] at h2; cases h2
  · rw [← he.1]; exact (g.p k).c2 e hm hk h2

/-- No functor threw. -/
def NoThrow (h : NHist K V E) : Prop := ∀ p ∈ h, ¬ (∃ env, p = (env, Ev.throw))

/-- The callers of running functors that wait for the lookup `t`. -/
def heldFor (n : NSt K V E) (t : Nat) : List Nat := (n.stack.filter (·.1 == t)).map (·.2)

theorem heldFor_new {n : NSt K V E} (hlt : ∀ p ∈ n.stack, p.1 < n.s.nextId) {t : Nat} (ht : n.s.nextId ≤ t) : heldFor n t = [] := by
  have : n.stack.filter (·.1 == t) = [] := by
    rw [List.filter_eq_nil_iff]
    intro p hp
    have := hlt p hp
    simp; omega
  simp [heldFor, this]

theorem perm_tail {a b : List Nat} (l : List Nat) : (a ++ l ++ b).Perm (a ++ b ++ l) := by
  rw [List.append_assoc, List.append_assoc]
  exact List.Perm.append_left a List.perm_append_comm

/-- The waiters of a lookup in flight are those of the plain history. -/
theorem same_waiters (hc : cfg.Ok) (h : NHist K V E) (hok : NOk cfg {} h) (hnt : NoThrow h) (hd : (endN cfg h).s.destroyed = false)
    {t : Nat} (ht : t ∈ (endN cfg h).s.opens) :
    (users (cbsOf (endN cfg h).s t) ++ heldFor (endN cfg h) t).Perm (users (cbsOf (stateAfter cfg (flat h)) t)) := by
  induction h using snoc_ind with
  | h0 => cases ht
  | h1 h p ih =>
    obtain ⟨env, e⟩ := p
    have I' := inv_end _ hok
    have hok0 := hok
    rw [NOk_append] at hok
    have I := inv_end h hok.1
    have hev : e.ok cfg (endN cfg h) := hok.2.1
    have ih := ih hok.1 (fun p hp => hnt p (List.mem_append_left _ hp))
    have w1 := I.wf1 hc
    have g := I.good hc env
    -- existence of the entry in both states, before
    have hasN : ∀ {t}, t ∈ (endN cfg h).s.opens → (endN cfg h).s.destroyed = false → ∃ e ∈ (endN cfg h).s.ents ++ (endN cfg h).s.limbo, e.id = t := by
      intro t ht hd
      obtain ⟨e, he, hi, _⟩ := I.openE hc hd ht
      exact ⟨e, List.mem_append_left _ he, hi⟩
    have hasF : ∀ {t}, t ∈ (endN cfg h).s.opens → (endN cfg h).s.destroyed = false →
        ∃ e ∈ (stateAfter cfg (flat h)).ents ++ (stateAfter cfg (flat h)).limbo, e.id = t := by
      intro t ht hd
      obtain ⟨e, he, hi, _⟩ := g.wf2.opE (I.destroyed ▸ hd) t (I.opens ▸ ht)
      exact ⟨e, List.mem_append_left _ he, hi⟩
    have hasN' : ∃ x ∈ (endN cfg (h ++ [(env, e)])).s.ents ++ (endN cfg (h ++ [(env, e)])).s.limbo, x.id = t := by
      obtain ⟨e, he, hi, _⟩ := I'.openE hc hd ht
      exact ⟨e, List.mem_append_left _ he, hi⟩
    have hasF' : ∃ x ∈ (stateAfter cfg (flat (h ++ [(env, e)]))).ents ++ (stateAfter cfg (flat (h ++ [(env, e)]))).limbo, x.id = t := by
      obtain ⟨x, he, hi, _⟩ := (I'.good hc env).wf2.opE (I'.destroyed ▸ hd) t (I'.opens ▸ ht)
      exact ⟨x, List.mem_append_left _ he, hi⟩
    rw [flat_snoc] at hasF' ⊢
    rw [endN_snoc] at hd ht hasN' ⊢
    cases e with
    | throw => exact absurd ⟨env, rfl⟩ (hnt (env, .throw) (List.mem_append_right _ (List.mem_singleton.2 rfl)))
    | op o =>
      have hfl : flatOf (env, (.op o : Ev K V E)) = [(env, o)] := rfl
      rw [hfl, stateAfter_snoc] at hasF' ⊢
      simp only [next] at hd ht hasN' ⊢
      have hne : o ≠ .destroy := by intro q; subst q; simp [step, destroy] at hd
      rw [step_destroyed _ _ _ o hne] at hd
      have hheld : heldFor ({ s := (step cfg env (endN cfg h).s o).1, stack := (endN cfg h).stack } : NSt K V E) t = heldFor (endN cfg h) t := rfl
      rw [hheld]
      rcases (step_tokens cfg env (endN cfg h).s o).2.1 t ht with hto | ⟨hto, _⟩
      · have hlt : t < (endN cfg h).s.nextId := by
          obtain ⟨e, he, hi⟩ := hasN hto hd; rw [← hi]; exact w1.lt e he
        have hN : (endN cfg h).s.opens.Nodup := I.opens ▸ g.wf2.opN
        have h1 : ∀ r, o ≠ .complete t r := by
          intro r q; subst q; simp only [step, complete_opens] at ht; exact (hN.mem_erase_iff.1 ht).1 rfl
        have h2 : o ≠ .drop t := by
          intro q; subst q; simp only [step, drop_opens] at ht; exact (hN.mem_erase_iff.1 ht).1 rfl
        rw [U_step hc w1 hlt h1 h2 hne hev.2.1 hasN', U_step hc g.wf1 (I.nextId ▸ hlt) h1 h2 hne hev.2.1 hasF']
        exact ih hd hto
      · rw [hto] at hasN' ⊢
        rw [U_new hc w1 hne hev.2.1 hasN', heldFor_new I.lt (Nat.le_refl _)]
        rw [hto, I.nextId] at hasF'
        rw [I.nextId, U_new hc g.wf1 hne hev.2.1 hasF']
        exact .refl _
    | ret =>
      have hfl : flatOf (env, (.ret : Ev K V E)) = [] := rfl
      rw [hfl, List.append_nil]
      simp only [next] at hd ht ⊢
      cases hst : (endN cfg h).stack with
      | nil => exact absurd hst hev
      | cons p st =>
        obtain ⟨tok, u⟩ := p
        simp only [hst] at hd ht ⊢
        rw [answer_des] at hd
        rw [answer_opens] at ht
        have ih := ih hd ht
        by_cases hte : t = tok
        · obtain ⟨e, he, hi, hp⟩ := I.openE hc hd ht
          have hfa : (endN cfg h).s.findAny tok = some e := by rw [← hte, ← hi]; exact findAny_mem w1 he
          have hl : lookAt env (endN cfg h).s tok = .pend := by
            simp only [lookAt, hfa]
            unfold Entry.isPending at hp
            cases hm : e.mapped with
            | pending p => rfl
            | _ => rw [hm] at hp; cases hp
          rw [hl, U_answer ⟨e, hfa, hp⟩, if_pos hte]
          have h1 : heldFor (endN cfg h) t = u :: heldFor ({ s := (endN cfg h).s, stack := st } : NSt K V E) t := by
            simp [heldFor, hst, hte]
          rw [h1] at ih
          refine List.Perm.trans ?_ ih
          have h2 : heldFor ({ s := (answer (endN cfg h).s tok u .pend).1, stack := st } : NSt K V E) t = heldFor ({ s := (endN cfg h).s, stack := st } : NSt K V E) t := rfl
          rw [h2, List.append_assoc]
          exact .refl _
        · rw [U_answer_other (.inr hte)]
          have h1 : heldFor (endN cfg h) t = heldFor ({ s := (answer (endN cfg h).s tok u (lookAt env (endN cfg h).s tok)).1, stack := st } : NSt K V E) t := by
            simp [heldFor, hst, Ne.symm hte]
          rw [h1] at ih
          exact ih
    | get k u =>
      have hfl : flatOf (env, (.get k u : Ev K V E)) = [(env, .asyncGet k u .later)] := rfl
      rw [hfl, stateAfter_snoc, flat_get hc g.wf1, ← hit_same I.sim k]
      simp only [next] at hd ht ⊢
      have g1 := get__wf1 hc w1 env k true
      have g2 := get__wf1 hc g.wf1 env k true
      have hd0 : (endN cfg h).s.destroyed = false := hev.2
      cases hh : (getWalk cfg env k true ((endN cfg h).s.bucket ((endN cfg h).s.bucketFor (cfg.hash k)))).hit with
      | some p =>
        obtain ⟨i, l⟩ := p
        simp only [hh] at hd ht ⊢
        rw [answer_opens, get__opens] at ht
        have ih := ih hd0 ht
        have hheld : heldFor ({ s := (answer (get_ cfg env (endN cfg h).s k true).1 i u l).1, stack := (endN cfg h).stack } : NSt K V E) t = heldFor (endN cfg h) t := rfl
        rw [hheld]
        have e1 := U_get_ (env := env) hc w1 k (hasN ht hd0)
        have e2 := U_get_ (env := env) hc g.wf1 k (hasF ht hd0)
        cases l with
        | pend =>
          have hhF : (getWalk cfg env k true ((stateAfter cfg (flat h)).bucket ((stateAfter cfg (flat h)).bucketFor (cfg.hash k)))).hit = some (i, .pend) := by
            rw [← hit_same I.sim k]; exact hh
          obtain ⟨a, ha, hai, hap⟩ := hit_pend hc w1 hh
          obtain ⟨b, hb, hbi, hbp⟩ := hit_pend hc g.wf1 hhF
          rw [U_answer ⟨a, by rw [← hai]; exact findAny_mem g1 ha, hap⟩, U_answer ⟨b, by rw [← hbi]; exact findAny_mem g2 hb, hbp⟩, e1, e2]
          refine (perm_tail _).trans ?_
          exact List.Perm.append_right _ ih
        | val v => rw [U_answer_other (.inl (by intro q; cases q)), U_answer_other (.inl (by intro q; cases q)), e1, e2]; exact ih
        | err v => rw [U_answer_other (.inl (by intro q; cases q)), U_answer_other (.inl (by intro q; cases q)), e1, e2]; exact ih
        | none => rw [U_answer_other (.inl (by intro q; cases q)), U_answer_other (.inl (by intro q; cases q)), e1, e2]; exact ih
      | none =>
        simp only [hh] at hd ht ⊢
        have hn1 : (get_ cfg env (endN cfg h).s k true).1.nextId = (endN cfg h).s.nextId := (get__shr (env := env) hc w1 k true).same.nextId
        have hn2 : (get_ cfg env (stateAfter cfg (flat h)) k true).1.nextId = (stateAfter cfg (flat h)).nextId := (get__shr (env := env) hc g.wf1 k true).same.nextId
        have htok : (resolveAsync cfg env (get_ cfg env (endN cfg h).s k true).1 k .later).2 = (endN cfg h).s.nextId := hn1
        have htop : t ∈ (endN cfg h).s.opens ∨ t = (endN cfg h).s.nextId := by
          have : (resolveAsync cfg env (get_ cfg env (endN cfg h).s k true).1 k .later).1.opens = (endN cfg h).s.opens ++ [(endN cfg h).s.nextId] := by
            simp [resolveAsync]
          rw [this] at ht
          simpa using ht
        obtain ⟨a, ha, hae, wa⟩ := new_pending (env := env) g1 k
        obtain ⟨b, hb, hbe, wb⟩ := new_pending (env := env) g2 k
        have hai : a.id = (endN cfg h).s.nextId := by rw [hae]; exact hn1
        have hbi : b.id = (stateAfter cfg (flat h)).nextId := by rw [hbe]; exact hn2
        have hfb : (resolveAsync cfg env (get_ cfg env (stateAfter cfg (flat h)) k true).1 k .later).1.findAny (stateAfter cfg (flat h)).nextId = some b := by
          rw [← hbi]; exact findAny_mem wb hb
        have hfa : (resolveAsync cfg env (get_ cfg env (endN cfg h).s k true).1 k .later).1.findAny (endN cfg h).s.nextId = some a := by
          rw [← hai]; exact findAny_mem wa ha
        rw [U_answer ⟨b, hfb, by rw [hbe]; rfl⟩]
        rcases htop with hto | hto
        · have hlt : t < (endN cfg h).s.nextId := by
            obtain ⟨e, he, hi⟩ := hasN hto hd0; rw [← hi]; exact w1.lt e he
          rw [if_neg (by rw [← I.nextId]; omega), List.append_nil]
          rw [U_resolve g1 k (has_get_ hc w1 k (hasN hto hd0)), U_resolve g2 k (has_get_ hc g.wf1 k (hasF hto hd0)),
            U_get_ hc w1 k (hasN hto hd0), U_get_ hc g.wf1 k (hasF hto hd0)]
          have h1 : heldFor (⟨(resolveAsync cfg env (get_ cfg env (endN cfg h).s k true).1 k .later).1,
              ((resolveAsync cfg env (get_ cfg env (endN cfg h).s k true).1 k .later).2, u) :: (endN cfg h).stack⟩ : NSt K V E) t = heldFor (endN cfg h) t := by
            rw [htok]
            have : (endN cfg h).s.nextId ≠ t := by omega
            simp [heldFor, this]
          rw [h1]
          exact ih hd0 hto
        · have h1 : heldFor (⟨(resolveAsync cfg env (get_ cfg env (endN cfg h).s k true).1 k .later).1,
              ((resolveAsync cfg env (get_ cfg env (endN cfg h).s k true).1 k .later).2, u) :: (endN cfg h).stack⟩ : NSt K V E) t = u :: heldFor (endN cfg h) t := by
            rw [htok, hto]
            simp [heldFor]
          rw [h1, hto, heldFor_new I.lt (Nat.le_refl _), if_pos I.nextId]
          have e1 : users (cbsOf (resolveAsync cfg env (get_ cfg env (endN cfg h).s k true).1 k .later).1 (endN cfg h).s.nextId) = [] := by
            simp only [cbsOf, hfa, hae]; rfl
          have e2 : users (cbsOf (resolveAsync cfg env (get_ cfg env (stateAfter cfg (flat h)) k true).1 k .later).1 (endN cfg h).s.nextId) = [] := by
            rw [I.nextId]; simp only [cbsOf, hfb, hbe]; rfl
          rw [e1, e2]

-- where results come from

/-- The result that the entry holds is allowed by `R`. -/
def HoldsR (R : Res V E → Prop) : Mapped V E → Prop
  | .value v => R (.ok v)
  | .weak v => R (.ok v)
  | .error x => R (.err x)
  | _ => True

theorem HoldsR.mono {R R' : Res V E → Prop} (hR : ∀ r, R r → R' r) {m : Mapped V E} (h : HoldsR R m) : HoldsR R' m := by
  cases m with
  | value v => exact hR _ h
  | weak v => exact hR _ h
  | error v => exact hR _ h
  | _ => trivial

theorem HoldsR.completed {R : Res V E → Prop} {m : Mapped V E} (h : HoldsR R m) {r : Res V E} (hr : R r) : HoldsR R (completed cfg r m) := by
  cases m with
  | pending p =>
    cases r with
    | ok v =>
      simp only [Hoard.completed, Mapped.assigned]
      split
      · trivial
      · split
        · split
          · exact hr
          · trivial
        · exact hr
    | err x =>
      simp only [Hoard.completed, Mapped.assignedError]
      split
      · trivial
      · exact hr
  | _ => exact h

theorem HoldsR.cancel {R : Res V E → Prop} {m : Mapped V E} (h : HoldsR R m) : HoldsR R m.cancel := by
  cases m <;> exact h

theorem clR (t : Nat) (R : Res V E → Prop) : Cl cfg env (fun e : Entry K V E => e.id = t → HoldsR R e.mapped) where
  time := by intro e e' h1 h2 h; rw [h1, h2]; exact h
  mark := by intro e h hi; show HoldsR R e.mapped.markExpired; cases e.mapped <;> trivial
  str := by
    intro e h hi
    have := h hi
    show HoldsR R (e.mapped.strengthen env)
    cases hm : e.mapped with
    | pending p => simp only [Mapped.strengthen]; split <;> trivial
    | weak v => rw [hm] at this; simp only [Mapped.strengthen]; split <;> exact this
    | _ => rw [hm] at this; exact this
  weak := by
    intro e h hi
    have := h hi
    show HoldsR R (e.mapped.weaken cfg.ptr)
    cases hm : e.mapped with
    | value v => rw [hm] at this; simp only [Mapped.weaken]; split; exact this; trivial
    | weak v => rw [hm] at this; exact this
    | _ => trivial
  addR := by
    intro e i h hi
    have := h hi
    show HoldsR R (e.mapped.addCb (.refresh i))
    cases hm : e.mapped with
    | pending p => trivial
    | _ => rw [hm] at this; exact this

theorem newR {t m : Nat} (ht : t < m) (R : Res V E → Prop) : New cfg m (fun e : Entry K V E => e.id = t → HoldsR R e.mapped) where
  new := by intro e h1 _ h2; omega
  can := by intro e h1 _ h2; have : e.id = t := h2; omega
  com := by intro e r h1 _ h2; have : e.id = t := h2; omega

theorem holds_addCb {R : Res V E → Prop} {m : Mapped V E} (h : HoldsR R m) (cb : Cb) : HoldsR R (m.addCb cb) := by cases m <;> exact h

theorem CompletedBy.more {t : Nat} {r : Res V E} (hb : CompletedBy cfg h t r) (p : Env V × Ev K V E) : CompletedBy cfg (h ++ [p]) t r := by
  obtain ⟨h1, env, h2, o, rfl, h3, h4⟩ := hb
  exact ⟨h1, env, h2 ++ [p], o, by simp, h3, h4⟩

theorem WaitsFor.more {t w : Nat} (hb : WaitsFor cfg h w t) (p : Env V × Ev K V E) : WaitsFor cfg (h ++ [p]) w t := by
  obtain ⟨h1, env, k, h2, rfl, h3⟩ := hb
  exact ⟨h1, env, k, h2 ++ [p], by simp, h3⟩

/-- The entries of the lookups whose functors run hold nothing but results with which these lookups were completed. -/
theorem provenance (hc : cfg.Ok) (h : NHist K V E) (hok : NOk cfg {} h) : ∀ p ∈ (endN cfg h).stack,
    AllE (fun e : Entry K V E => e.id = p.1 → HoldsR (CompletedBy cfg h p.1) e.mapped) (endN cfg h).s := by
  induction h using snoc_ind with
  | h0 => intro p hp; cases hp
  | h1 h q ih =>
    obtain ⟨env, e⟩ := q
    rw [NOk_append] at hok
    have I := inv_end h hok.1
    have hev : e.ok cfg (endN cfg h) := hok.2.1
    have w1 := I.wf1 hc
    have ih : ∀ p ∈ (endN cfg h).stack, AllE (fun x : Entry K V E => x.id = p.1 → HoldsR (CompletedBy cfg (h ++ [(env, e)]) p.1) x.mapped) (endN cfg h).s :=
      fun p hp x hx hi => (ih hok.1 p hp x hx hi).mono (fun r hr => hr.more _)
    intro p hp
    rw [endN_snoc] at hp ⊢
    cases e with
    | op o =>
      simp only [next] at hp ⊢
      have hst : (endN cfg h).stack ≠ [] := by intro q; rw [q] at hp; cases hp
      have hne : o ≠ .destroy := fun q => hst (hev.2.2 (.inr q))
      by_cases hco : ∃ r, o = .complete p.1 r ∧ p.1 ∉ (endN cfg h).s.opens
      · obtain ⟨r, rfl, hno⟩ := hco
        simp only [step]; rw [complete_neg hno]; exact ih p hp
      · refine keep_step hc (clR p.1 _) w1 (ih p hp) (newR (I.lt p hp) _) ?_ ?_ hne hev.2.1
        · intro t r ho x hx hpx
          refine ⟨fun hi => (hpx hi).cancel, fun hi => (hpx hi).completed ?_⟩
          have hte : t = p.1 := hx.symm.trans hi
          rw [hte] at ho
          have hop : p.1 ∈ (endN cfg h).s.opens := Classical.byContradiction fun q => hco ⟨r, ho, q⟩
          subst ho
          refine ⟨h, env, [], _, rfl, rfl, ?_⟩
          simp only [step]
          rw [complete_pos hop (I.dead hst)]
        · intro t ho x hx hpx hi
          exact (hpx hi).cancel
    | ret =>
      simp only [next] at hp ⊢
      cases hst : (endN cfg h).stack with
      | nil => exact absurd hst hev
      | cons q st =>
        obtain ⟨tok, u⟩ := q
        rw [hst] at hp
        simp only at hp ⊢
        refine keep_answer (ih p (by rw [hst]; exact List.mem_cons_of_mem _ hp)) u _ (fun _ x _ hx hi => ?_)
        exact holds_addCb (hx hi) _
    | throw =>
      simp only [next] at hp ⊢
      cases hst : (endN cfg h).stack with
      | nil => exact absurd hst hev
      | cons q st =>
        rw [hst] at hp
        simp only at hp ⊢
        exact ih p (by rw [hst]; exact List.mem_cons_of_mem _ hp)
    | get k u =>
      simp only [next] at hp ⊢
      cases hh : (getWalk cfg env k true ((endN cfg h).s.bucket ((endN cfg h).s.bucketFor (cfg.hash k)))).hit with
      | some q =>
        obtain ⟨i, l⟩ := q
        simp only [hh] at hp ⊢
        refine keep_answer (keep_get_ (cfg := cfg) (clR (cfg := cfg) p.1 _).w (ih p hp) k true) u _ (fun _ x _ hx hi => ?_)
        exact holds_addCb (hx hi) _
      | none =>
        simp only [hh] at hp ⊢
        have hn1 : (get_ cfg env (endN cfg h).s k true).1.nextId = (endN cfg h).s.nextId := (get__shr (env := env) hc w1 k true).same.nextId
        have g1 := get__wf1 hc w1 env k true
        rcases List.mem_cons.1 hp with rfl | hp
        · have hA : AllE (fun x : Entry K V E => x.id = (get_ cfg env (endN cfg h).s k true).1.nextId →
              HoldsR (CompletedBy cfg (h ++ [(env, .get k u)]) (get_ cfg env (endN cfg h).s k true).1.nextId) x.mapped) (get_ cfg env (endN cfg h).s k true).1 := by
            intro x hx hi; have := g1.lt x hx; omega
          exact keep_link (cfg := cfg) (clR (cfg := cfg) _ _).w hA (fun _ => trivial)
        · exact keep_resolveAsync (cfg := cfg) (clR (cfg := cfg) p.1 _).w (keep_get_ (cfg := cfg) (clR (cfg := cfg) p.1 _).w (ih p hp) k true) (newR (hn1 ▸ I.lt p hp) _) k .later

theorem destroy_cbs (P : Entry K V E → Prop) (hs : AllE P s) (h0 : ∀ e : Entry K V E, e.mapped.cbs = [] → P e) : AllE P (destroy cfg s).1 := by
  have hl : ∀ (es : List (Entry K V E)) (x : St K V E), (∀ e ∈ x.limbo, P e) → ∀ e ∈ (dispose cfg x es).limbo, P e := by
    intro es
    induction es with
    | nil => intro x hx e he; exact hx e he
    | cons a es ih =>
      intro x hx
      refine ih (disposeOne cfg x a) ?_
      intro e he
      simp only [disposeOne, List.mem_append, List.mem_singleton] at he
      rcases he with he | rfl
      · exact hx e he
      · exact h0 _ (cbs_upd_cancel a)
  intro e he
  simp only [destroy] at he
  rcases List.mem_append.1 he with he | he
  · exfalso
    have h1 : (dispose cfg ({ s with tbl := s.tbl.map (fun _ => []) } : St K V E) s.ents).ents = [] := by
      rw [dispose_ents]; simp [St.ents]
    have h2 : e ∈ (dispose cfg ({ s with tbl := s.tbl.map (fun _ => []) } : St K V E) s.ents).ents := he
    rw [h1] at h2; cases h2
  · exact hl s.ents { s with tbl := s.tbl.map (fun _ => []) } (fun x hx => hs x (List.mem_append_right _ hx)) e he

/-- Callbacks are registered with the lookups they wait for. -/
theorem waiting (hc : cfg.Ok) (h : NHist K V E) (hok : NOk cfg {} h) :
    AllE (fun e : Entry K V E => ∀ w ∈ users e.mapped.cbs, WaitsFor cfg h w e.id) (endN cfg h).s ∧ ∀ p ∈ (endN cfg h).stack, WaitsFor cfg h p.2 p.1 := by
  induction h using snoc_ind with
  | h0 => exact ⟨fun e he => (by cases he), fun p hp => (by cases hp)⟩
  | h1 h q ih =>
    obtain ⟨env, e⟩ := q
    rw [NOk_append] at hok
    have I := inv_end h hok.1
    have hev : e.ok cfg (endN cfg h) := hok.2.1
    have w1 := I.wf1 hc
    obtain ⟨iA, iB⟩ := ih hok.1
    have iA : AllE (fun x : Entry K V E => ∀ w ∈ users x.mapped.cbs, WaitsFor cfg (h ++ [(env, e)]) w x.id) (endN cfg h).s :=
      fun x hx w hw => (iA x hx w hw).more _
    have iB : ∀ p ∈ (endN cfg h).stack, WaitsFor cfg (h ++ [(env, e)]) p.2 p.1 := fun p hp => (iB p hp).more _
    have cl : Cl cfg env (fun x : Entry K V E => ∀ w ∈ users x.mapped.cbs, WaitsFor cfg (h ++ [(env, e)]) w x.id) :=
      cl_users (fun i u => ∀ w ∈ u, WaitsFor cfg (h ++ [(env, e)]) w i)
    have h0 : ∀ x : Entry K V E, x.mapped.cbs = [] → ∀ w ∈ users x.mapped.cbs, WaitsFor cfg (h ++ [(env, e)]) w x.id := by
      intro x hx w hw; rw [hx] at hw; cases hw
    have nw : ∀ m, New cfg m (fun x : Entry K V E => ∀ w ∈ users x.mapped.cbs, WaitsFor cfg (h ++ [(env, e)]) w x.id) := fun m =>
      ⟨fun x _ hx => h0 x hx, fun x _ _ => h0 _ (cbs_upd_cancel x), fun x r _ _ => h0 _ (cbs_upd_completed r x)⟩
    have hadd : ∀ {u i : Nat}, WaitsFor cfg (h ++ [(env, e)]) u i → ∀ x : Entry K V E, x.id = i → (∀ w ∈ users x.mapped.cbs, WaitsFor cfg (h ++ [(env, e)]) w x.id) →
        ∀ w ∈ users (x.upd (.addCb (.user u))).mapped.cbs, WaitsFor cfg (h ++ [(env, e)]) w (x.upd (.addCb (.user u))).id := by
      intro u i hu x hi hx w hw
      show WaitsFor cfg (h ++ [(env, e)]) w x.id
      obtain ⟨a, b, m, c, d, f, j⟩ := x
      cases m with
      | pending p =>
        simp only [Entry.upd, Mapped.addCb, Mapped.cbs, users, List.filterMap_append, List.mem_append] at hw
        rcases hw with hw | hw
        · exact hx w hw
        · simp at hw; rw [hw]; simp only at hi ⊢; rw [hi]; exact hu
      | _ => exact hx w hw
    rw [endN_snoc]
    cases e with
    | op o =>
      simp only [next]
      refine ⟨?_, iB⟩
      by_cases hde : o = .destroy
      · subst hde
        exact destroy_cbs _ iA h0
      · exact keep_step hc cl w1 iA (nw _) (fun t r _ x _ _ => ⟨h0 _ (cbs_upd_cancel x), h0 _ (cbs_upd_completed r x)⟩)
          (fun t _ x _ _ => h0 _ (cbs_upd_cancel x)) hde hev.2.1
    | ret =>
      simp only [next]
      cases hst : (endN cfg h).stack with
      | nil => exact absurd hst hev
      | cons q st =>
        obtain ⟨tok, u⟩ := q
        rw [hst] at iB
        refine ⟨keep_answer iA u _ (fun _ => hadd (iB (tok, u) (List.mem_cons_self ..))), fun p hp => iB p (List.mem_cons_of_mem _ hp)⟩
    | throw =>
      simp only [next]
      cases hst : (endN cfg h).stack with
      | nil => exact absurd hst hev
      | cons q st =>
        rw [hst] at iB
        exact ⟨iA, fun p hp => iB p (List.mem_cons_of_mem _ hp)⟩
    | get k u =>
      have hev' := hev
      have hw : ∀ i, (ansAt cfg h env (.get k u) = .called k i ∨ (ansAt cfg h env (.get k u) = .out {} ∧ (ledgerAfter cfg (flat h)).valid k = some i)) →
          WaitsFor cfg (h ++ [(env, .get k u)]) u i := fun i hi => ⟨h, env, k, [], rfl, hi⟩
      simp only [ansAt, next] at hw
      simp only [next]
      cases hh : (getWalk cfg env k true ((endN cfg h).s.bucket ((endN cfg h).s.bucketFor (cfg.hash k)))).hit with
      | some q =>
        obtain ⟨i, l⟩ := q
        simp only [hh] at hw ⊢
        refine ⟨keep_answer (keep_get_ (cfg := cfg) cl.w iA k true) u _ (fun hl => hadd (hw i (.inr ⟨?_, ?_⟩))), iB⟩
        · rw [hl]; rfl
        · refine hit_valid (env := env) hc (I.good hc env) ?_
          rw [← hit_same I.sim k, hh, hl]
      | none =>
        simp only [hh] at hw ⊢
        refine ⟨keep_resolveAsync (cfg := cfg) cl.w (keep_get_ (cfg := cfg) cl.w iA k true) (nw _) k .later, fun p hp => ?_⟩
        rcases List.mem_cons.1 hp with rfl | hp
        · exact hw _ (.inl rfl)
        · exact iB p hp

end Hoard.NestedAsync
