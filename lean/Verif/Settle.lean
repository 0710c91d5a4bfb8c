import Verif.AsyncAcc
/-! Conservation of waiters: every callback handed to the cache is invoked,
dropped, or still stored in some pending lookup, and this exactly once. -/
namespace Hoard
open Spec
variable {K V E : Type} {cfg : Cfg K} {env : Env V} {s s' : St K V E}

/-- How often the waiter `w` is stored in an entry. -/
def wt (w : Nat) (e : Entry K V E) : Nat := (users e.mapped.cbs).count w
/-- How often the waiter `w` is stored in the entries of a list. -/
def Wl (w : Nat) (l : List (Entry K V E)) : Nat := (l.map (wt w)).sum
/-- How often the waiter `w` is stored anywhere. -/
def Wt (w : Nat) (s : St K V E) : Nat := Wl w s.ents + Wl w s.limbo

theorem Wl_perm {w : Nat} {l l' : List (Entry K V E)} (h : l.Perm l') : Wl w l = Wl w l' := (h.map _).sum_nat
theorem Wl_append (w : Nat) (l l' : List (Entry K V E)) : Wl w (l ++ l') = Wl w l + Wl w l' := by simp [Wl]
theorem Wl_map {w : Nat} {f : Entry K V E → Entry K V E} (h : ∀ e, (f e).mapped.cbs = e.mapped.cbs) (l : List (Entry K V E)) :
    Wl w (l.map f) = Wl w l := by
  unfold Wl; rw [List.map_map]; congr 1
  apply List.map_congr_left; intro e _; simp [wt, h]
theorem Wl_zero {w : Nat} {l : List (Entry K V E)} (h : ∀ e ∈ l, e.mapped.cbs = []) : Wl w l = 0 := by
  induction l with
  | nil => rfl
  | cons a l ih =>
    have := ih (fun e he => h e (List.mem_cons_of_mem _ he))
    simp only [Wl, List.map_cons, List.sum_cons] at this ⊢
    rw [this]; simp [wt, h a, users]

theorem cbs_of_not_pending {e : Entry K V E} (h : e.isPending = false) : e.mapped.cbs = [] := by
  unfold Entry.isPending at h
  cases hm : e.mapped <;> simp_all [Mapped.isPending, Mapped.cbs]

theorem Wl_drops {w : Nat} {l l' : List (Entry K V E)} (h : Drops env l l') : Wl w l' = Wl w l := by
  obtain ⟨r, hp, hr⟩ := h
  rw [Wl_perm hp, Wl_append, Wl_zero (l := r)]; · rfl
  intro e he
  have := hr e he
  simp only [stale, Bool.and_eq_true, Bool.not_eq_true'] at this
  exact cbs_of_not_pending this.2

theorem cbs_atId {f : Entry K V E → Entry K V E} (h : ∀ e, (f e).mapped.cbs = e.mapped.cbs) (i : Nat) (e : Entry K V E) :
    (atId i f e).mapped.cbs = e.mapped.cbs := by
  unfold atId; split
  · exact h e
  · rfl

theorem Wt_modify {w : Nat} {f : Entry K V E → Entry K V E} (h : ∀ e, (f e).mapped.cbs = e.mapped.cbs) (s : St K V E) (i : Nat) :
    Wt w (s.modify i f) = Wt w s := by
  unfold Wt; rw [ents_modify, limbo_modify, Wl_map (cbs_atId h i), Wl_map (cbs_atId h i)]

theorem cbs_cancel (m : Mapped V E) : m.cancel.cbs = [] := by cases m <;> rfl
theorem cbs_markExpired (m : Mapped V E) : m.markExpired.cbs = m.cbs := by cases m <;> rfl
theorem cbs_strengthen (env : Env V) (m : Mapped V E) : (m.strengthen env).cbs = m.cbs := by
  cases m <;> simp only [Mapped.strengthen] <;> (try split) <;> rfl
theorem cbs_weaken (p : Bool) (m : Mapped V E) : (m.weaken p).cbs = m.cbs := by
  cases m <;> simp only [Mapped.weaken] <;> (try split) <;> rfl

theorem cbs_expUpd (k : K) (e : Entry K V E) : (expUpd cfg k e).mapped.cbs = e.mapped.cbs := by
  unfold expUpd; split
  · exact cbs_markExpired _
  · rfl
theorem cbs_creUpd (o : Option Nat) (e : Entry K V E) : (creUpd o env e).mapped.cbs = e.mapped.cbs := by
  unfold creUpd; split
  · exact cbs_strengthen _ _
  · rfl

theorem Wl_dispose (w : Nat) (s : St K V E) (es) : Wl w (dispose cfg s es).limbo = Wl w s.limbo := by
  rw [(dispose_fields cfg es s).2.1, Wl_append, Wl_zero (l := es.map _)]; · rfl
  intro e he
  obtain ⟨x, _, rfl⟩ := List.mem_map.1 he
  exact cbs_cancel _

theorem Wl_congr_limbo {w : Nat} (h : s'.limbo = s.limbo) : Wl w s'.limbo = Wl w s.limbo := by rw [h]

theorem Wt_walked (w : Nat) (s : St K V E) (k : K) (incl : Bool) : Wt w (walked cfg env s k incl) = Wt w s := by
  unfold Wt
  rw [Wl_drops (walked_drops (cfg := cfg) s env k incl)]
  unfold walked applyWalk
  rw [Wl_dispose]; rfl

theorem Wt_onHit (w : Nat) (s : St K V E) (i : Nat) : Wt w (onHit cfg env s i) = Wt w s := by
  have h1 : Wt w (if cfg.maxSize.isSome then { s.modify i (·.upd (.strengthen env)) with bq := s.bq.onHit i } else s) = Wt w s := by
    split
    · exact Wt_modify (fun e => cbs_strengthen env e.mapped) s i
    · rfl
  unfold onHit; simp only
  split
  · exact h1
  · split
    · exact h1
    · rw [Wt_modify (fun e => by split <;> rfl)]; exact h1

theorem Wt_get_ (hc : cfg.Ok) (w1 : WF1 cfg s) (w : Nat) (k : K) (incl : Bool) : Wt w (get_ cfg env s k incl).1 = Wt w s := by
  rw [get__eq hc w1.placed]
  split
  · exact Wt_walked _ _ _ _
  · rw [Wt_onHit, Wt_walked]

theorem Wt_expire (hc : cfg.Ok) (w1 : WF1 cfg s) (w : Nat) (k : K) : Wt w (expire_ cfg env s k) = Wt w s := by
  obtain ⟨kept, rem, hp, hq, hr, _⟩ := expire_spec hc w1 env k
  unfold Wt
  rw [Wl_perm hq, Wl_map (cbs_expUpd k), Wl_perm hp, Wl_append, Wl_zero (l := rem)]
  · unfold expire_ applyWalk; simp only; rw [Wl_dispose]; rfl
  · intro e he
    have := hr e he
    split at this
    · exact cbs_of_not_pending this
    · simp only [stale, Bool.and_eq_true, Bool.not_eq_true'] at this
      exact cbs_of_not_pending this.2

theorem Wt_clear (w : Nat) (s : St K V E) : Wt w (clear cfg s) = Wt w s := by
  unfold Wt
  rw [clear_ents, Wl_map (fun e => cbs_markExpired e.mapped), Wl_perm (filter_append_not s.ents (·.isPending)), Wl_append,
    Wl_zero (l := s.ents.filter (fun x => !x.isPending))]
  · unfold clear; rw [Wl_dispose]; rfl
  · intro e he
    exact cbs_of_not_pending (by simpa using (List.mem_filter.1 he).2)

theorem Wl_beforeLink (w : Nat) (s : St K V E) : Wl w (beforeLink cfg env s).limbo = Wl w s.limbo := by
  unfold beforeLink; split
  · unfold purge; rw [Wl_dispose]
  · rfl

theorem Wt_beforeLink (w : Nat) (s : St K V E) : Wt w (beforeLink cfg env s) = Wt w s := by
  unfold Wt; rw [Wl_drops (beforeLink_drops cfg env s), Wl_beforeLink]

theorem Wl_maybeRehash (w : Nat) (s : St K V E) : Wl w (maybeRehash cfg env s).limbo = Wl w s.limbo := by
  unfold maybeRehash; simp only; split
  · exact Wl_beforeLink w s
  · exact Wl_beforeLink w s

theorem Wl_link (w : Nat) (s : St K V E) (e : Entry K V E) : Wl w (link cfg env s e).limbo = Wl w s.limbo := by
  have h1 : ∀ (t : St K V E) i, Wl w (onCreate cfg env t i).limbo = Wl w t.limbo := by
    intro t i; unfold onCreate; split
    · simp only; split
      · rfl
      · rw [limbo_modify, Wl_map (cbs_atId (fun e => cbs_strengthen env e.mapped) _)]
    · rfl
  have h2 : ∀ (t : St K V E) i b, Wl w (onAssign cfg env t i b).limbo = Wl w t.limbo := by
    intro t i b; unfold onAssign; simp only
    have : Wl w (t.modify i (assignTimes cfg env b)).limbo = Wl w t.limbo := by
      rw [limbo_modify, Wl_map (cbs_atId (fun e => ?_) _)]
      unfold assignTimes; simp only; split
      · rfl
      · split <;> rfl
    split <;> exact this
  unfold link; simp only; split
  · rw [h1]; exact Wl_maybeRehash w s
  · rw [h2, h1]; exact Wl_maybeRehash w s

theorem cbs_assignTimes (b : Bool) (e : Entry K V E) : (assignTimes cfg env b e).mapped.cbs = e.mapped.cbs := by
  unfold assignTimes; simp only; split
  · rfl
  · split <;> rfl

theorem Wt_onAssign (w : Nat) (s : St K V E) (i : Nat) (b : Bool) : Wt w (onAssign cfg env s i b) = Wt w s := by
  unfold onAssign; simp only; split
  · exact Wt_modify (cbs_assignTimes b) s i
  · exact Wt_modify (cbs_assignTimes b) s i

theorem Wt_link (w1 : WF1 cfg s) (w : Nat) {e : Entry K V E} (he : e.id = s.nextId) (hcb : e.mapped.cbs = []) :
    Wt w (link cfg env s e) = Wt w s := by
  obtain ⟨_, _, _, _, kept, o, hd, hp, _⟩ := link_spec env w1 he
  unfold Wt
  rw [Wl_perm hp, Wl_append, Wl_map (cbs_creUpd o), Wl_drops hd, Wl_link, Wl_zero (l := [_])]; · omega
  intro x hx
  rw [List.mem_singleton] at hx; subst hx
  unfold linkUpd; split
  · exact hcb
  · rw [cbs_assignTimes]; exact hcb

theorem Wt_maintenance (w : Nat) (s : St K V E) : Wt w (maintenance cfg s) = Wt w s := by
  have h : ∀ (vs : List Nat) (s : St K V E), Wt w (evictAll cfg s vs) = Wt w s := by
    intro vs
    induction vs with
    | nil => intro s; rfl
    | cons v vs ih =>
      intro s
      have := ih (s.modify v (·.upd (if cfg.weaken then .weaken cfg.ptr else .markExpired)))
      refine Eq.trans this (Wt_modify (fun e => ?_) s v)
      simp only [Entry.upd]; split
      · exact cbs_weaken _ _
      · exact cbs_markExpired _
  unfold maintenance; split
  · rfl
  · exact h _ _

theorem Wt_runCb (w : Nat) (s : St K V E) (i : Nat) (cb : Cb) : Wt w (runCb s i cb) = Wt w s := by
  cases cb with
  | user u => rfl
  | refresh old =>
    unfold runCb; simp only
    rw [Wt_modify (f := (·.upd .markExpired)) (fun e => cbs_markExpired e.mapped)]
    apply Wt_modify; intro e; rfl

theorem Wt_runCbs (w : Nat) (i : Nat) (cbs : List Cb) : ∀ s : St K V E, Wt w (runCbs s i cbs) = Wt w s := by
  induction cbs with
  | nil => intro s; rfl
  | cons c cs ih => intro s; exact (ih (runCb s i c)).trans (Wt_runCb w s i c)

/-- Changing one entry. -/
theorem Wl_modify_at {w : Nat} {f : Entry K V E → Entry K V E} {i : Nat} : ∀ {l : List (Entry K V E)}, (l.map (·.id)).Nodup →
    ∀ {e}, e ∈ l → e.id = i → Wl w (l.map (atId i f)) + wt w e = Wl w l + wt w (f e)
  | [], _, _, he, _ => by cases he
  | a :: l, hn, e, he, hi => by
    simp only [List.map_cons, List.nodup_cons] at hn
    have hrest : ∀ l : List (Entry K V E), i ∉ l.map (·.id) → l.map (atId i f) = l := by
      intro l hl
      conv => rhs; rw [← List.map_id l]
      apply List.map_congr_left
      intro x hx
      unfold atId; rw [if_neg]; · rfl
      intro hxi; exact hl (List.mem_map.2 ⟨x, hx, hxi⟩)
    rcases List.mem_cons.1 he with rfl | he'
    · rw [List.map_cons, hrest l (by rw [← hi]; exact hn.1)]
      simp only [Wl, List.map_cons, List.sum_cons, atId, hi, if_true]
      omega
    · have hne : a.id ≠ i := fun h => hn.1 (List.mem_map.2 ⟨e, he', hi.trans h.symm⟩)
      have := Wl_modify_at (w := w) (f := f) hn.2 he' hi
      simp only [Wl, List.map_cons, List.sum_cons, atId, if_neg hne] at this ⊢
      omega

theorem Wt_modify_at {w : Nat} {f : Entry K V E → Entry K V E} (hn : ((s.ents ++ s.limbo).map (·.id)).Nodup) {e : Entry K V E}
    (he : e ∈ s.ents ++ s.limbo) : Wt w (s.modify e.id f) + wt w e = Wt w s + wt w (f e) := by
  have := Wl_modify_at (w := w) (f := f) hn he rfl
  unfold Wt
  rw [ents_modify, limbo_modify, ← Wl_append, ← List.map_append, this, Wl_append]

theorem Wt_modify_none {w : Nat} {f : Entry K V E → Entry K V E} {i : Nat} (h : s.findAny i = none) : Wt w (s.modify i f) = Wt w s := by
  have hid : ∀ l : List (Entry K V E), (∀ e ∈ l, e.id ≠ i) → l.map (atId i f) = l := by
    intro l hl
    conv => rhs; rw [← List.map_id l]
    apply List.map_congr_left
    intro x hx
    unfold atId; rw [if_neg (hl x hx)]; rfl
  have := List.find?_eq_none.1 h
  unfold Wt
  rw [ents_modify, limbo_modify, hid s.ents (fun e he => by have := this e (List.mem_append_left _ he); simpa using this),
    hid s.limbo (fun e he => by have := this e (List.mem_append_right _ he); simpa using this)]

/-- Emptying a pending lookup releases exactly its waiters. -/
theorem Wt_release {w : Nat} {f : Entry K V E → Entry K V E} (hn : ((s.ents ++ s.limbo).map (·.id)).Nodup) (hf : ∀ e, (f e).mapped.cbs = []) (i : Nat) :
    Wt w (s.modify i f) + (users (((s.findAny i).map (·.mapped.cbs)).getD [])).count w = Wt w s := by
  cases hfa : s.findAny i with
  | none => rw [Wt_modify_none hfa]; simp [users]
  | some e =>
    have hm : e ∈ s.ents ++ s.limbo := List.mem_of_find?_eq_some hfa
    have hi : e.id = i := by simpa using List.find?_some hfa
    have := Wt_modify_at (w := w) (f := f) hn hm
    rw [hi] at this
    simp only [wt, hf, users, List.filterMap_nil, List.count_nil, Nat.add_zero] at this
    exact this

theorem Wt_congr {w : Nat} (h1 : s'.tbl = s.tbl) (h2 : s'.limbo = s.limbo) : Wt w s' = Wt w s := by
  unfold Wt St.ents; rw [h1, h2]

theorem cbs_completed (r : Res V E) (m : Mapped V E) : (completed cfg r m).cbs = [] := by
  have := completed_notPending cfg r m
  cases hm : completed cfg r m <;> simp_all [Mapped.isPending, Mapped.cbs]

theorem ids_modify (hn : ((s.ents ++ s.limbo).map (·.id)).Nodup) (i : Nat) {f : Entry K V E → Entry K V E} (hf : ∀ e, (f e).id = e.id) :
    (((s.modify i f).ents ++ (s.modify i f).limbo).map (·.id)).Nodup := by
  rw [ents_modify, limbo_modify, ← List.map_append, List.map_map]
  have : (fun x : Entry K V E => x.id) ∘ atId i f = (·.id) := by
    funext e; simp only [Function.comp, atId]; split
    · exact hf e
    · rfl
  rw [this]; exact hn

theorem findAny_modify_cbs (s : St K V E) (i j : Nat) {f : Entry K V E → Entry K V E} (hf : ∀ e, (f e).id = e.id ∧ (f e).mapped.cbs = e.mapped.cbs) :
    ((s.modify i f).findAny j).map (·.mapped.cbs) = (s.findAny j).map (·.mapped.cbs) := by
  unfold St.findAny
  rw [ents_modify, limbo_modify, ← List.map_append, List.find?_map]
  have hp : (fun e : Entry K V E => e.id == j) ∘ atId i f = fun e => e.id == j := by
    funext e; simp only [Function.comp, atId]; split
    · rw [(hf e).1]
    · rfl
  rw [hp, Option.map_map]
  congr 1
  funext e
  exact cbs_atId (fun e => (hf e).2) i e

theorem runCb_keeps (s : St K V E) (i j : Nat) (cb : Cb) : ((runCb s i cb).findAny j).map (·.mapped.cbs) = (s.findAny j).map (·.mapped.cbs) ∧
    (((s.ents ++ s.limbo).map (·.id)).Nodup → (((runCb s i cb).ents ++ (runCb s i cb).limbo).map (·.id)).Nodup) := by
  cases cb with
  | user u => exact ⟨rfl, fun h => h⟩
  | refresh old =>
    unfold runCb; simp only
    refine ⟨?_, fun h => ?_⟩
    · rw [findAny_modify_cbs (f := (·.upd .markExpired)) _ _ _ (fun e => ⟨rfl, cbs_markExpired e.mapped⟩)]
      exact findAny_modify_cbs s i j (fun e => ⟨rfl, rfl⟩)
    · refine ids_modify (f := (·.upd .markExpired)) ?_ _ (fun e => rfl)
      exact ids_modify h i (fun e => rfl)

theorem runCbs_keeps (i j : Nat) (cbs : List Cb) : ∀ s : St K V E, ((runCbs s i cbs).findAny j).map (·.mapped.cbs) = (s.findAny j).map (·.mapped.cbs) ∧
    (((s.ents ++ s.limbo).map (·.id)).Nodup → (((runCbs s i cbs).ents ++ (runCbs s i cbs).limbo).map (·.id)).Nodup) := by
  induction cbs with
  | nil => intro s; exact ⟨rfl, fun h => h⟩
  | cons c cs ih =>
    intro s
    obtain ⟨a1, a2⟩ := ih (runCb s i c)
    obtain ⟨b1, b2⟩ := runCb_keeps s i j c
    exact ⟨a1.trans b1, fun h => a2 (b2 h)⟩

theorem Wt_complete (hn : ((s.ents ++ s.limbo).map (·.id)).Nodup) (w tok : Nat) (r : Res V E) :
    Wt w (complete cfg env s tok r).1 + ((complete cfg env s tok r).2.fired.map (·.1)).count w + (complete cfg env s tok r).2.broken.count w = Wt w s := by
  unfold complete; simp only
  split
  · split
    · have := Wt_release (w := w) (s := { s with opens := s.opens.erase tok }) (f := (·.upd .cancel)) hn (fun e => cbs_cancel _) tok
      have e0 : Wt w ({ s with opens := s.opens.erase tok } : St K V E) = Wt w s := rfl
      rw [e0] at this; simpa using this
    · simp only
      obtain ⟨a1, a2⟩ := runCbs_keeps tok tok ((((({ s with opens := s.opens.erase tok } : St K V E)).findAny tok).map (·.mapped.cbs)).getD []) ({ s with opens := s.opens.erase tok } : St K V E)
      have := Wt_release (w := w) (f := (·.upd (completed cfg r))) (a2 hn) (fun e => cbs_completed _ _) tok
      rw [a1, Wt_runCbs] at this
      rw [Wt_onAssign, List.map_map]
      have e1 : ((fun x : Nat × Res V E => x.1) ∘ fun w => (w, r)) = id := rfl
      have e0 : Wt w ({ s with opens := s.opens.erase tok } : St K V E) = Wt w s := rfl
      rw [e1, List.map_id]; rw [e0] at this
      simpa using this
  · simp

theorem Wt_drop (hn : ((s.ents ++ s.limbo).map (·.id)).Nodup) (w tok : Nat) :
    Wt w (drop s tok).1 + ((drop s tok).2.fired.map (·.1)).count w + (drop s tok).2.broken.count w = Wt w s := by
  unfold drop; simp only
  split
  · have := Wt_release (w := w) (s := { s with opens := s.opens.erase tok }) (f := (·.upd .cancel)) hn (fun e => cbs_cancel _) tok
    have e0 : Wt w ({ s with opens := s.opens.erase tok } : St K V E) = Wt w s := rfl
    have e1 : ({ s with opens := s.opens.erase tok } : St K V E).findAny tok = s.findAny tok := rfl
    rw [e0, e1] at this; simpa using this
  · simp

theorem users_addCb (w u : Nat) {e : Entry K V E} (hp : e.isPending = true) : wt w (e.upd (.addCb (.user u))) = wt w e + [u].count w := by
  unfold Entry.isPending at hp
  cases hm : e.mapped with
  | pending p => simp [wt, Entry.upd, hm, Mapped.addCb, Mapped.cbs, users, List.filterMap_append, List.count_append]
  | _ => simp [hm, Mapped.isPending] at hp

theorem get_pend {m : Mapped V E} {b : Bool} (h : m.get env b = .pend) : m.isPending = true := by
  cases m <;> simp_all [Mapped.get, Mapped.isPending] <;> split at h <;> simp_all

theorem Wt_answer (hn : ((s.ents ++ s.limbo).map (·.id)).Nodup) (w u i : Nat) (l : Look V E)
    (hp : l = .pend → ∃ e ∈ s.ents, e.id = i ∧ e.isPending = true) :
    Wt w (answer s i u l).1 + ((answer s i u l).2.fired.map (·.1)).count w + (answer s i u l).2.broken.count w = Wt w s + [u].count w := by
  cases l with
  | none => simp [answer]
  | val v => simp [answer]
  | err v => simp [answer]
  | pend =>
    obtain ⟨e, he, hi, hpe⟩ := hp rfl
    have := Wt_modify_at (w := w) (f := (·.upd (.addCb (.user u)))) hn (List.mem_append_left _ he)
    rw [users_addCb w u hpe, hi] at this
    simp only [answer, List.map_nil, List.count_nil]
    omega

/-- A lookup just started has no waiters. -/
theorem Wt_resolveAsync (w1 : WF1 cfg s) (w : Nat) (k : K) (b : Beh V E) : Wt w (resolveAsync cfg env s k b).1 = Wt w s := by
  have hl := Wt_link (env := env) w1 w (e := newEntry s k (.pending {})) rfl rfl
  have hs := (link_spec env w1 (e := newEntry s k (.pending {})) rfl)
  obtain ⟨w2, _, _, _, kept, o, _, hp, _⟩ := hs
  have hmem : newEntry s k (.pending {} : Mapped V E) ∈ (link cfg env s (newEntry s k (.pending {}))).ents := by
    have hlu : linkUpd cfg env (newEntry s k (.pending {} : Mapped V E)) = newEntry s k (.pending {}) := rfl
    rw [hp.mem_iff, hlu]; simp
  have hfa := findAny_mem w2 hmem
  have hcb : (((link cfg env s (newEntry s k (.pending {} : Mapped V E))).findAny s.nextId).map (·.mapped.cbs)).getD [] = [] := by
    have : (newEntry s k (.pending {} : Mapped V E)).id = s.nextId := rfl
    rw [← this, hfa]; rfl
  unfold resolveAsync; simp only
  split
  · exact hl
  · rename_i r
    have := Wt_complete (cfg := cfg) (env := env) (s := { link cfg env s (newEntry s k (.pending {})) with opens := (link cfg env s (newEntry s k (.pending {}))).opens ++ [s.nextId] }) w2.ids w s.nextId r
    have hf : (complete cfg env ({ link cfg env s (newEntry s k (.pending {})) with opens := (link cfg env s (newEntry s k (.pending {}))).opens ++ [s.nextId] } : St K V E) s.nextId r).2.fired = [] ∧
        (complete cfg env ({ link cfg env s (newEntry s k (.pending {})) with opens := (link cfg env s (newEntry s k (.pending {}))).opens ++ [s.nextId] } : St K V E) s.nextId r).2.broken = [] := by
      unfold complete; simp only
      have hx : ∀ o, ((({ link cfg env s (newEntry s k (.pending {} : Mapped V E)) with opens := o } : St K V E).findAny s.nextId).map (·.mapped.cbs)).getD [] = [] := fun _ => hcb
      simp only [hx]
      split
      · split <;> exact ⟨rfl, rfl⟩
      · exact ⟨rfl, rfl⟩
    rw [hf.1, hf.2] at this
    simp only [List.map_nil, List.count_nil, Nat.add_zero] at this
    exact this.trans hl
  · have := Wt_drop (s := { link cfg env s (newEntry s k (.pending {})) with opens := (link cfg env s (newEntry s k (.pending {}))).opens ++ [s.nextId] }) w2.ids w s.nextId
    have hf : (drop ({ link cfg env s (newEntry s k (.pending {})) with opens := (link cfg env s (newEntry s k (.pending {}))).opens ++ [s.nextId] } : St K V E) s.nextId).2.fired = [] ∧
        (drop ({ link cfg env s (newEntry s k (.pending {})) with opens := (link cfg env s (newEntry s k (.pending {}))).opens ++ [s.nextId] } : St K V E) s.nextId).2.broken = [] := by
      unfold drop; simp only
      have hx : ∀ o, ((({ link cfg env s (newEntry s k (.pending {} : Mapped V E)) with opens := o } : St K V E).findAny s.nextId).map (·.mapped.cbs)).getD [] = [] := fun _ => hcb
      simp only [hx]
      split
      · exact ⟨rfl, rfl⟩
      · exact ⟨rfl, rfl⟩
    rw [hf.1, hf.2] at this
    simp only [List.map_nil, List.count_nil, Nat.add_zero] at this
    exact this.trans hl

theorem cbs_syncMapped (r : Res V E) : (syncMapped r).cbs = [] := by cases r <;> rfl

theorem Wt_refresh (w1 : WF1 cfg s) (w2 : WF2 cfg s) (hd : s.destroyed = false) (w : Nat) (e : Entry K V E) (r : Res V E) (b : Beh V E) :
    Wt w (refresh cfg env s e r b).1 = Wt w s ∧ (refresh cfg env s e r b).2.fired = [] ∧ (refresh cfg env s e r b).2.broken = [] := by
  have hg : ∀ p : St K V E × Nat, p = (if cfg.resolver = .async then resolveAsync cfg env s e.key b else resolveSync cfg env s e.key r) →
      Wt w p.1 = Wt w s ∧ ((p.1.ents ++ p.1.limbo).map (·.id)).Nodup := by
    intro p hp; subst hp
    split
    · exact ⟨Wt_resolveAsync w1 w _ _, (resolveAsync_spc (F := {}) env w1 w2 hd e.key b).2.1.ids⟩
    · exact ⟨Wt_link w1 w rfl (cbs_syncMapped r), (link_spec env w1 (e := newEntry s e.key (syncMapped r)) rfl).1.ids⟩
  unfold refresh
  split
  · exact ⟨rfl, rfl, rfl⟩
  · simp only
    obtain ⟨hW, hN⟩ := hg _ rfl
    generalize (if cfg.resolver = .async then resolveAsync cfg env s e.key b else resolveSync cfg env s e.key r) = p at hW hN ⊢
    have hW2 : Wt w (p.1.modify e.id (fun x => { x with refreshing := true })) = Wt w s := by
      refine Eq.trans ?_ hW
      apply Wt_modify; intro x; rfl
    have hN2 := ids_modify hN e.id (f := fun x => { x with refreshing := true }) (fun _ => rfl)
    split
    · rename_i n hf
      split
      · refine ⟨?_, rfl, rfl⟩
        rw [← hW2]
        have hm := List.mem_of_find?_eq_some hf
        have hi : n.id = p.2 := by simpa using List.find?_some hf
        have := Wt_modify_at (w := w) (f := (·.upd (.addCb (.refresh e.id)))) hN2 (List.mem_append_left _ hm)
        have h0 : wt w (n.upd (.addCb (.refresh e.id))) = wt w n := by
          unfold wt Entry.upd
          cases hmm : n.mapped <;> simp [Mapped.addCb, Mapped.cbs, users, List.filterMap_append]
        rw [h0, hi] at this
        simp only at this ⊢
        omega
      · exact ⟨(Wt_runCb _ _ _ _).trans hW2, rfl, rfl⟩
    · exact ⟨hW2, rfl, rfl⟩

/-- Conservation in one step. -/
theorem Wt_step {M : Md V} {L : Ledger K V} (hc : cfg.Ok) (g : Good cfg M (fun _ => False) s L) (he : M.env = env) (o : Op K V E) (ho : o.ok cfg s) (w : Nat) :
    Wt w (step cfg env s o).1 + ((step cfg env s o).2.fired.map (·.1)).count w + (step cfg env s o).2.broken.count w =
      Wt w s + (asked [(env, o)]).count w := by
  have w1 := g.wf1
  have w2 := g.wf2
  have tl : ∀ {t : St K V E} (_ : WF1 cfg t) (k : K) (v : V) (f : Fail), Wt w (tryLink cfg env t (newEntry t k (.value v)) f).1 = Wt w t := by
    intro t h k v f
    unfold tryLink; split
    · exact Wt_link h w rfl rfl
    · rfl
    · simp only; split
      · exact Wt_beforeLink w t
      · exact Wt_link h w rfl rfl
  cases o with
  | getIfExists k => simp [step, getIfExists, asked]
  | count => simp [step, asked]
  | get k r =>
    have h1 := Wt_get_ (env := env) hc w1 w k false
    have h2 : ∀ r, Wt w (resolveSync cfg env (get_ cfg env s k false).1 k r).1 = Wt w s := fun r =>
      (Wt_link (get__wf1 hc w1 env k false) w rfl (cbs_syncMapped r)).trans h1
    simp only [step, get, asked]
    split <;> simp [h1, h2]
  | asyncGet k u b =>
    have hd : s.destroyed = false := ho.2
    have h1 := Wt_get_ (env := env) hc w1 w k true
    have g1 := get__wf1 hc w1 env k true
    have e1 : asked [(env, (.asyncGet k u b : Op K V E))] = [u] := rfl
    simp only [step, e1]
    rw [asyncGet_eq hc w1.placed]
    split
    · rename_i e hf
      rw [← h1]
      refine Wt_answer g1.ids w u e.id _ (fun hp => ?_)
      have hge := get__eq hc w1.placed env k true
      rw [hf] at hge
      rw [hge]
      have hm := hit_mem_walked (cfg := cfg) hf
      refine ⟨atId e.id (hitUpd cfg env) e, ?_, ?_, ?_⟩
      · rw [onHit_ents]; exact List.mem_map.2 ⟨e, hm, rfl⟩
      · exact ((hitUpd_idKey cfg env).atId e.id e).1
      · have hx : e.expired env = false := (hit_facts hf).2.2.1
        have hpe := get_pend hp
        have := (hitUpd_facts (F := { hit := fun _ => True }) (cfg := cfg) e hx (.inl trivial)).1.pend
        simp only [atId, if_true]
        rw [this]; exact hpe
    · simp only
      have g2 := get__ok hc g k true (.inl rfl)
      rw [he] at g2
      have w3 : WF2 cfg (get_ cfg env s k true).1 := by
        rcases g2.2.2 with ⟨_, _, _, _, _, q⟩ | ⟨_, _, _, q, _⟩ | ⟨_, q, _⟩ <;> exact q.wf2
      have hr := resolveAsync_spc (F := {}) env g1 w3 (g2.1.trans hd) k b
      rw [← h1, ← Wt_resolveAsync (env := env) g1 w k b]
      refine Wt_answer hr.2.1.ids w u _ _ (fun hp => ?_)
      split at hp
      · rename_i e hf
        have hi : e.id = (resolveAsync cfg env (get_ cfg env s k true).1 k b).2 := by simpa using List.find?_some hf
        exact ⟨e, List.mem_of_find?_eq_some hf, hi, get_pend hp⟩
      · cases hp
  | emplace k v f =>
    have h1 := Wt_expire (env := env) hc w1 w k
    have h2 := tl (expire_wf1 hc w1 env k) k v f
    simp only [step, emplace, asked]
    split <;> simp [Wt_maintenance, h2, h1]
  | getOrEmplace k v f =>
    have h1 := Wt_get_ (env := env) hc w1 w k true
    have h2 := tl (get__wf1 hc w1 env k true) k v f
    simp only [step, getOrEmplace, asked]
    split
    · simp [Wt_maintenance, h1]
    · split <;> simp [Wt_maintenance, h2, h1]
    · simp [Wt_maintenance, h1]
  | erase k => simp [step, erase, asked, Wt_expire hc w1 w k]
  | clear => simp [step, asked, Wt_clear w s]
  | complete tok r => simpa [step, asked] using Wt_complete (cfg := cfg) (env := env) w1.ids w tok r
  | drop tok => simpa [step, asked] using Wt_drop w1.ids w tok
  | tick r b =>
    have hd : s.destroyed = false := ho.2.2
    simp only [step, tick, asked]
    split
    · simp
    · split
      · simp
      · rename_i i q hq _ e he
        split
        · have w1' : WF1 cfg ({ s with delayQ := q } : St K V E) := (popped hc hq g).wf1
          have w2' : WF2 cfg ({ s with delayQ := q } : St K V E) := (popped hc hq g).wf2
          obtain ⟨a, b', c⟩ := Wt_refresh (env := env) w1' w2' hd w e r b
          rw [a, b', c]; simp; rfl
        · simp
  | destroy =>
    simp only [step, destroy, asked]
    unfold Wt
    have h1 : Wl w (dispose cfg ({ s with tbl := s.tbl.map (fun _ => []) } : St K V E) s.ents).ents = 0 := by
      rw [dispose_ents]
      have : ({ s with tbl := s.tbl.map (fun _ => []) } : St K V E).ents = [] := by simp [St.ents]
      rw [this]; rfl
    have h2 := Wl_dispose (cfg := cfg) w ({ s with tbl := s.tbl.map (fun _ => []) } : St K V E) s.ents
    have h3 : ∀ l : List (Entry K V E), (l.flatMap (fun e => users e.mapped.cbs)).count w = Wl w l := by
      intro l
      induction l with
      | nil => rfl
      | cons a l ih => simp only [List.flatMap_cons, List.count_append, ih, Wl, List.map_cons, List.sum_cons, wt]
    have h1' : Wl w ({ dispose cfg ({ s with tbl := s.tbl.map (fun _ => []) } : St K V E) s.ents with destroyed := true } : St K V E).ents = 0 := h1
    simp only [h1', h2, h3, List.map_nil, List.count_nil]
    omega

/-- Conservation along a history. -/
theorem Wt_hist (hc : cfg.Ok) (h : Hist K V E) (hok : HistOk cfg St.init h) (w : Nat) :
    Wt w (stateAfter cfg h) + (answeredW (outsOf cfg h)).count w + (brokenW (outsOf cfg h)).count w = (asked h).count w := by
  induction h using snoc_ind with
  | h0 => simp [outsOf, run, answeredW, brokenW, asked, stateAfter, Wt, Wl, St.init, St.ents]
  | h1 h p ih =>
    obtain ⟨e, o⟩ := p
    rw [HistOk_append] at hok
    have A := ih hok.1
    have B := Wt_step (env := e) hc (good_any hc h hok.1 e) rfl o hok.2.1 w
    rw [asked_append, outsOf_snoc, answeredW_snoc, brokenW_snoc, stateAfter_snoc, List.count_append, List.count_append, List.count_append]
    have e1 : outAt cfg h e o = (step cfg e (stateAfter cfg h) o).2 := rfl
    rw [e1]
    omega

/-- Nobody is stored in a destroyed cache. -/
theorem Wt_gone (w2 : WF2 cfg s) (hd : s.destroyed = true) (w : Nat) : Wt w s = 0 := by
  unfold Wt
  rw [w2.opD hd, Wl_zero (l := s.limbo) (fun e he => w2.lim e he)]; rfl

end Hoard
