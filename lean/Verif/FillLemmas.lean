import Verif.EvictLemmas
/-! How lookups change the number of entries. -/
namespace Hoard
open Spec
variable {K V E : Type} {cfg : Cfg K} {M : Md V} {s s' : St K V E} {L : Ledger K V} {env : Env V}

/-- Ids of the entries that are not expired. -/
def nxIds (env : Env V) (s : St K V E) : List Nat := (s.ents.filter (fun e => !e.expired env)).map (·.id)

theorem count_nx (env : Env V) (s : St K V E) : count env s = (nxIds env s).length := by simp [count, nxIds]

theorem mem_nxIds {i : Nat} : i ∈ nxIds env s ↔ ∃ e ∈ s.ents, e.id = i ∧ e.expired env = false := by
  simp only [nxIds, List.mem_map, List.mem_filter, Bool.not_eq_true']
  exact ⟨fun ⟨e, ⟨h1, h2⟩, h3⟩ => ⟨e, h1, h3, h2⟩, fun ⟨e, h1, h3, h2⟩ => ⟨e, ⟨h1, h2⟩, h3⟩⟩

theorem nxIds_nodup (w : WF1 cfg s) : (nxIds env s).Nodup :=
  (nodup_ents w).sublist ((List.filter_sublist (l := s.ents)).map _)

theorem ShrE.nx {F : Eff K V} {e e' : Entry K V E} (h : ShrE cfg env F e e') (ha : e'.expired env = false) : e.expired env = false := by
  cases hx : e.expired env
  · rfl
  · rw [h.exd hx] at ha; cases ha

theorem Shr.nx {F : Eff K V} (h : Shr cfg env F s s') : ∀ i ∈ nxIds env s', i ∈ nxIds env s := by
  intro i hi
  obtain ⟨e', he', rfl, ha⟩ := mem_nxIds.1 hi
  obtain ⟨e, he, sh⟩ := h.bwd e' he'
  exact mem_nxIds.2 ⟨e, he, sh.id.symm, sh.nx ha⟩

theorem Spc.nx {F : Eff K V} {x : Nat} (h : Spc cfg env F x s s') : ∀ i ∈ nxIds env s', i = x ∨ i ∈ nxIds env s := by
  intro i hi
  obtain ⟨e', he', rfl, ha⟩ := mem_nxIds.1 hi
  by_cases hx : e'.id = x
  · exact .inl hx
  · obtain ⟨e, he, sh⟩ := h.bwd e' he' hx
    exact .inr (mem_nxIds.2 ⟨e, he, sh.id.symm, sh.nx ha⟩)

theorem get__shr (hc : cfg.Ok) (w : WF1 cfg s) (k : K) (incl : Bool) :
    Shr cfg env { hit := fun _ => True } s (get_ cfg env s k incl).1 := by
  rw [get__eq hc w.placed]
  cases hf : s.ents.find? (isHit cfg env k incl) with
  | none => exact walked_shr w k incl
  | some e =>
    obtain ⟨_, _, hx, _⟩ := hit_facts hf
    have hm := hit_mem_walked (cfg := cfg) hf
    exact (walked_shr w k incl).trans (onHit_shr hc (walked_wf1 w env k incl) hm hx (.inl trivial))

theorem count_le_one (w : WF1 cfg s') {x : Nat} (h : ∀ i ∈ nxIds env s', i = x ∨ i ∈ nxIds env s) : count env s' ≤ count env s + 1 := by
  rw [count_nx, count_nx]
  have := nodup_len_le (m := x :: nxIds env s) (nxIds_nodup w) (by simpa using h)
  simpa using this

theorem count_le_shr (w : WF1 cfg s') (h : ∀ i ∈ nxIds env s', i ∈ nxIds env s) : count env s' ≤ count env s := by
  rw [count_nx, count_nx]; exact nodup_len_le (nxIds_nodup w) h

theorem addCb_nx (env : Env V) (s : St K V E) (i w : Nat) : count env (s.modify i (·.upd (.addCb (.user w)))) = count env s := by
  unfold count
  rw [ents_modify, List.filter_map, List.length_map]
  congr 1
  apply List.filter_congr
  intro e _
  simp only [Function.comp, atId]
  split
  · simp only [Entry.upd, Entry.expired]
    cases e.mapped <;> rfl
  · rfl

theorem answer_count (env : Env V) (s : St K V E) (i w : Nat) (l : Look V E) : count env (answer s i w l).1 = count env s := by
  cases l <;> simp only [answer]
  exact addCb_nx env s i w

/-- A lookup adds at most as many live entries as it asked the resolver for. -/
theorem lookup_count (hc : cfg.Ok) {X} (h : Good cfg ⟨False, False, env, True⟩ X s L) (o : Op K V E) (ho : o.ok cfg s)
    (hget : (∃ k r, o = .get k r) ∨ ∃ k w b, o = .asyncGet k w b) :
    count env (step cfg env s o).1 ≤ count env s + (step cfg env s o).2.calls.length := by
  have w := h.wf1
  rcases hget with ⟨k, r, rfl⟩ | ⟨k, x, b, rfl⟩
  · have h1 := get__shr (env := env) hc w k false
    have w1 := get__wf1 hc w env k false
    simp only [step, get]
    generalize get_ cfg env s k false = g at *
    obtain ⟨s1, l⟩ := g
    simp only at *
    have h2 := count_le_shr w1 h1.nx
    cases hr : cfg.resolver with
    | async => exact absurd hr ho.1
    | none => cases l <;> exact h2
    | sync =>
      cases l with
      | none =>
        simp only
        obtain ⟨wl, hs, _⟩ := link_spc (F := ({} : Eff K V)) env w1 (e := newEntry s1 k (syncMapped r)) rfl
        have := count_le_one wl hs.nx
        exact Nat.le_trans this (by simpa using h2)
      | val _ => exact h2
      | err _ => exact h2
      | pend => exact h2
  · have h1 := get__shr (env := env) hc w k true
    have w1 := get__wf1 hc w env k true
    have hok := get__ok hc h k true (.inl rfl)
    have h2 := count_le_shr w1 h1.nx
    simp only [step]
    rw [asyncGet_eq hc w.placed]
    cases hf : s.ents.find? (isHit cfg env k true) with
    | some e =>
      simp only
      rw [answer_count]
      exact Nat.le_trans h2 (Nat.le_add_right _ _)
    | none =>
      simp only
      rw [answer_count]
      have hg : Good cfg ⟨False, False, env, True⟩ X (get_ cfg env s k true).1 L := by
        rcases hok.2.2 with ⟨v, hv, _⟩ | ⟨hv, _⟩ | ⟨_, hg, _⟩
        · simp only [get__eq hc w.placed, hf] at hv; cases hv
        · simp only [get__eq hc w.placed, hf] at hv; cases hv
        · exact hg
      obtain ⟨_, w2, hs, _⟩ := resolveAsync_spc (F := ({} : Eff K V)) env hg.wf1 hg.wf2 (hok.1.trans ho.2) k b
      have := count_le_one w2 hs.nx
      simp only [List.length_singleton]
      omega

/-! ### A cache filled by its resolver -/

/-- Every entry holds a value without deadlines. -/
def Lasting (s : St K V E) : Prop := ∀ e ∈ s.ents, (∃ v, e.mapped = .value v) ∧ e.expTp = none ∧ e.canTp = none

theorem Lasting.live (h : Lasting s) {e : Entry K V E} (he : e ∈ s.ents) (env : Env V) : e.expired env = false := by
  obtain ⟨⟨v, h1⟩, h2, h3⟩ := h e he
  simp [Entry.expired, h1, h2, h3, Mapped.expired, Mapped.holdsError, reached]

theorem Lasting.drops {l : List (Entry K V E)} (h : Lasting s) (hd : Drops env s.ents l) : s.ents.Perm l := by
  obtain ⟨rem, hp, hs⟩ := hd
  have : rem = [] := by
    cases rem with
    | nil => rfl
    | cons e rem =>
      have h1 := hs e (by simp)
      have h2 := h.live (hp.mem_iff.2 (by simp : e ∈ l ++ e :: rem)) env
      simp [stale, h2] at h1
  subst this; simpa using hp

theorem Lasting.count (h : Lasting s) (env : Env V) : count env s = s.size := by
  unfold Hoard.count St.size
  congr 1
  rw [List.filter_eq_self]
  intro e he; simp [h.live he env]

/-- Asking for a new key adds an entry. -/
theorem get_adds (hc : cfg.Ok) (ha : cfg.maxAge = none) (hr : cfg.refresh = none) (hk : cfg.resolver = .sync) (w : WF1 cfg s) (h : Lasting s)
    (k : K) (v : V) (hnew : ∀ e ∈ s.ents, cfg.eqv e.key k = false) :
    WF1 cfg (get cfg env s k (.ok v)).1 ∧ Lasting (get cfg env s k (.ok v)).1 ∧ (get cfg env s k (.ok v)).1.size = s.size + 1 ∧
    (∀ e ∈ (get cfg env s k (.ok v)).1.ents, e.key = k ∨ ∃ e0 ∈ s.ents, e0.key = e.key) ∧ (get cfg env s k (.ok v)).1.destroyed = s.destroyed := by
  have hf : s.ents.find? (isHit cfg env k false) = none := by
    rw [List.find?_eq_none]; intro e he hh
    simp [isHit, hnew e he] at hh
  have hg : get_ cfg env s k false = (walked cfg env s k false, .none) := by rw [get__eq hc w.placed, hf]
  have hge : get cfg env s k (.ok v) = (link cfg env (walked cfg env s k false) (newEntry (walked cfg env s k false) k (.value v)),
      { ret := .val v, calls := [(k, (walked cfg env s k false).nextId)] }) := by
    unfold get
    rw [hg]
    simp only [hk]
    rfl
  rw [hge]
  simp only
  have w1 := walked_wf1 w env k false
  have p1 := h.drops (walked_drops (cfg := cfg) s env k false)
  have hl1 : Lasting (walked cfg env s k false) := fun e he => h e (p1.mem_iff.2 he)
  have hds := (walked_same cfg s env k false).destroyed
  generalize walked cfg env s k false = s1 at *
  obtain ⟨wl, _, hd, _, kept, o, hdr, hp, _⟩ := link_spec env w1 (e := newEntry s1 k (.value v)) rfl
  have p2 := hl1.drops hdr
  have hcre : kept.map (creUpd o env) = kept := by
    conv => rhs; rw [← List.map_id kept]
    apply List.map_congr_left
    intro e he
    obtain ⟨⟨u, hu⟩, _⟩ := hl1 e (p2.mem_iff.2 he)
    unfold creUpd
    split
    · simp only [Entry.upd, hu, Mapped.strengthen, id]
      rw [← hu]
    · rfl
  rw [hcre] at hp
  have hlu : linkUpd cfg env (newEntry s1 k (.value v : Mapped V E)) = newEntry s1 k (.value v) := by
    simp [linkUpd, Entry.isPending, newEntry, Mapped.isPending, assignTimes, hr, ageTp, ha, Mapped.holdsValue]
  rw [hlu] at hp
  refine ⟨wl, ?_, ?_, ?_, hd.trans hds⟩
  · intro e he
    rcases List.mem_append.1 (hp.mem_iff.1 he) with h1 | h1
    · exact hl1 e (p2.mem_iff.2 h1)
    · simp at h1; subst h1; exact ⟨⟨v, rfl⟩, rfl, rfl⟩
  · unfold St.size
    rw [hp.length_eq, List.length_append, ← p2.length_eq, ← p1.length_eq]; rfl
  · intro e he
    rcases List.mem_append.1 (hp.mem_iff.1 he) with h1 | h1
    · exact .inr ⟨e, p1.mem_iff.2 (p2.mem_iff.2 h1), rfl⟩
    · simp at h1; subst h1; exact .inl rfl

end Hoard
