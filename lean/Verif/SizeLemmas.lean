import Verif.ValueLemmas
/-! Counting entries that still hold something, and what eviction does to them. -/
namespace Hoard
open Spec
variable {K V E : Type} {cfg : Cfg K} {M : Md V} {s s' : St K V E} {L : Ledger K V} {env : Env V}

/-- The entry holds a value or a lookup whose result still counts. -/
def act (e : Entry K V E) : Bool := e.mapped.val?.isSome || e.mapped.live

/-- Ids of the entries that hold something. -/
def actIds (s : St K V E) : List Nat := (s.ents.filter act).map (·.id)

theorem mem_actIds {i : Nat} : i ∈ actIds s ↔ ∃ e ∈ s.ents, e.id = i ∧ act e = true := by
  simp only [actIds, List.mem_map, List.mem_filter]
  exact ⟨fun ⟨e, ⟨h1, h2⟩, h3⟩ => ⟨e, h1, h3, h2⟩, fun ⟨e, h1, h3, h2⟩ => ⟨e, ⟨h1, h2⟩, h3⟩⟩

theorem nodup_len_le {α : Type} [BEq α] [LawfulBEq α] : ∀ {l m : List α}, l.Nodup → (∀ x ∈ l, x ∈ m) → l.length ≤ m.length
  | [], _, _, _ => by simp
  | a :: l, m, hn, hs => by
    rw [List.nodup_cons] at hn
    have ha := hs a (by simp)
    have := nodup_len_le (l := l) (m := m.erase a) hn.2 (fun x hx => by
      have hne : x ≠ a := fun h => hn.1 (h ▸ hx)
      exact (List.mem_erase_of_ne hne).2 (hs x (by simp [hx])))
    rw [List.length_erase_of_mem ha] at this
    have := List.length_pos_of_mem ha
    simp; omega

theorem actIds_nodup (w : WF1 cfg s) : (actIds s).Nodup :=
  (nodup_ents w).sublist ((List.filter_sublist (l := s.ents)).map _)

theorem act_of_not_expired {e : Entry K V E} (h : e.expired env = false) (hnv : e.mapped.isVoid = false) : act e = true := by
  simp only [Entry.expired, Bool.or_eq_false_iff] at h
  unfold act
  cases hm : e.mapped <;> rw [hm] at h hnv <;> simp_all [Mapped.isVoid, Mapped.val?, Mapped.live, Mapped.expired, Mapped.holdsError]

theorem count_le_act (env : Env V) (s : St K V E) (hnv : ∀ e ∈ s.ents, e.mapped.isVoid = false) : count env s ≤ (actIds s).length := by
  unfold count actIds
  rw [List.length_map]
  have : (s.ents.filter (fun e => !e.expired env)) = (s.ents.filter act).filter (fun e => !e.expired env) := by
    rw [List.filter_filter]
    apply List.filter_congr
    intro e he
    cases hx : e.expired env
    · simp [act_of_not_expired hx (hnv e he)]
    · simp
  rw [this]
  exact List.length_filter_le _ _

theorem ShrE.act {F : Eff K V} {e e' : Entry K V E} (h : ShrE cfg env F e e') (ha : act e' = true) : act e = true := by
  simp only [Hoard.act, Bool.or_eq_true] at *
  rcases ha with ha | ha
  · obtain ⟨v, hv⟩ := Option.isSome_iff_exists.1 ha
    left; rw [h.val v hv]; rfl
  · exact .inr (h.live ha)

theorem Shr.actIds {F : Eff K V} (h : Shr cfg env F s s') : ∀ i ∈ actIds s', i ∈ actIds s := by
  intro i hi
  obtain ⟨e', he', rfl, ha⟩ := mem_actIds.1 hi
  obtain ⟨e, he, sh⟩ := h.bwd e' he'
  exact mem_actIds.2 ⟨e, he, sh.id.symm, sh.act ha⟩

theorem get__actIds (hc : cfg.Ok) (w : WF1 cfg s) (k : K) (incl : Bool) :
    ∀ i ∈ actIds (get_ cfg env s k incl).1, i ∈ actIds s := by
  rw [get__eq hc w.placed]
  cases hf : s.ents.find? (isHit cfg env k incl) with
  | none => exact (walked_shr (F := {}) w k incl).actIds
  | some e =>
    obtain ⟨_, _, hx, _⟩ := hit_facts hf
    have hm := hit_mem_walked (cfg := cfg) hf
    have h1 := onHit_shr (env := env) (F := { hit := fun _ => True }) hc (walked_wf1 w env k incl) hm hx (.inl trivial)
    exact fun i hi => (walked_shr (F := {}) w k incl).actIds i (h1.actIds i hi)

theorem expire_actIds (hc : cfg.Ok) (w : WF1 cfg s) (k : K) : ∀ i ∈ actIds (expire_ cfg env s k), i ∈ actIds s :=
  (expire_shr (env := env) (F := { die := fun _ _ _ => True }) hc w k (fun _ _ _ _ => trivial)).actIds

theorem clear_actIds (w : WF1 cfg s) : ∀ i ∈ actIds (clear cfg s), i ∈ actIds s :=
  (clear_shr (env := ⟨⟨0, 0⟩, fun _ => true⟩) (F := { die := fun _ _ _ => True }) w (fun _ _ _ => trivial)).actIds

theorem beforeLink_actIds (w : WF1 cfg s) : ∀ i ∈ actIds (beforeLink cfg env s), i ∈ actIds s :=
  (beforeLink_shr (env := env) (F := {}) w).actIds

theorem link_actIds (w : WF1 cfg s) {e : Entry K V E} (he : e.id = s.nextId) :
    ∀ i ∈ actIds (link cfg env s e), i = s.nextId ∨ i ∈ actIds s := by
  obtain ⟨_, r, _⟩ := link_spc (F := ({} : Eff K V)) env w he
  intro i hi
  obtain ⟨e', he', rfl, ha⟩ := mem_actIds.1 hi
  by_cases hx : e'.id = e.id
  · exact .inl (hx.trans he)
  · obtain ⟨e0, h0, sh⟩ := r.bwd e' he' hx
    exact .inr (mem_actIds.2 ⟨e0, h0, sh.id.symm, sh.act ha⟩)

/-- The recency queue after linking a new entry: the new entry is the first of the
cold half. -/
theorem link_bq (w : WF1 cfg s) {e : Entry K V E} (he : e.id = s.nextId) (hm : cfg.maxSize.isSome = true) :
    ∃ hs cs, (link cfg env s e).bq.Shape hs (s.nextId :: cs) := by
  have hw := maybeRehash_wf1 w env
  have hs := maybeRehash_same cfg env s
  obtain ⟨⟨hs0, cs0, sh⟩, hp⟩ := hw.bq hm
  have hnew : e.id ∉ (maybeRehash cfg env s).bq.q := by
    intro hmem
    obtain ⟨x, hx, hxe⟩ := List.mem_map.1 (hp.mem_iff.1 hmem)
    have := hw.lt x (List.mem_append_left _ hx)
    rw [hs.nextId] at this; omega
  obtain ⟨hs1, cs1, h1, _⟩ := BQ.shape_onCreate sh hnew
  refine ⟨hs1, cs1, ?_⟩
  rw [← he]
  have : (link cfg env s e).bq = ((maybeRehash cfg env s).bq.onCreate e.id).1 := by
    have h2 : (onCreate cfg env { maybeRehash cfg env s with tbl := place cfg (maybeRehash cfg env s).tbl e, nextId := (maybeRehash cfg env s).nextId + 1 } e.id).bq
        = ((maybeRehash cfg env s).bq.onCreate e.id).1 := by
      unfold onCreate
      rw [if_pos hm]
      simp only
      split <;> rfl
    unfold link
    simp only
    split
    · exact h2
    · rw [← h2]
      unfold onAssign
      simp only
      split <;> rfl
  rw [this]; exact h1

theorem evUpd_not_act (hw : cfg.weaken = false) (e : Entry K V E) : act (evUpd cfg e) = false := by
  unfold act evUpd
  simp only [hw, Entry.upd]
  cases e.mapped <;> simp [Mapped.markExpired, Mapped.val?, Mapped.live]

/-- After an eviction at most `N` entries hold something, or the whole cold half
holds nothing. -/
theorem maintenance_act (hw : cfg.weaken = false) (w : WF1 cfg s) {N : Nat} (hN : cfg.maxSize = some N) {hs cs : List Nat}
    (sh : s.bq.Shape hs cs) :
    (actIds (maintenance cfg s)).length ≤ N ∨ ∀ x ∈ cs, x ∉ actIds (maintenance cfg s) := by
  have hv : ∀ i ∈ actIds (maintenance cfg s), i ∈ actIds s ∧ i ∉ s.bq.victims (s.size - N) := by
    intro i hi
    obtain ⟨e', he', rfl, ha⟩ := mem_actIds.1 hi
    rw [maintenance_ents w] at he'
    obtain ⟨e, he, rfl⟩ := List.mem_map.1 he'
    have hvi : victimIds cfg s = s.bq.victims (s.size - N) := by simp [victimIds, hN]
    rw [hvi] at ha
    split at ha
    · rw [evUpd_not_act hw] at ha; cases ha
    · rename_i hn
      rw [hvi, if_neg hn]
      exact ⟨mem_actIds.2 ⟨e, he, rfl, ha⟩, hn⟩
  have hp := (w.bq (by simp [hN])).2
  have hsz : s.size = hs.length + cs.length := by
    have := hp.length_eq
    rw [sh.q] at this
    simp [St.size] at this ⊢; omega
  have hvs := fun x => BQ.mem_victims sh (s.size - N) x
  by_cases hle : s.size - N ≤ cs.length
  · left
    have hsub : ∀ i ∈ actIds (maintenance cfg s), i ∈ hs ++ cs.take (cs.length - (s.size - N)) := by
      intro i hi
      obtain ⟨h1, h2⟩ := hv i hi
      rw [hvs] at h2
      obtain ⟨e, he, rfl, _⟩ := mem_actIds.1 h1
      have := hp.mem_iff.2 (List.mem_map.2 ⟨e, he, rfl⟩)
      rw [sh.q, List.mem_append] at this
      rw [List.mem_append]
      rcases this with h | h
      · exact .inl h
      · rw [← List.take_append_drop (cs.length - (s.size - N)) cs, List.mem_append] at h
        rcases h with h | h
        · exact .inr h
        · exact absurd h h2
    have := nodup_len_le (actIds_nodup (maintenance_wf1 w)) hsub
    rw [List.length_append, List.length_take] at this
    have hh := sh.lens
    omega
  · right
    intro x hx hx'
    apply (hv x hx').2
    rw [hvs, show cs.length - (s.size - N) = 0 by omega]
    exact hx

theorem maintenance_actIds (w : WF1 cfg s) : ∀ i ∈ actIds (maintenance cfg s), i ∈ actIds s :=
  (maintenance_shr ⟨⟨0, 0⟩, fun _ => true⟩ w).actIds

/-- Linking one entry and evicting keeps the bound. -/
theorem link_maintenance_le (hw : cfg.weaken = false) (w : WF1 cfg s) {N : Nat} (hN : cfg.maxSize = some N) {e : Entry K V E} (he : e.id = s.nextId)
    (hb : (actIds s).length ≤ N) : (actIds (maintenance cfg (link cfg env s e))).length ≤ N := by
  obtain ⟨hs, cs, sh⟩ := link_bq (env := env) w he (by simp [hN])
  have wl := (link_spec env w he).1
  rcases maintenance_act hw wl hN sh with h | h
  · exact h
  · refine Nat.le_trans (nodup_len_le (actIds_nodup (maintenance_wf1 wl)) ?_) hb
    intro i hi
    rcases link_actIds (env := env) w he i (maintenance_actIds wl i hi) with rfl | h1
    · exact absurd hi (h _ (by simp))
    · exact h1

theorem maintenance_le (w : WF1 cfg s) {n : Nat} (hb : (actIds s).length ≤ n) : (actIds (maintenance cfg s)).length ≤ n :=
  Nat.le_trans (nodup_len_le (actIds_nodup (maintenance_wf1 w)) (maintenance_actIds w)) hb

/-- One step of a cache without resolver keeps the bound. -/
theorem step_le (hc : cfg.Ok) (hw : cfg.weaken = false) (hr : cfg.resolver = .none) {N : Nat} (hN : cfg.maxSize = some N) {X}
    (h : Good cfg M X s L) (hb : (actIds s).length ≤ N) (o : Op K V E) (ho : o.ok cfg s) :
    (actIds (step cfg M.env s o).1).length ≤ N := by
  have w := h.wf1
  have hop : s.opens = [] := (h.wf2.noA (by simp [hr])).1
  have le : ∀ {s' : St K V E}, WF1 cfg s' → (∀ i ∈ actIds s', i ∈ actIds s) → (actIds s').length ≤ N :=
    fun w' hs => Nat.le_trans (nodup_len_le (actIds_nodup w') hs) hb
  have hlink : ∀ {s1 : St K V E} (f : Fail) (e : Entry K V E), WF1 cfg s1 → (∀ i ∈ actIds s1, i ∈ actIds s) → e.id = s1.nextId →
      (actIds (if (tryLink cfg M.env s1 e f).2 then maintenance cfg (tryLink cfg M.env s1 e f).1 else (tryLink cfg M.env s1 e f).1)).length ≤ N := by
    intro s1 f e w1 hs1 he
    rcases tryLink_cases cfg M.env s1 e f with hh | hh | hh <;> rw [hh] <;> simp only [if_true, Bool.false_eq_true, if_false]
    · exact link_maintenance_le hw w1 hN he (le w1 hs1)
    · exact le w1 hs1
    · exact le (beforeLink_wf1 w1 _) (fun i hi => hs1 i (beforeLink_actIds w1 i hi))
  cases o with
  | getIfExists k => exact hb
  | count => exact hb
  | get k r =>
    have h1 := get__actIds (env := M.env) hc w k false
    have w1 := get__wf1 hc w M.env k false
    simp only [step, get]
    generalize get_ cfg M.env s k false = g at *
    obtain ⟨s1, l⟩ := g
    simp only [hr] at *
    cases l <;> exact le w1 h1
  | asyncGet k w b => rw [Op.ok, hr] at ho; cases ho.1
  | tick r b => rw [Op.ok, hr] at ho; exact absurd rfl ho.1
  | complete t r => simp only [step, complete, hop, List.not_mem_nil, if_false]; exact hb
  | drop t => simp only [step, drop, hop, List.not_mem_nil, if_false]; exact hb
  | erase k => exact le (expire_wf1 hc w M.env k) (expire_actIds hc w k)
  | clear => exact le (clear_wf1 w) (clear_actIds w)
  | destroy => simp only [step]; unfold actIds; rw [destroy_ents]; simp
  | emplace k v f =>
    have hs := expire_same cfg s M.env k
    have := hlink (s1 := expire_ cfg M.env s k) f (newEntry (expire_ cfg M.env s k) k (.value v)) (expire_wf1 hc w M.env k) (expire_actIds hc w k) rfl
    simp only [step, emplace]
    split <;> simp_all
  | getOrEmplace k v f =>
    have h1 := get__actIds (env := M.env) hc w k true
    have w1 := get__wf1 hc w M.env k true
    simp only [step, getOrEmplace]
    generalize get_ cfg M.env s k true = g at *
    obtain ⟨s1, l⟩ := g
    simp only at *
    cases l with
    | none =>
      have := hlink (s1 := s1) f (newEntry s1 k (.value v)) w1 h1 rfl
      simp only
      split <;> simp_all
    | val u => exact maintenance_le w1 (le w1 h1)
    | err u => exact maintenance_le w1 (le w1 h1)
    | pend => exact maintenance_le w1 (le w1 h1)

theorem act_bounded (hc : cfg.Ok) (hw : cfg.weaken = false) (hr : cfg.resolver = .none) {N : Nat} (hN : cfg.maxSize = some N)
    (h : Hist K V E) (hok : HistOk cfg St.init h) : (actIds (stateAfter cfg h)).length ≤ N := by
  induction h using snoc_ind with
  | h0 => simp [actIds, St.init, St.ents]
  | h1 h p ih =>
    obtain ⟨e, o⟩ := p
    obtain ⟨h1, h2⟩ := HistOk_append.1 hok
    rw [stateAfter_snoc]
    exact step_le (M := ⟨False, False, e, True⟩) hc hw hr hN (good_any hc h h1 e) (ih h1) o h2.1

/-- Keys that are pairwise different and all found need as many entries. -/
theorem keys_le (hc : cfg.Ok) {X} (h : Good cfg M X s L) (env : Env V) (ks : List K) (hd : ks.Pairwise (fun a b => cfg.eqv a b = false))
    (hf : ∀ k ∈ ks, ∃ v, (getIfExists cfg env s k).ret = .val v) : ks.length ≤ (actIds s).length := by
  have : ∃ is : List Nat, is.length = ks.length ∧ is.Nodup ∧ ∀ i ∈ is, ∃ e ∈ s.ents, e.id = i ∧ act e = true ∧ ∃ k ∈ ks, cfg.eqv e.key k = true := by
    induction ks with
    | nil => exact ⟨[], rfl, List.nodup_nil, by simp⟩
    | cons k ks ih =>
      rw [List.pairwise_cons] at hd
      obtain ⟨is, h1, h2, h3⟩ := ih hd.2 (fun k hk => hf k (by simp [hk]))
      obtain ⟨v, hv⟩ := hf k (by simp)
      obtain ⟨e, he, hk, hx, hv⟩ := (peek_val hc h env k v).1 hv
      refine ⟨e.id :: is, by simp [h1], ?_, ?_⟩
      · rw [List.nodup_cons]
        refine ⟨?_, h2⟩
        intro hm
        obtain ⟨e2, he2, hid, _, k2, hk2, hek2⟩ := h3 _ hm
        have := eq_of_id h.wf1 he2 he hid
        subst this
        have := hd.1 k2 hk2
        rw [hc.trans _ _ _ (hc.symm _ _ hk) hek2] at this; cases this
      · intro i hi
        rcases List.mem_cons.1 hi with rfl | hi
        · exact ⟨e, he, rfl, by simp [act, hv], k, by simp, hk⟩
        · obtain ⟨e2, a, b, c, k2, d, f⟩ := h3 i hi
          exact ⟨e2, a, b, c, k2, by simp [d], f⟩
  obtain ⟨is, h1, h2, h3⟩ := this
  rw [← h1]
  refine nodup_len_le h2 (fun i hi => ?_)
  obtain ⟨e, he, hid, ha, _⟩ := h3 i hi
  exact mem_actIds.2 ⟨e, he, hid, ha⟩

end Hoard
