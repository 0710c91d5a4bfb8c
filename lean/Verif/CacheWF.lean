import Verif.CacheLemmas
/-! Structural well-formedness of the cache state. -/
namespace Hoard
variable {K V E : Type}

/-- Id and key of an entry. -/
def ik (e : Entry K V E) : Nat × K := (e.id, e.key)

/-- Structural invariant. -/
structure WF1 (cfg : Cfg K) (s : St K V E) : Prop where
  ids : ((s.ents ++ s.limbo).map (·.id)).Nodup
  lt : ∀ e ∈ s.ents ++ s.limbo, e.id < s.nextId
  placed : Placed cfg s.tbl
  sorted : ∀ c, ((s.ents.filter (fun e => cfg.hash e.key == c)).map (·.id)).Pairwise (· < ·)
  bq : cfg.maxSize.isSome = true → s.bq.Inv ∧ s.bq.q.Perm (s.ents.map (·.id))
  dqN : s.delayQ.Nodup
  dqM : ∀ i ∈ s.delayQ, i ∈ s.ents.map (·.id)

theorem map_id_of_ik {l l' : List (Entry K V E)} (h : l.map ik = l'.map ik) : l.map (·.id) = l'.map (·.id) := by
  have := congrArg (List.map Prod.fst) h
  simpa [ik, Function.comp_def] using this

theorem filter_hash_ik (cfg : Cfg K) (l : List (Entry K V E)) (c : Nat) :
    (l.filter (fun e => cfg.hash e.key == c)).map (·.id) =
      (((l.map ik).filter (fun p => cfg.hash p.2 == c)).map Prod.fst) := by
  rw [List.filter_map, List.map_map]; rfl

theorem ents_ik (s : St K V E) : s.ents.map ik = (s.tbl.map (·.map ik)).flatten := by
  rw [St.ents, List.map_flatten]

theorem wf1_init (cfg : Cfg K) : WF1 cfg (St.init : St K V E) where
  ids := by simp [St.init, St.ents]
  lt := by simp [St.init, St.ents]
  placed := by intro i b hb; simp [St.init] at hb
  sorted := by simp [St.init, St.ents]
  bq := fun _ => ⟨BQ.inv_init, by simp [St.init, St.ents]⟩
  dqN := by simp [St.init]
  dqM := by simp [St.init]

theorem WF1.congr {cfg : Cfg K} {s s' : St K V E} (h : WF1 cfg s)
    (ht : s'.tbl.map (·.map ik) = s.tbl.map (·.map ik)) (hl : s'.limbo.map (·.id) = s.limbo.map (·.id))
    (hb : s'.bq = s.bq) (hd : s'.delayQ = s.delayQ) (hn : s'.nextId = s.nextId) : WF1 cfg s' := by
  have he : s'.ents.map ik = s.ents.map ik := by rw [ents_ik, ents_ik, ht]
  have hi := map_id_of_ik he
  have hall : (s'.ents ++ s'.limbo).map (·.id) = (s.ents ++ s.limbo).map (·.id) := by
    rw [List.map_append, List.map_append, hi, hl]
  refine ⟨by rw [hall]; exact h.ids, ?_, ?_, ?_, ?_, by rw [hd]; exact h.dqN, by rw [hd, hi]; exact h.dqM⟩
  · intro e hem
    have : e.id ∈ (s.ents ++ s.limbo).map (·.id) := by
      rw [← hall]; exact List.mem_map.2 ⟨e, hem, rfl⟩
    obtain ⟨e0, h0, h1⟩ := List.mem_map.1 this
    rw [hn, ← h1]; exact h.lt e0 h0
  · have : Buckets.Placed (fun p : Nat × K => cfg.hash p.2) (s'.tbl.map (·.map ik)) := by
      rw [ht]; exact Buckets.Placed.map.2 h.placed
    exact Buckets.Placed.map (f := ik) (h := fun p : Nat × K => cfg.hash p.2) |>.1 this
  · intro c
    rw [filter_hash_ik, he, ← filter_hash_ik]; exact h.sorted c
  · intro hm; rw [hb, hi]; exact h.bq hm

theorem tbl_modify_ik (s : St K V E) (i : Nat) {f} (hf : IdKey f) :
    (s.modify i f).tbl.map (·.map ik) = s.tbl.map (·.map ik) := by
  simp only [St.modify, List.map_map]
  apply List.map_congr_left
  intro b _
  simp only [Function.comp_apply, List.map_map]
  apply List.map_congr_left
  intro e _
  simp only [Function.comp_apply]
  split
  · simp [ik, hf e]
  · rfl

theorem limbo_modify_id (s : St K V E) (i : Nat) {f} (hf : IdKey f) :
    (s.modify i f).limbo.map (·.id) = s.limbo.map (·.id) := by
  simp only [St.modify, List.map_map]
  apply List.map_congr_left
  intro e _
  simp only [Function.comp_apply]
  split
  · exact (hf e).1
  · rfl

theorem WF1.modify {cfg : Cfg K} {s : St K V E} (h : WF1 cfg s) (i : Nat) {f} (hf : IdKey f) : WF1 cfg (s.modify i f) :=
  h.congr (tbl_modify_ik s i hf) (limbo_modify_id s i hf) rfl rfl rfl

/-! ### Removing entries -/

theorem foldl_erase_nodup (l : List Nat) : ∀ q : List Nat, q.Nodup →
    (l.foldl List.erase q).Nodup ∧ ∀ x, x ∈ l.foldl List.erase q ↔ x ∈ q ∧ x ∉ l := by
  induction l with
  | nil => intro q h; simp [h]
  | cons a l ih =>
    intro q h
    obtain ⟨h1, h2⟩ := ih (q.erase a) (h.erase a)
    refine ⟨h1, fun x => ?_⟩
    rw [List.foldl_cons, h2, h.mem_erase_iff, List.mem_cons]
    constructor
    · rintro ⟨⟨h3, h4⟩, h5⟩; exact ⟨h4, fun h => h.elim h3 h5⟩
    · rintro ⟨h4, h5⟩; exact ⟨⟨fun h => h5 (.inl h), h4⟩, fun h => h5 (.inr h)⟩

theorem foldl_onUnlink (l : List Nat) : ∀ (b : BQ) (r : List Nat), b.Inv → b.q.Perm (r ++ l) → (r ++ l).Nodup →
    (l.foldl BQ.onUnlink b).Inv ∧ (l.foldl BQ.onUnlink b).q.Perm r := by
  induction l with
  | nil => intro b r hi hp _; exact ⟨hi, by simpa using hp⟩
  | cons a l ih =>
    intro b r ⟨hs, cs, hsh⟩ hp hn
    have ha : a ∈ b.q := hp.mem_iff.2 (by simp)
    obtain ⟨hs', cs', h1, h2⟩ := BQ.shape_onUnlink hsh ha
    apply ih (b.onUnlink a) r ⟨hs', cs', h1⟩
    · rw [h1.q, h2, ← hsh.q]
      refine (hp.erase a).trans ?_
      have : (r ++ a :: l).erase a = r ++ l := by
        rw [List.nodup_append] at hn
        have har : a ∉ r := fun h => hn.2.2 a h a (by simp) rfl
        rw [List.erase_append_right _ har]; simp
      rw [this]
    · exact hn.sublist (by simp)

theorem WF1.remove {cfg : Cfg K} {s : St K V E} (h : WF1 cfg s) {t' : List (List (Entry K V E))}
    {rem : List (Entry K V E)} (hl : t'.length = s.tbl.length)
    (hsub : ∀ (i : Nat) (b b' : List (Entry K V E)), s.tbl[i]? = some b → t'[i]? = some b' → (b'.map ik).Sublist (b.map ik))
    (hp : (s.ents.map ik).Perm (t'.flatten.map ik ++ rem.map ik)) :
    WF1 cfg (dispose cfg { s with tbl := t' } rem) := by
  obtain ⟨f1, f2, f3, f4, f5, f6, f7⟩ := dispose_fields cfg rem { s with tbl := t' }
  have hent : (dispose cfg { s with tbl := t' } rem).ents = t'.flatten := by rw [St.ents, f1]
  have hpid : (s.ents.map (·.id)).Perm (t'.flatten.map (·.id) ++ rem.map (·.id)) := by
    have := hp.map Prod.fst
    simpa [ik, Function.comp_def] using this
  have hall : ((s.ents ++ s.limbo).map (·.id)).Perm
      (((dispose cfg { s with tbl := t' } rem).ents ++ (dispose cfg { s with tbl := t' } rem).limbo).map (·.id)) := by
    rw [hent, f2]
    simp only [List.map_append, List.map_map]
    refine (hpid.append_right _).trans ?_
    rw [List.append_assoc]
    refine List.Perm.append_left _ ?_
    exact List.perm_append_comm
  have hsubl : ∀ (t t' : List (List (Entry K V E))), t'.length = t.length →
      (∀ (i : Nat) (b b' : List (Entry K V E)), t[i]? = some b → t'[i]? = some b' → (b'.map ik).Sublist (b.map ik)) →
      (t'.flatten.map ik).Sublist (t.flatten.map ik) := by
    intro t
    induction t with
    | nil => intro t' hl _; simp at hl; subst hl; simp
    | cons b t ih =>
      intro t' hl hs
      cases t' with
      | nil => simp at hl
      | cons b' t' =>
        simp only [List.flatten_cons, List.map_append]
        exact (hs 0 b b' (by simp) (by simp)).append (ih t' (by simpa using hl)
          (fun i b b' h1 h2 => hs (i + 1) b b' (by simpa using h1) (by simpa using h2)))
  have hsl := hsubl s.tbl t' hl hsub
  refine ⟨hall.nodup_iff.1 h.ids, ?_, ?_, ?_, ?_, ?_, ?_⟩
  · intro e he
    have : e.id ∈ (s.ents ++ s.limbo).map (·.id) := hall.mem_iff.2 (List.mem_map.2 ⟨e, he, rfl⟩)
    obtain ⟨e0, h0, h1⟩ := List.mem_map.1 this
    rw [f3, ← h1]; exact h.lt e0 h0
  · unfold Placed
    rw [f1]
    have : Buckets.Placed (fun p : Nat × K => cfg.hash p.2) (t'.map (·.map ik)) := by
      apply (Buckets.Placed.map.2 h.placed : Buckets.Placed (fun p : Nat × K => cfg.hash p.2) (s.tbl.map (·.map ik))).sub
      · simp [hl]
      · intro i b b' hb hb' x hx
        simp only [List.getElem?_map, Option.map_eq_some_iff] at hb hb'
        obtain ⟨b0, hb0, rfl⟩ := hb
        obtain ⟨b0', hb0', rfl⟩ := hb'
        exact (hsub i b0 b0' hb0 hb0').subset hx
    exact Buckets.Placed.map (f := ik) (h := fun p : Nat × K => cfg.hash p.2) |>.1 this
  · intro c
    rw [hent, filter_hash_ik]
    have h1 := h.sorted c
    rw [filter_hash_ik] at h1
    exact h1.sublist ((hsl.filter _).map _)
  · intro hm
    obtain ⟨hi, hq⟩ := h.bq hm
    rw [f7, if_pos hm, hent]
    refine foldl_onUnlink _ _ _ hi (hq.trans hpid) ?_
    exact hpid.nodup_iff.1 (by
      have := h.ids
      rw [List.map_append, List.nodup_append] at this
      exact this.1)
  · rw [f6]; exact (foldl_erase_nodup _ _ h.dqN).1
  · rw [f6]
    intro i hi
    obtain ⟨h1, h2⟩ := ((foldl_erase_nodup _ _ h.dqN).2 i).1 hi
    have := hpid.mem_iff.1 (h.dqM i h1)
    rw [hent]
    rcases List.mem_append.1 this with h3 | h3
    · exact h3
    · exact absurd h3 h2

theorem nodup_ents {cfg : Cfg K} {s : St K V E} (h : WF1 cfg s) : (s.ents.map (·.id)).Nodup := by
  have := h.ids
  rw [List.map_append, List.nodup_append] at this
  exact this.1

theorem eq_of_id {cfg : Cfg K} {s : St K V E} (h : WF1 cfg s) {a b : Entry K V E} (ha : a ∈ s.ents) (hb : b ∈ s.ents)
    (hab : a.id = b.id) : a = b := by
  have hn := nodup_ents h
  obtain ⟨i, hi, rfl⟩ := List.mem_iff_getElem.1 ha
  obtain ⟨j, hj, rfl⟩ := List.mem_iff_getElem.1 hb
  have : i = j := by
    rw [List.nodup_iff_pairwise_ne, List.pairwise_iff_getElem] at hn
    rcases Nat.lt_trichotomy i j with h | h | h
    · exact absurd (by rw [List.getElem_map, List.getElem_map]; exact hab) (hn i j (by simpa using hi) (by simpa using hj) h)
    · exact h
    · exact absurd (by rw [List.getElem_map, List.getElem_map]; exact hab.symm) (hn j i (by simpa using hj) (by simpa using hi) h)
  subst this; rfl

theorem not_limbo_of_ents {cfg : Cfg K} {s : St K V E} (h : WF1 cfg s) {a b : Entry K V E} (ha : a ∈ s.ents) (hb : b ∈ s.limbo) :
    a.id ≠ b.id := by
  have := h.ids
  rw [List.map_append, List.nodup_append] at this
  exact this.2.2 _ (List.mem_map.2 ⟨a, ha, rfl⟩) _ (List.mem_map.2 ⟨b, hb, rfl⟩)

/-! ### Walking a bucket -/

theorem setBucket_tbl (s : St K V E) (i : Nat) (b) : (s.setBucket i b).tbl = s.tbl.set i b := rfl

/-- Structural effect of walking one bucket. -/
theorem WF1.applyWalk {cfg : Cfg K} {s : St K V E} (h : WF1 cfg s) (i : Nat) (w : Walk K V E)
    (hsub : (w.kept.map ik).Sublist ((s.bucket i).map ik))
    (hp : ((s.bucket i).map ik).Perm (w.kept.map ik ++ w.removed.map ik)) :
    WF1 cfg (applyWalk cfg s i w) := by
  unfold Hoard.applyWalk
  by_cases hi : i < s.tbl.length
  · apply h.remove (t' := s.tbl.set i w.kept)
    · simp
    · intro j b b' hb hb'
      rw [List.getElem?_set] at hb'
      split at hb'
      · rename_i hij; subst hij
        simp only [Option.some.injEq] at hb'
        subst hb'
        rw [bucket_some hi] at hb
        injection hb with hb
        subst hb; exact hsub
      · rw [hb] at hb'; injection hb' with hb'; subst hb'; exact List.Sublist.refl _
    · have := flatten_set_perm (s.tbl.map (·.map ik)) i ((s.bucket i).map ik) (w.kept.map ik) (w.removed.map ik)
        (by simp [bucket_some hi]) hp
      rw [ents_ik, List.map_flatten, List.map_set]
      exact this
  · rw [bucket_empty (by omega)] at hp
    have hr : w.removed = [] := by
      have := hp.length_eq; simp at this; exact List.length_eq_zero_iff.1 (by omega)
    rw [hr, dispose_nil]
    have : s.tbl.set i w.kept = s.tbl := List.set_eq_of_length_le (by omega)
    exact h.congr (by simp [St.setBucket, this]) rfl rfl rfl rfl

/-! ### Adding entries -/

theorem rehash_tbl (cfg : Cfg K) (s : St K V E) (n : Nat) :
    (rehash cfg s n).tbl = Buckets.redistribute (fun e : Entry K V E => cfg.hash e.key) n s.ents := rfl

theorem rehash_perm (cfg : Cfg K) (s : St K V E) {n : Nat} (hn : 0 < n) : (rehash cfg s n).ents.Perm s.ents := by
  rw [St.ents, rehash_tbl]
  exact (Buckets.redistribute_spec _ hn _).2.2.1

theorem WF1.rehash {cfg : Cfg K} {s : St K V E} (h : WF1 cfg s) {n : Nat} (hn : 0 < n) : WF1 cfg (rehash cfg s n) := by
  obtain ⟨h1, h2, h3, h4⟩ := Buckets.redistribute_spec (fun e : Entry K V E => cfg.hash e.key) hn s.ents
  have hp := rehash_perm cfg s hn
  have hpid := hp.map (·.id)
  refine ⟨?_, ?_, h1, ?_, ?_, h.dqN, ?_⟩
  · have : ((Hoard.rehash cfg s n).ents ++ (Hoard.rehash cfg s n).limbo).map (·.id) |>.Perm ((s.ents ++ s.limbo).map (·.id)) :=
      (hp.append_right _).map _
    exact this.nodup_iff.2 h.ids
  · intro e he
    have : e ∈ s.ents ++ s.limbo := (hp.append_right s.limbo).mem_iff.1 he
    exact h.lt e this
  · intro c
    rw [St.ents, rehash_tbl, h4]; exact h.sorted c
  · intro hm
    obtain ⟨hi, hq⟩ := h.bq hm
    exact ⟨hi, hq.trans hpid.symm⟩
  · intro i hi
    exact hpid.mem_iff.2 (h.dqM i hi)

/-- Structural effect of appending a new entry. -/
theorem WF1.add {cfg : Cfg K} (env : Env V) {s : St K V E} (h : WF1 cfg s) (ht : s.tbl ≠ []) {e : Entry K V E} (he : e.id = s.nextId) :
    WF1 cfg (onCreate cfg env { s with tbl := place cfg s.tbl e, nextId := s.nextId + 1 } e.id) := by
  have hperm : (place cfg s.tbl e).flatten.Perm (s.ents ++ [e]) := Buckets.perm_place (fun e : Entry K V E => cfg.hash e.key) ht e
  have hlt : ∀ x ∈ s.ents, x.id < e.id := by
    intro x hx; rw [he]; exact h.lt x (List.mem_append_left _ hx)
  have hnew : e.id ∉ s.ents.map (·.id) := by
    intro hm; obtain ⟨x, hx, hxe⟩ := List.mem_map.1 hm
    have := hlt x hx; omega
  have hids : (((place cfg s.tbl e).flatten ++ s.limbo).map (·.id)).Nodup := by
    have : ((((place cfg s.tbl e).flatten) ++ s.limbo).map (·.id)).Perm (e.id :: (s.ents ++ s.limbo).map (·.id)) := by
      refine ((hperm.append_right _).map _).trans ?_
      simp only [List.map_append, List.map_cons, List.map_nil, List.append_assoc]
      exact List.perm_middle
    rw [this.nodup_iff, List.nodup_cons]
    refine ⟨?_, h.ids⟩
    intro hm; obtain ⟨x, hx, hxe⟩ := List.mem_map.1 hm
    have := h.lt x hx; omega
  have hltn : ∀ x ∈ (place cfg s.tbl e).flatten ++ s.limbo, x.id < s.nextId + 1 := by
    intro x hx
    rcases List.mem_append.1 hx with hx | hx
    · rcases List.mem_append.1 (hperm.mem_iff.1 hx) with hx | hx
      · have := h.lt x (List.mem_append_left _ hx); omega
      · simp at hx; subst hx; omega
    · have := h.lt x (List.mem_append_right _ hx); omega
  have hplaced : Placed cfg (place cfg s.tbl e) := Buckets.placed_place h.placed e
  have hsorted : ∀ c, (((place cfg s.tbl e).flatten.filter (fun x => cfg.hash x.key == c)).map (·.id)).Pairwise (· < ·) := by
    intro c
    have := Buckets.filter_place (h := fun e : Entry K V E => cfg.hash e.key) h.placed ht e c
    have this : (place cfg s.tbl e).flatten.filter (fun y => cfg.hash y.key == c) =
      s.ents.filter (fun y => cfg.hash y.key == c) ++ (if cfg.hash e.key = c then [e] else []) := this
    rw [this, List.map_append, List.pairwise_append]
    refine ⟨h.sorted c, by split <;> simp, ?_⟩
    intro a ha b hb
    obtain ⟨x, hx, rfl⟩ := List.mem_map.1 ha
    obtain ⟨y, hy, rfl⟩ := List.mem_map.1 hb
    split at hy
    · simp at hy; subst hy
      exact hlt x (List.mem_filter.1 hx).1
    · simp at hy
  have hdq : ∀ i ∈ s.delayQ, i ∈ (place cfg s.tbl e).flatten.map (·.id) := by
    intro i hi
    have := h.dqM i hi
    exact (hperm.map (·.id)).mem_iff.2 (by rw [List.map_append]; exact List.mem_append_left _ this)
  by_cases hm : cfg.maxSize.isSome = true
  · obtain ⟨hinv, hq⟩ := h.bq hm
    obtain ⟨hs, cs, hsh⟩ := hinv
    have hnq : e.id ∉ s.bq.q := fun h => hnew (hq.mem_iff.1 h)
    obtain ⟨hs', cs', h1, h2, h3⟩ := BQ.shape_onCreate hsh hnq
    have base : WF1 cfg { s with tbl := place cfg s.tbl e, nextId := s.nextId + 1, bq := (s.bq.onCreate e.id).1 } := by
      refine ⟨hids, hltn, hplaced, hsorted, fun _ => ⟨⟨_, _, h1⟩, ?_⟩, h.dqN, hdq⟩
      show (s.bq.onCreate e.id).1.q.Perm ((place cfg s.tbl e).flatten.map (·.id))
      rw [h1.q]
      refine List.perm_middle.trans ?_
      rw [h2, ← hsh.q]
      refine (hq.cons e.id).trans ?_
      refine List.Perm.symm ((hperm.map (·.id)).trans ?_)
      simp only [List.map_append, List.map_cons, List.map_nil]
      exact List.perm_append_comm
    unfold onCreate
    rw [if_pos hm]
    simp only
    split
    · exact base
    · exact base.modify _ (IdKey.upd _)
  · unfold onCreate
    rw [if_neg hm]
    exact ⟨hids, hltn, hplaced, hsorted, fun hm' => absurd hm' hm, h.dqN, hdq⟩

end Hoard
