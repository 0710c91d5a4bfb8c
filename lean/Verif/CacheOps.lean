import Verif.CacheWF
/-! What the building blocks of the cache operations do to the set of linked entries. -/
namespace Hoard
variable {K V E : Type}

/-- Fields not touched by walks and hits. -/
structure Same (s s' : St K V E) : Prop where
  opens : s'.opens = s.opens
  nextId : s'.nextId = s.nextId
  destroyed : s'.destroyed = s.destroyed

theorem Same.refl (s : St K V E) : Same s s := ⟨rfl, rfl, rfl⟩
theorem Same.trans {s s' s'' : St K V E} (h : Same s s') (h' : Same s' s'') : Same s s'' :=
  ⟨h'.opens.trans h.opens, h'.nextId.trans h.nextId, h'.destroyed.trans h.destroyed⟩
theorem Same.modify (s : St K V E) (i f) : Same s (s.modify i f) := ⟨rfl, rfl, rfl⟩
theorem Same.dispose (cfg : Cfg K) (s : St K V E) (es) : Same s (dispose cfg s es) := by
  obtain ⟨_, _, h3, h4, h5, _, _⟩ := dispose_fields cfg es s
  exact ⟨h4, h3, h5⟩
theorem Same.tbl (s : St K V E) (t) (es) (cfg : Cfg K) : Same s (Hoard.dispose cfg { s with tbl := t } es) :=
  (⟨rfl, rfl, rfl⟩ : Same s { s with tbl := t }).trans (Same.dispose _ _ _)

/-- `s'` holds the entries of `s` except for some that are expired and not pending. -/
def Drops (env : Env V) (l l' : List (Entry K V E)) : Prop :=
  ∃ rem, l.Perm (l' ++ rem) ∧ ∀ e ∈ rem, stale env e = true

theorem Drops.refl (env : Env V) (l : List (Entry K V E)) : Drops env l l := ⟨[], by simp, by simp⟩
theorem Drops.of_perm (env : Env V) {l l' : List (Entry K V E)} (h : l.Perm l') : Drops env l l' := ⟨[], by simpa using h, by simp⟩
theorem Drops.trans {env : Env V} {a b c : List (Entry K V E)} (h : Drops env a b) (h' : Drops env b c) : Drops env a c := by
  obtain ⟨r, p, q⟩ := h
  obtain ⟨r', p', q'⟩ := h'
  refine ⟨r' ++ r, ?_, ?_⟩
  · refine p.trans ((p'.append_right r).trans ?_); simp
  · intro e he; rcases List.mem_append.1 he with h | h
    · exact q' e h
    · exact q e h
theorem Drops.mem {env : Env V} {l l' : List (Entry K V E)} (h : Drops env l l') {e} (he : e ∈ l') : e ∈ l := by
  obtain ⟨r, p, _⟩ := h
  exact p.mem_iff.2 (List.mem_append_left _ he)
theorem Drops.keep {env : Env V} {l l' : List (Entry K V E)} (h : Drops env l l') {e} (he : e ∈ l) : e ∈ l' ∨ stale env e = true := by
  obtain ⟨r, p, q⟩ := h
  rcases List.mem_append.1 (p.mem_iff.1 he) with h | h
  · exact .inl h
  · exact .inr (q e h)

/-! ### Lookup -/

theorem filter_ents_bucket {cfg : Cfg K} {s : St K V E} (hp : Placed cfg s.tbl) (c : Nat) (p : Entry K V E → Bool)
    (h : ∀ e, p e = true → cfg.hash e.key = c) : s.ents.filter p = (s.bucket (s.bucketFor c)).filter p := by
  have h1 := Buckets.filter_bucket hp c
  have hb : ((s.tbl[c % s.tbl.length]?).getD []) = s.bucket (s.bucketFor c) := by
    unfold St.bucket St.bucketFor
    by_cases h0 : s.tbl.length = 0
    · simp [List.length_eq_zero_iff.1 h0]
    · simp [h0]
  rw [hb] at h1
  have hpf : ∀ l : List (Entry K V E), l.filter p = (l.filter (fun e => cfg.hash e.key == c)).filter p := by
    intro l
    rw [List.filter_filter]
    apply List.filter_congr
    intro e _
    cases hpe : p e
    · simp
    · simp [h e hpe]
  rw [hpf, hpf (s.bucket _)]
  exact congrArg (List.filter p) h1

theorem find_ents_bucket {cfg : Cfg K} (hc : cfg.Ok) {s : St K V E} (hp : Placed cfg s.tbl) (env : Env V) (k : K) (incl : Bool) :
    (s.bucket (s.bucketFor (cfg.hash k))).find? (isHit cfg env k incl) = s.ents.find? (isHit cfg env k incl) := by
  have h1 := filter_ents_bucket hp (cfg.hash k) (isHit cfg env k incl) (by
    intro e he
    simp only [isHit, Bool.and_eq_true] at he
    exact hc.hash _ _ he.1.1)
  rw [← List.head?_filter, ← List.head?_filter, h1]

theorem getIfExists_eq {cfg : Cfg K} (hc : cfg.Ok) {s : St K V E} (hp : Placed cfg s.tbl) (env : Env V) (k : K) :
    getIfExists cfg env s k =
      { ret := optRet (((s.ents.find? (isHit cfg env k false)).map (fun e => e.mapped.get env false)).getD .none) } := by
  unfold getIfExists
  rw [peekWalk_eq hc, find_ents_bucket hc hp]

/-- The state after the walk of `get_`, before `on_hit_`. -/
def walked (cfg : Cfg K) (env : Env V) (s : St K V E) (k : K) (incl : Bool) : St K V E :=
  applyWalk cfg s (s.bucketFor (cfg.hash k)) (getWalk cfg env k incl (s.bucket (s.bucketFor (cfg.hash k))))

theorem walked_wf1 {cfg : Cfg K} {s : St K V E} (h : WF1 cfg s) (env : Env V) (k : K) (incl : Bool) :
    WF1 cfg (walked cfg env s k incl) := by
  apply h.applyWalk
  · exact (getWalk_sublist cfg env k incl _).map _
  · have := (getWalk_perm cfg env k incl (s.bucket (s.bucketFor (cfg.hash k)))).map ik
    rwa [List.map_append] at this

theorem applyWalk_same (cfg : Cfg K) (s : St K V E) (i : Nat) (w) : Same s (applyWalk cfg s i w) := Same.tbl _ _ _ _

theorem walked_same (cfg : Cfg K) (s : St K V E) (env : Env V) (k : K) (incl : Bool) :
    Same s (walked cfg env s k incl) := applyWalk_same _ _ _ _

/-- Entries after applying a walk: exact up to order. -/
theorem applyWalk_perm {cfg : Cfg K} {s : St K V E} {i : Nat} {w : Walk K V E} {kept0 : List (Entry K V E)}
    {g : Entry K V E → Entry K V E} (hb : (s.bucket i).Perm (kept0 ++ w.removed)) (hk : w.kept = kept0.map g) :
    ∃ oth, s.ents.Perm ((oth ++ kept0) ++ w.removed) ∧ (applyWalk cfg s i w).ents.Perm (oth ++ kept0.map g) ∧
      (∀ e ∈ oth, ∀ c, Placed cfg s.tbl → s.bucketFor c = i → cfg.hash e.key ≠ c) := by
  unfold applyWalk
  rw [dispose_ents]
  by_cases hi : i < s.tbl.length
  · refine ⟨(s.tbl.set i []).flatten, ?_, ?_, ?_⟩
    · have := flatten_set_perm s.tbl i (s.bucket i) [] (s.bucket i) (bucket_some hi) (by simp)
      refine this.trans ?_
      rw [List.append_assoc]
      exact List.Perm.append_left _ hb
    · rw [hk]
      have := flatten_set_perm (s.tbl.set i (kept0.map g)) i (kept0.map g) [] (kept0.map g)
        (by simp [hi]) (by simp)
      simpa [St.ents, St.setBucket] using this
    · intro e he c hp hbc hh
      obtain ⟨b, hb1, heb⟩ := List.mem_flatten.1 he
      obtain ⟨j, hj, rfl⟩ := List.mem_iff_getElem.1 hb1
      rw [List.getElem_set] at heb
      split at heb
      · simp at heb
      · rename_i hij
        have hj' : j < s.tbl.length := by simpa using hj
        have := hp j _ (List.getElem?_eq_getElem hj') e heb
        simp only [hh] at this
        unfold St.bucketFor at hbc
        rw [if_neg (by omega), this] at hbc
        exact hij hbc.symm
  · rw [bucket_empty (by omega)] at hb
    have h1 := hb.length_eq
    simp at h1
    have h2 : kept0 = [] := List.length_eq_zero_iff.1 (by omega)
    have h3 : w.removed = [] := List.length_eq_zero_iff.1 (by omega)
    refine ⟨s.ents, by simp [h2, h3], ?_, ?_⟩
    · have : s.tbl.set i w.kept = s.tbl := List.set_eq_of_length_le (by omega)
      simp [St.ents, St.setBucket, this, h2]
    · intro e he c hp hbc hh
      have := mem_bucket_of_mem hp he hh
      rw [hbc, bucket_empty (by omega)] at this
      simp at this

theorem walked_drops {cfg : Cfg K} (s : St K V E) (env : Env V) (k : K) (incl : Bool) :
    Drops env s.ents (walked cfg env s k incl).ents := by
  have h1 := getWalk_perm cfg env k incl (s.bucket (s.bucketFor (cfg.hash k)))
  obtain ⟨oth, h2, h3, _⟩ := applyWalk_perm (cfg := cfg) (g := id) h1 (by simp)
  refine ⟨_, h2.trans ?_, getWalk_removed cfg env k incl (s.bucket (s.bucketFor (cfg.hash k)))⟩
  rw [List.map_id] at h3
  exact (List.Perm.append_right _ h3).symm

/-- On a miss nothing expired and non-pending with the same hash remains. -/
theorem walked_miss {cfg : Cfg K} (hc : cfg.Ok) {s : St K V E} (hp : Placed cfg s.tbl) (env : Env V) (k : K) (incl : Bool)
    (hm : s.ents.find? (isHit cfg env k incl) = none) :
    ∀ e ∈ (walked cfg env s k incl).ents, cfg.eqv e.key k = true → stale env e = false := by
  intro e he hek
  have hhit : (getWalk cfg env k incl (s.bucket (s.bucketFor (cfg.hash k)))).hit = none := by
    rw [getWalk_hit hc, find_ents_bucket hc hp, hm]; rfl
  have h1 := getWalk_perm cfg env k incl (s.bucket (s.bucketFor (cfg.hash k)))
  obtain ⟨oth, h2, h3, h4⟩ := applyWalk_perm (cfg := cfg) (g := id) h1 (by simp)
  have he' := h3.mem_iff.1 he
  rcases List.mem_append.1 he' with h | h
  · exact absurd (hc.hash _ _ hek) (h4 e h _ hp rfl)
  · exact getWalk_miss env k incl _ hhit e (by simpa using h)

theorem get__eq {cfg : Cfg K} (hc : cfg.Ok) {s : St K V E} (hp : Placed cfg s.tbl) (env : Env V) (k : K) (incl : Bool) :
    get_ cfg env s k incl =
      match s.ents.find? (isHit cfg env k incl) with
      | none => (walked cfg env s k incl, .none)
      | some e => (onHit cfg env (walked cfg env s k incl) e.id, e.mapped.get env incl) := by
  have h1 : (getWalk cfg env k incl (s.bucket (s.bucketFor (cfg.hash k)))).hit =
      (s.ents.find? (isHit cfg env k incl)).map (fun e => (e.id, e.mapped.get env incl)) := by
    rw [getWalk_hit hc, find_ents_bucket hc hp]
  unfold get_
  simp only
  rw [h1]
  cases s.ents.find? (isHit cfg env k incl) <;> rfl

/-- The entry hit stays linked through the walk. -/
theorem hit_mem_walked {cfg : Cfg K} {s : St K V E} {env : Env V} {k : K} {incl : Bool} {e : Entry K V E}
    (h : s.ents.find? (isHit cfg env k incl) = some e) : e ∈ (walked cfg env s k incl).ents := by
  have he := List.mem_of_find?_eq_some h
  have hh := List.find?_some h
  rcases (walked_drops (cfg := cfg) s env k incl).keep he with h | h
  · exact h
  · simp only [isHit, Bool.and_eq_true] at hh
    simp [stale] at h
    simp [h.1] at hh

/-! ### Hits -/

/-- What `on_hit_` does to the entry hit. -/
def hitUpd (cfg : Cfg K) (env : Env V) (e : Entry K V E) : Entry K V E :=
  let e1 := if cfg.maxSize.isSome then e.upd (.strengthen env) else e
  match cfg.refresh with
  | none => e1
  | some (_, idle) =>
    if idle = 0 then e1 else if e1.mapped.holdsValue env then { e1 with canTp := some (env.now + idle) } else e1

theorem hitUpd_idKey (cfg : Cfg K) (env : Env V) : IdKey (hitUpd (V := V) (E := E) cfg env) := by
  intro e
  unfold hitUpd
  split <;> (simp only; split) <;> (try split) <;> (try split) <;> simp_all [Entry.upd]

theorem atId_comp (i : Nat) {f g : Entry K V E → Entry K V E} (hg : IdKey g) (e : Entry K V E) :
    atId i f (atId i g e) = atId i (fun e => f (g e)) e := by
  unfold atId
  split
  · rename_i h
    simp only [h, if_true]
    split
    · rfl
    · rename_i h2; exact absurd ((hg e).1.trans h) h2
  · rename_i h; simp [h]

theorem onHit_ents (cfg : Cfg K) (env : Env V) (s : St K V E) (i : Nat) :
    (onHit cfg env s i).ents = s.ents.map (atId i (hitUpd cfg env)) := by
  unfold onHit
  have key : ∀ (g : Entry K V E → Entry K V E), (∀ e, hitUpd cfg env e = g e) →
      s.ents.map (atId i (hitUpd cfg env)) = s.ents.map (atId i g) := by
    intro g hg
    apply List.map_congr_left
    intro e _
    simp [atId, hg]
  have hid : ∀ l : List (Entry K V E), l = l.map (atId i id) := by
    intro l
    have : (atId i id : Entry K V E → Entry K V E) = id := by funext e; simp [atId]
    simp [this]
  by_cases hm : cfg.maxSize.isSome = true
  · cases hr : cfg.refresh with
    | none =>
      simp only [hm, if_true]
      rw [key (·.upd (.strengthen env)) (by intro e; simp [hitUpd, hr, hm])]
      exact ents_modify s i _
    | some p =>
      obtain ⟨d, idle⟩ := p
      simp only [hm, if_true]
      by_cases h0 : idle = 0
      · simp only [h0, if_true]
        rw [key (·.upd (.strengthen env)) (by intro e; simp [hitUpd, hr, hm, h0])]
        exact ents_modify s i _
      · simp only [h0, if_false]
        rw [ents_modify]
        have : ({ s.modify i (·.upd (.strengthen env)) with bq := s.bq.onHit i } : St K V E).ents = (s.modify i (·.upd (.strengthen env))).ents := rfl
        rw [this, ents_modify, List.map_map]
        apply List.map_congr_left
        intro e _
        simp only [Function.comp]
        rw [atId_comp i (IdKey.upd _)]
        simp [atId, hitUpd, hr, hm, h0]
  · cases hr : cfg.refresh with
    | none =>
      simp only [hm]
      rw [key id (by intro e; simp [hitUpd, hr, hm])]
      exact hid _
    | some p =>
      obtain ⟨d, idle⟩ := p
      simp only [hm]
      by_cases h0 : idle = 0
      · simp only [h0, if_true]
        rw [key id (by intro e; simp [hitUpd, hr, hm, h0])]
        exact hid _
      · simp only [h0, if_false]
        refine (ents_modify _ i _).trans ?_
        apply List.map_congr_left
        intro e _
        simp [atId, hitUpd, hr, hm, h0]

theorem onHit_same (cfg : Cfg K) (env : Env V) (s : St K V E) (i : Nat) : Same s (onHit cfg env s i) := by
  unfold onHit
  split <;> (simp only; split) <;> (try split) <;> exact ⟨rfl, rfl, rfl⟩

theorem onHit_wf1 {cfg : Cfg K} (env : Env V) {s : St K V E} (h : WF1 cfg s) {e : Entry K V E} (he : e ∈ s.ents) :
    WF1 cfg (onHit cfg env s e.id) := by
  have base : WF1 cfg (if cfg.maxSize.isSome = true then
      { s.modify e.id (·.upd (.strengthen env)) with bq := s.bq.onHit e.id } else s) := by
    split
    · rename_i hm
      have h1 := h.modify e.id (IdKey.upd (K := K) (Mapped.strengthen env (E := E)))
      refine ⟨h1.ids, h1.lt, h1.placed, h1.sorted, fun _ => ?_, h1.dqN, h1.dqM⟩
      obtain ⟨⟨hs, cs, hsh⟩, hq⟩ := h1.bq hm
      have hmem : e.id ∈ s.bq.q := (h.bq hm).2.mem_iff.2 (List.mem_map.2 ⟨e, he, rfl⟩)
      obtain ⟨hs', cs', g1, g2⟩ := BQ.shape_onHit (s := s.bq) hsh hmem
      refine ⟨⟨hs', cs', g1⟩, ?_⟩
      show (s.bq.onHit e.id).q.Perm _
      rw [g1.q, g2]
      have : (hs ++ cs) = s.bq.q := hsh.q.symm
      rw [this]
      exact (List.perm_cons_erase hmem).symm.trans hq
    · exact h
  unfold onHit
  simp only
  split
  · exact base
  · split
    · exact base
    · apply base.modify
      intro x; simp only; split <;> exact ⟨rfl, rfl⟩

/-! ### Erasing -/

/-- What `expire_` does to the entries it keeps. -/
def expUpd (cfg : Cfg K) (k : K) (e : Entry K V E) : Entry K V E := if cfg.eqv e.key k then e.upd .markExpired else e

theorem expUpd_idKey (cfg : Cfg K) (k : K) : IdKey (expUpd (V := V) (E := E) cfg k) := by
  intro e; unfold expUpd; split <;> exact ⟨rfl, rfl⟩

theorem filter_append_not {α} (l : List α) (p : α → Bool) : l.Perm (l.filter p ++ l.filter (fun x => !p x)) := by
  induction l with
  | nil => simp
  | cons a l ih =>
    cases h : p a
    · simp only [List.filter_cons, h]
      exact (ih.cons a).trans List.perm_middle.symm
    · simp only [List.filter_cons, h]
      exact ih.cons a

theorem expire_wf1 {cfg : Cfg K} (hc : cfg.Ok) {s : St K V E} (h : WF1 cfg s) (env : Env V) (k : K) :
    WF1 cfg (expire_ cfg env s k) := by
  apply h.applyWalk
  · rw [(expireWalk_eq hc env k _).1, List.map_map]
    have : (ik ∘ fun e : Entry K V E => if cfg.eqv e.key k = true then e.upd .markExpired else e) = ik := by
      funext e; simp only [Function.comp]; split <;> rfl
    rw [this]
    exact List.filter_sublist.map _
  · rw [(expireWalk_eq hc env k _).1, (expireWalk_eq hc env k _).2, List.map_map]
    have : (ik ∘ fun e : Entry K V E => if cfg.eqv e.key k = true then e.upd .markExpired else e) = ik := by
      funext e; simp only [Function.comp]; split <;> rfl
    rw [this, ← List.map_append]
    apply List.Perm.map
    refine (filter_append_not _ (fun e => if cfg.eqv e.key k then e.isPending else !stale env e)).trans ?_
    apply List.Perm.append_left
    rw [show (fun e : Entry K V E => !(if cfg.eqv e.key k then e.isPending else !stale env e)) =
      (fun e => if cfg.eqv e.key k then !e.isPending else stale env e) by
        funext e; split <;> simp]

theorem expire_same (cfg : Cfg K) (s : St K V E) (env : Env V) (k : K) : Same s (expire_ cfg env s k) := applyWalk_same _ _ _ _

/-- Content after `expire_`. -/
theorem expire_spec {cfg : Cfg K} (hc : cfg.Ok) {s : St K V E} (h : WF1 cfg s) (env : Env V) (k : K) :
    ∃ kept rem, s.ents.Perm (kept ++ rem) ∧ (expire_ cfg env s k).ents.Perm (kept.map (expUpd cfg k)) ∧
      (∀ e ∈ rem, if cfg.eqv e.key k then e.isPending = false else stale env e = true) ∧
      (∀ e ∈ kept, cfg.eqv e.key k = true → e.isPending = true) := by
  let p : Entry K V E → Bool := fun e => if cfg.eqv e.key k then e.isPending else !stale env e
  have hb : (s.bucket (s.bucketFor (cfg.hash k))).Perm
      ((s.bucket (s.bucketFor (cfg.hash k))).filter p ++
        (expireWalk cfg env k (s.bucket (s.bucketFor (cfg.hash k)))).removed) := by
    rw [(expireWalk_eq hc env k _).2]
    refine (filter_append_not _ p).trans ?_
    apply List.Perm.append_left
    rw [show (fun e : Entry K V E => !p e) =
      (fun e => if cfg.eqv e.key k then !e.isPending else stale env e) by
        funext e; simp only [p]; split <;> simp]
  obtain ⟨oth, h1, h2, h3⟩ := applyWalk_perm (cfg := cfg) hb (expireWalk_eq hc env k _).1
  have hoth : ∀ e ∈ oth, cfg.eqv e.key k = false := by
    intro e he
    cases hek : cfg.eqv e.key k
    · rfl
    · exact absurd (hc.hash _ _ hek) (h3 e he _ h.placed rfl)
  refine ⟨_, _, h1, ?_, ?_, ?_⟩
  · rw [List.map_append]
    refine h2.trans (List.Perm.append_right _ ?_)
    have : oth.map (expUpd cfg k) = oth := by
      conv => rhs; rw [← List.map_id oth]
      apply List.map_congr_left
      intro e he; simp [expUpd, hoth e he]
    rw [this]
  · intro e he
    rw [(expireWalk_eq hc env k _).2, List.mem_filter] at he
    split
    · rename_i hk; simpa [hk] using he.2
    · rename_i hk; simpa [hk] using he.2
  · intro e he hek
    rcases List.mem_append.1 he with he | he
    · rw [hoth e he] at hek; simp at hek
    · have := (List.mem_filter.1 he).2
      simpa [p, hek] using this

/-! ### Clearing -/

theorem flatten_map_filter {α} (t : List (List α)) (p : α → Bool) : (t.map (·.filter p)).flatten = t.flatten.filter p := by
  induction t with
  | nil => rfl
  | cons b t ih => rw [List.map_cons, List.flatten_cons, List.flatten_cons, List.filter_append, ih]

theorem clear_ents (cfg : Cfg K) (s : St K V E) :
    (clear cfg s).ents = (s.ents.filter (·.isPending)).map (·.upd .markExpired) := by
  unfold clear
  rw [dispose_ents]
  simp only [St.ents, expireAllWalk]
  rw [← flatten_map_filter, List.map_flatten, List.map_map]
  rfl

theorem clear_same (cfg : Cfg K) (s : St K V E) : Same s (clear cfg s) := Same.tbl _ _ _ _

theorem clear_wf1 {cfg : Cfg K} {s : St K V E} (h : WF1 cfg s) : WF1 cfg (clear cfg s) := by
  have hik : ∀ l : List (Entry K V E), (l.map (fun e => e.upd .markExpired)).map ik = l.map ik := by
    intro l; rw [List.map_map]; rfl
  apply h.remove
  · simp
  · intro i b b' hb hb'
    simp only [List.getElem?_map, hb, Option.map_some, Option.some.injEq] at hb'
    subst hb'
    simp only [expireAllWalk]
    rw [hik]
    exact List.filter_sublist.map _
  · have h1 : (s.tbl.map (fun b => (expireAllWalk b).kept)).flatten = (s.ents.filter (·.isPending)).map (·.upd .markExpired) := by
      have := clear_ents cfg s
      unfold clear at this
      rw [dispose_ents] at this
      exact this
    rw [h1, hik, ← List.map_append]
    apply List.Perm.map
    exact filter_append_not _ _

/-! ### Purging -/

theorem purge_ents (cfg : Cfg K) (env : Env V) (s : St K V E) :
    (purge cfg env s).ents = s.ents.filter (fun e => !stale env e) := by
  unfold purge
  rw [dispose_ents]
  simp only [St.ents, purgeWalk]
  exact flatten_map_filter _ _

theorem purge_drops (cfg : Cfg K) (env : Env V) (s : St K V E) : Drops env s.ents (purge cfg env s).ents := by
  refine ⟨s.ents.filter (fun e => stale env e), ?_, fun e he => (List.mem_filter.1 he).2⟩
  rw [purge_ents]
  have := filter_append_not s.ents (fun e => !stale env e)
  simpa using this

theorem purge_same (cfg : Cfg K) (env : Env V) (s : St K V E) : Same s (purge cfg env s) := Same.tbl _ _ _ _

theorem purge_len (cfg : Cfg K) (env : Env V) (s : St K V E) : (purge cfg env s).tbl.length = s.tbl.length := by
  unfold purge; rw [dispose_tbl]; simp

theorem purge_wf1 {cfg : Cfg K} {s : St K V E} (h : WF1 cfg s) (env : Env V) : WF1 cfg (purge cfg env s) := by
  apply h.remove
  · simp
  · intro i b b' hb hb'
    simp only [List.getElem?_map, hb, Option.map_some, Option.some.injEq] at hb'
    subst hb'
    exact List.filter_sublist.map _
  · have h1 : (s.tbl.map (fun b => (purgeWalk env b).kept)).flatten = s.ents.filter (fun e => !stale env e) := by
      simp only [St.ents, purgeWalk]; exact flatten_map_filter _ _
    rw [h1, ← List.map_append]
    apply List.Perm.map
    have := filter_append_not s.ents (fun e => !stale env e)
    simpa [purgeWalk] using this

theorem beforeLink_wf1 {cfg : Cfg K} {s : St K V E} (h : WF1 cfg s) (env : Env V) : WF1 cfg (beforeLink cfg env s) := by
  unfold beforeLink; split
  · exact purge_wf1 h env
  · exact h
theorem beforeLink_same (cfg : Cfg K) (env : Env V) (s : St K V E) : Same s (beforeLink cfg env s) := by
  unfold beforeLink; split
  · exact purge_same _ _ _
  · exact Same.refl _
theorem beforeLink_drops (cfg : Cfg K) (env : Env V) (s : St K V E) : Drops env s.ents (beforeLink cfg env s).ents := by
  unfold beforeLink; split
  · exact purge_drops _ _ _
  · exact Drops.refl _ _

theorem grown_pos {cfg : Cfg K} {s : St K V E} (h : mustGrow cfg s = true) : 0 < grown cfg s.tbl.length := by
  unfold mustGrow at h
  unfold grown
  simp only [Bool.or_eq_true, Bool.and_eq_true, decide_eq_true_eq] at h
  split
  · omega
  · split <;> omega

theorem maybeRehash_wf1 {cfg : Cfg K} {s : St K V E} (h : WF1 cfg s) (env : Env V) : WF1 cfg (maybeRehash cfg env s) := by
  unfold maybeRehash
  simp only
  split
  · rename_i hg
    exact (beforeLink_wf1 h env).rehash (grown_pos hg)
  · exact beforeLink_wf1 h env

theorem maybeRehash_drops (cfg : Cfg K) (env : Env V) (s : St K V E) : Drops env s.ents (maybeRehash cfg env s).ents := by
  unfold maybeRehash
  simp only
  split
  · rename_i hg
    exact (beforeLink_drops cfg env s).trans (Drops.of_perm _ (rehash_perm _ _ (grown_pos hg)).symm)
  · exact beforeLink_drops cfg env s

theorem maybeRehash_same (cfg : Cfg K) (env : Env V) (s : St K V E) : Same s (maybeRehash cfg env s) := by
  unfold maybeRehash
  simp only
  split
  · exact (beforeLink_same cfg env s).trans ⟨rfl, rfl, rfl⟩
  · exact beforeLink_same cfg env s

theorem maybeRehash_ne {cfg : Cfg K} (env : Env V) (s : St K V E) : (maybeRehash cfg env s).tbl ≠ [] := by
  unfold maybeRehash
  simp only
  split
  · rename_i hg
    intro hn
    have := congrArg List.length hn
    rw [rehash_tbl, (Buckets.redistribute_spec _ (grown_pos hg) _).2.1] at this
    have := grown_pos hg
    simp at *; omega
  · rename_i hg
    intro hn
    apply hg
    simp [mustGrow, hn]

/-! ### Inserting -/

/-- The entry strengthened when a new one is created. -/
def strId (cfg : Cfg K) (s : St K V E) (i : Nat) : Option Nat := if cfg.maxSize.isSome then (s.bq.onCreate i).2 else none

/-- What creating an entry does to the others. -/
def creUpd (o : Option Nat) (env : Env V) (e : Entry K V E) : Entry K V E :=
  if o = some e.id then e.upd (.strengthen env) else e

theorem creUpd_idKey (o : Option Nat) (env : Env V) : IdKey (creUpd (K := K) (E := E) o env) := by
  intro e; unfold creUpd; split <;> exact ⟨rfl, rfl⟩

theorem onCreate_ents (cfg : Cfg K) (env : Env V) (s : St K V E) (i : Nat) :
    (onCreate cfg env s i).ents = s.ents.map (creUpd (strId cfg s i) env) := by
  have hid : ∀ l : List (Entry K V E), l.map (creUpd none env) = l := by
    intro l
    have : (creUpd none env : Entry K V E → Entry K V E) = id := by funext e; simp [creUpd]
    simp [this]
  unfold onCreate strId
  split
  · simp only
    cases h : (s.bq.onCreate i).2 with
    | none => simp only; rw [hid]; rfl
    | some m =>
      simp only
      refine (ents_modify _ _ _).trans ?_
      apply List.map_congr_left
      intro e _
      simp only [atId, creUpd, Option.some.injEq]
      by_cases h : e.id = m <;> simp [h]
      simp [Ne.symm h]
  · rw [hid]

theorem onCreate_same (cfg : Cfg K) (env : Env V) (s : St K V E) (i : Nat) : Same s (onCreate cfg env s i) := by
  unfold onCreate
  split
  · simp only; split <;> exact ⟨rfl, rfl, rfl⟩
  · exact Same.refl _

theorem assignTimes_idKey (cfg : Cfg K) (env : Env V) (b : Bool) : IdKey (assignTimes (V := V) (E := E) cfg env b) := by
  intro e; unfold assignTimes; simp only; split
  · exact ⟨rfl, rfl⟩
  · split <;> exact ⟨rfl, rfl⟩

theorem onAssign_ents (cfg : Cfg K) (env : Env V) (s : St K V E) (i : Nat) (b : Bool) :
    (onAssign cfg env s i b).ents = s.ents.map (atId i (assignTimes cfg env b)) := by
  unfold onAssign
  simp only
  split
  · exact ents_modify _ _ _
  · exact ents_modify _ _ _

theorem onAssign_same (cfg : Cfg K) (env : Env V) (s : St K V E) (i : Nat) (b : Bool) : Same s (onAssign cfg env s i b) := by
  unfold onAssign; simp only; split <;> exact ⟨rfl, rfl, rfl⟩

theorem onAssign_wf1 {cfg : Cfg K} (env : Env V) {s : St K V E} (h : WF1 cfg s) {i : Nat} (b : Bool)
    (hi : i ∈ s.ents.map (·.id)) (hd : i ∉ s.delayQ) : WF1 cfg (onAssign cfg env s i b) := by
  have h1 := h.modify i (assignTimes_idKey (V := V) (E := E) cfg env b)
  unfold onAssign
  simp only
  split
  · refine ⟨h1.ids, h1.lt, h1.placed, h1.sorted, h1.bq, ?_, ?_⟩
    · show (s.delayQ ++ [i]).Nodup
      rw [List.nodup_append]
      refine ⟨h.dqN, by simp, ?_⟩
      intro a ha b hb
      simp at hb; subst hb
      rintro rfl; exact hd ha
    · intro j hj
      have hj : j ∈ s.delayQ ++ [i] := hj
      rcases List.mem_append.1 hj with hj | hj
      · exact h1.dqM j hj
      · simp at hj; subst hj
        show j ∈ (s.modify j (assignTimes cfg env b)).ents.map (·.id)
        rw [ents_modify, List.map_map]
        obtain ⟨e, he, rfl⟩ := List.mem_map.1 hi
        exact List.mem_map.2 ⟨e, he, ((assignTimes_idKey cfg env b).atId e.id e).1⟩
  · exact h1

/-- The new entry after `link`. -/
def linkUpd (cfg : Cfg K) (env : Env V) (e : Entry K V E) : Entry K V E :=
  if e.isPending then e else assignTimes cfg env (e.mapped.holdsValue env) e

theorem strId_ne {cfg : Cfg K} {s : St K V E} (h : WF1 cfg s) {i m : Nat} (hi : i ∉ s.ents.map (·.id))
    (hm : strId cfg s i = some m) : m ∈ s.ents.map (·.id) := by
  unfold strId at hm
  split at hm
  · rename_i hs
    obtain ⟨⟨hs', cs', hsh⟩, hq⟩ := h.bq hs
    have hnq : i ∉ s.bq.q := fun h => hi (hq.mem_iff.1 h)
    obtain ⟨_, _, _, _, h3⟩ := BQ.shape_onCreate hsh hnq
    rw [h3] at hm
    split at hm
    · apply hq.mem_iff.1
      rw [hsh.q]
      exact List.mem_append_right _ (List.mem_of_head? hm)
    · simp at hm
  · simp at hm

/-- Content, well-formedness and fields after `link`. -/
theorem link_spec {cfg : Cfg K} (env : Env V) {s : St K V E} (h : WF1 cfg s) {e : Entry K V E} (he : e.id = s.nextId) :
    WF1 cfg (link cfg env s e) ∧ (link cfg env s e).opens = s.opens ∧ (link cfg env s e).destroyed = s.destroyed ∧
    (link cfg env s e).nextId = s.nextId + 1 ∧
    ∃ kept o, Drops env s.ents kept ∧
      (link cfg env s e).ents.Perm (kept.map (creUpd o env) ++ [linkUpd cfg env e]) ∧
      (cfg.maxSize = none → o = none) ∧ (∀ m, o = some m → m ∈ s.ents.map (·.id)) ∧
      (link cfg env s e).delayQ = (maybeRehash cfg env s).delayQ ++
        (if (cfg.refresh.isSome && !e.isPending && e.mapped.holdsValue env) = true then [e.id] else []) := by
  have hw := maybeRehash_wf1 h env
  have hs := maybeRehash_same cfg env s
  have hd := maybeRehash_drops cfg env s
  have hne := maybeRehash_ne (cfg := cfg) env s
  generalize hs1 : maybeRehash cfg env s = s1 at hw hs hd hne
  have he1 : e.id = s1.nextId := by rw [hs.nextId, he]
  have hnew : e.id ∉ s1.ents.map (·.id) := by
    intro hm; obtain ⟨x, hx, hxe⟩ := List.mem_map.1 hm
    have := hw.lt x (List.mem_append_left _ hx); omega
  let s2 : St K V E := { s1 with tbl := place cfg s1.tbl e, nextId := s1.nextId + 1 }
  have hw3 : WF1 cfg (onCreate cfg env s2 e.id) := hw.add env hne he1
  have hp2 : s2.ents.Perm (s1.ents ++ [e]) := Buckets.perm_place (fun e : Entry K V E => cfg.hash e.key) hne e
  have hso : strId cfg s2 e.id = strId cfg s1 e.id := rfl
  have hne_o : strId cfg s1 e.id ≠ some e.id := by
    intro hc; exact hnew (strId_ne hw hnew hc)
  have hce : creUpd (strId cfg s1 e.id) env e = e := by simp [creUpd, hne_o]
  have he3 : (onCreate cfg env s2 e.id).ents.Perm (s1.ents.map (creUpd (strId cfg s1 e.id) env) ++ [e]) := by
    rw [onCreate_ents, hso]
    refine (hp2.map _).trans ?_
    simp [hce]
  have hs3 := onCreate_same cfg env s2 e.id
  have hdq3 : (onCreate cfg env s2 e.id).delayQ = s1.delayQ := by
    unfold onCreate; split
    · simp only; split <;> rfl
    · rfl
  have hl : link cfg env s e = if e.isPending then onCreate cfg env s2 e.id
      else onAssign cfg env (onCreate cfg env s2 e.id) e.id (e.mapped.holdsValue env) := by
    unfold link; rw [hs1]
  have ho : cfg.maxSize = none → strId cfg s1 e.id = none := by
    intro h; simp [strId, h]
  have hom : ∀ m, strId cfg s1 e.id = some m → m ∈ s.ents.map (·.id) := by
    intro m hm
    obtain ⟨x, hx, rfl⟩ := List.mem_map.1 (strId_ne hw hnew hm)
    exact List.mem_map.2 ⟨x, hd.mem hx, rfl⟩
  rw [hl]
  split
  · rename_i hp
    refine ⟨hw3, ?_, ?_, ?_, s1.ents, strId cfg s1 e.id, hd, ?_, ho, hom, ?_⟩
    · rw [hs3.opens]; exact hs.opens
    · rw [hs3.destroyed]; exact hs.destroyed
    · rw [hs3.nextId]; show s1.nextId + 1 = _; rw [hs.nextId]
    · simpa [linkUpd, hp] using he3
    · simp [hp, hdq3]
  · rename_i hp
    have hs4 := onAssign_same cfg env (onCreate cfg env s2 e.id) e.id (e.mapped.holdsValue env)
    have hid3 : e.id ∈ (onCreate cfg env s2 e.id).ents.map (·.id) :=
      (he3.map (·.id)).mem_iff.2 (by simp)
    refine ⟨onAssign_wf1 env hw3 _ hid3 ?_, ?_, ?_, ?_, s1.ents, strId cfg s1 e.id, hd, ?_, ho, hom, ?_⟩
    · rw [hdq3]; intro hm; exact hnew (hw.dqM _ hm)
    · rw [hs4.opens, hs3.opens]; exact hs.opens
    · rw [hs4.destroyed, hs3.destroyed]; exact hs.destroyed
    · rw [hs4.nextId, hs3.nextId]; show s1.nextId + 1 = _; rw [hs.nextId]
    · rw [onAssign_ents]
      refine (he3.map _).trans ?_
      rw [List.map_append, List.map_map]
      have : (s1.ents.map ((atId e.id (assignTimes cfg env (e.mapped.holdsValue env))) ∘ creUpd (strId cfg s1 e.id) env)) =
          s1.ents.map (creUpd (strId cfg s1 e.id) env) := by
        apply List.map_congr_left
        intro x hx
        simp only [Function.comp, atId]
        rw [(creUpd_idKey _ env x).1]
        have : x.id ≠ e.id := fun hc => hnew (List.mem_map.2 ⟨x, hx, hc⟩)
        simp [this]
      rw [this]
      simp [linkUpd, hp, atId]
    · unfold onAssign
      simp only [hp]
      by_cases hr : (cfg.refresh.isSome && e.mapped.holdsValue env) = true
      · have hr2 : (cfg.refresh.isSome && !false && e.mapped.holdsValue env) = true := by simpa using hr
        rw [if_pos hr, if_pos hr2]
        show (onCreate cfg env s2 e.id).delayQ ++ _ = _
        rw [hdq3]
      · have hr2 : ¬ (cfg.refresh.isSome && !false && e.mapped.holdsValue env) = true := by simpa using hr
        rw [if_neg hr, if_neg hr2]
        simp
        exact hdq3

/-! ### Eviction -/

/-- What eviction does to a victim. -/
def evUpd (cfg : Cfg K) (e : Entry K V E) : Entry K V E :=
  e.upd (if cfg.weaken then .weaken cfg.ptr else .markExpired)

theorem evictAll_ents (cfg : Cfg K) (vs : List Nat) : ∀ (s : St K V E), vs.Nodup →
    (evictAll cfg s vs).ents = s.ents.map (fun e => if e.id ∈ vs then evUpd cfg e else e) := by
  induction vs with
  | nil => intro s _; simp [evictAll]
  | cons v vs ih =>
    intro s hn
    rw [List.nodup_cons] at hn
    show (evictAll cfg (s.modify v _) vs).ents = _
    rw [ih _ hn.2, ents_modify, List.map_map]
    apply List.map_congr_left
    intro e _
    simp only [Function.comp, atId]
    by_cases h1 : e.id = v
    · simp [h1, Entry.upd, hn.1, evUpd]
    · simp [h1]

theorem evictAll_same (cfg : Cfg K) (vs : List Nat) : ∀ (s : St K V E), Same s (evictAll cfg s vs) := by
  induction vs with
  | nil => intro s; exact Same.refl _
  | cons v vs ih => intro s; exact (Same.modify s v _).trans (ih _)

theorem evictAll_wf1 {cfg : Cfg K} (vs : List Nat) : ∀ {s : St K V E}, WF1 cfg s → WF1 cfg (evictAll cfg s vs) := by
  induction vs with
  | nil => intro s h; exact h
  | cons v vs ih => intro s h; exact ih (h.modify v (IdKey.upd _))

theorem evictAll_fields (cfg : Cfg K) (vs : List Nat) : ∀ (s : St K V E),
    (evictAll cfg s vs).bq = s.bq ∧ (evictAll cfg s vs).delayQ = s.delayQ ∧ (evictAll cfg s vs).tbl.length = s.tbl.length := by
  induction vs with
  | nil => intro s; exact ⟨rfl, rfl, rfl⟩
  | cons v vs ih => intro s; obtain ⟨h1, h2, h3⟩ := ih (s.modify v _); exact ⟨h1, h2, by rw [show evictAll cfg s (v :: vs) = evictAll cfg (s.modify v (·.upd (if cfg.weaken then .weaken cfg.ptr else .markExpired))) vs from rfl, h3]; simp [St.modify]⟩

/-- Ids chosen by `maintenance_`. -/
def victimIds (cfg : Cfg K) (s : St K V E) : List Nat :=
  match cfg.maxSize with
  | none => []
  | some m => s.bq.victims (s.size - m)

theorem victims_nodup {b : BQ} (h : b.Inv) (n : Nat) : (b.victims n).Nodup := by
  obtain ⟨hs, cs, hsh⟩ := h
  rw [BQ.victims_eq hsh]
  have := hsh.nodup
  rw [hsh.q, List.nodup_append] at this
  have h2 : cs.reverse.Nodup := (List.reverse_perm cs).nodup_iff.2 this.2.1
  exact h2.sublist (List.take_sublist _ _)

theorem maintenance_ents {cfg : Cfg K} {s : St K V E} (h : WF1 cfg s) :
    (maintenance cfg s).ents = s.ents.map (fun e => if e.id ∈ victimIds cfg s then evUpd cfg e else e) := by
  unfold maintenance victimIds
  cases hm : cfg.maxSize with
  | none => simp
  | some m =>
    apply evictAll_ents
    exact victims_nodup (h.bq (by simp [hm])).1 _

theorem maintenance_same (cfg : Cfg K) (s : St K V E) : Same s (maintenance cfg s) := by
  unfold maintenance; split
  · exact Same.refl _
  · exact evictAll_same _ _ _

theorem maintenance_wf1 {cfg : Cfg K} {s : St K V E} (h : WF1 cfg s) : WF1 cfg (maintenance cfg s) := by
  unfold maintenance; split
  · exact h
  · exact evictAll_wf1 _ h

end Hoard
