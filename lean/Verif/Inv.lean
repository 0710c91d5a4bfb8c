import Verif.CacheOps
/-! The invariant of the cache that holds in every configuration, and the
relation between successive states in which nothing new appears. -/
namespace Hoard
variable {K V E : Type}

/-- The value stored, strongly or weakly. -/
def Mapped.val? : Mapped V E → Option V
  | .value v => some v
  | .weak v => some v
  | _ => none

/-- A lookup in flight whose result still counts. -/
def Mapped.live : Mapped V E → Bool
  | .pending p => !p.expired
  | _ => false

/-- Not weakened. -/
def Mapped.strong : Mapped V E → Bool
  | .pending p => !p.weakened
  | .weak _ => false
  | _ => true

theorem Mapped.live_pending {m : Mapped V E} (h : m.live = true) : m.isPending = true := by
  cases m <;> simp_all [live, isPending]
theorem Mapped.val_not_pending {m : Mapped V E} {v} (h : m.val? = some v) : m.isPending = false := by
  cases m <;> simp_all [val?, isPending]
theorem Mapped.pending_val {m : Mapped V E} (h : m.isPending = true) : m.val? = none := by
  cases m <;> simp_all [val?, isPending]

/-- What a step is allowed to do: which entries it may kill, which one it hits,
which ones it weakens, which ones it takes off the delay queue, and which ones it
marks as being refreshed. -/
structure Eff (K V : Type) where
  die : Nat → K → Option V → Prop := fun _ _ _ => False
  hit : Nat → Prop := fun _ => False
  vic : Nat → Prop := fun _ => False
  pop : Nat → Prop := fun _ => False
  flag : Nat → Prop := fun _ => False

/-- Benign change of an entry. -/
structure ShrE (cfg : Cfg K) (env : Env V) (F : Eff K V) (e e' : Entry K V E) : Prop where
  id : e'.id = e.id
  key : e'.key = e.key
  pend : e'.isPending = e.isPending
  val : ∀ v, e'.mapped.val? = some v → e.mapped.val? = some v
  live : e'.mapped.live = true → e.mapped.live = true
  cbs : e'.mapped.cbs = e.mapped.cbs
  tms : e.isPending = true → e'.expTp = e.expTp ∧ e'.canTp = e.canTp ∧ e'.refreshing = e.refreshing
  rf : e.refreshing = true → e'.refreshing = true
  ext : e'.expTp = e.expTp
  rft : e'.refTp = e.refTp
  exd : e.expired env = true → e'.expired env = true
  can : ¬ F.hit e.id → e'.canTp = e.canTp
  wk : (cfg.weaken = false ∨ ¬ F.vic e.id) → e.mapped.strong = true → e'.mapped.strong = true
  rfe : ¬ F.flag e.id → e'.refreshing = e.refreshing
  vd : e'.mapped.isVoid = true → e.mapped.isVoid = true

variable {cfg : Cfg K} {env : Env V} {F : Eff K V}

theorem ShrE.refl (e : Entry K V E) : ShrE cfg env F e e :=
  ⟨rfl, rfl, rfl, fun _ h => h, fun h => h, rfl, fun _ => ⟨rfl, rfl, rfl⟩, fun h => h, rfl, rfl, fun h => h, fun _ => rfl, fun _ h => h, fun _ => rfl, fun h => h⟩
theorem ShrE.trans {a b c : Entry K V E} (h : ShrE cfg env F a b) (h' : ShrE cfg env F b c) : ShrE cfg env F a c where
  id := h'.id.trans h.id
  key := h'.key.trans h.key
  pend := h'.pend.trans h.pend
  val := fun v hv => h.val v (h'.val v hv)
  live := fun hl => h.live (h'.live hl)
  cbs := h'.cbs.trans h.cbs
  tms := by
    intro hp
    obtain ⟨a1, a2, a3⟩ := h.tms hp
    obtain ⟨b1, b2, b3⟩ := h'.tms (h.pend.trans hp)
    exact ⟨b1.trans a1, b2.trans a2, b3.trans a3⟩
  rf := fun hr => h'.rf (h.rf hr)
  ext := h'.ext.trans h.ext
  rft := h'.rft.trans h.rft
  exd := fun hx => h'.exd (h.exd hx)
  can := fun hh => (h'.can (by rw [h.id]; exact hh)).trans (h.can hh)
  wk := fun hh hs => h'.wk (by rw [h.id]; exact hh) (h.wk hh hs)
  rfe := fun hh => (h'.rfe (by rw [h.id]; exact hh)).trans (h.rfe hh)
  vd := fun hv => h.vd (h'.vd hv)

theorem ShrE.markExpired (e : Entry K V E) : ShrE cfg env F e (e.upd .markExpired) := by
  constructor <;> cases h : e.mapped <;> simp [Entry.upd, Entry.expired, Mapped.expired, Mapped.strong, Entry.isPending, Mapped.isPending, Mapped.markExpired, Mapped.isVoid, Mapped.val?, Mapped.live, Mapped.cbs, h]
theorem ShrE.weaken (p : Bool) (e : Entry K V E) (hw : cfg.weaken = true) (hv : F.vic e.id) : ShrE cfg env F e (e.upd (.weaken p)) := by
  cases p <;> constructor <;> cases h : e.mapped <;> simp [hw, hv, Entry.upd, Entry.expired, Mapped.expired, Mapped.holdsError, Mapped.strong, Entry.isPending, Mapped.isPending, Mapped.weaken, Mapped.isVoid, Mapped.val?, Mapped.live, Mapped.cbs, h]
  all_goals (intro hh; rcases hh with hh | hh <;> simp [hh])
theorem ShrE.strengthen (e : Entry K V E) : ShrE cfg env F e (e.upd (.strengthen env)) := by
  cases h : e.mapped with
  | pending p =>
    cases hp : p.expired <;> constructor <;> simp [Entry.upd, Entry.expired, Mapped.expired, Mapped.holdsError, Mapped.strong, Entry.isPending, Mapped.isPending, Mapped.strengthen, Mapped.isVoid, h, hp, Mapped.val?, Mapped.live, Mapped.cbs]
  | weak v =>
    cases hp : env.alive v <;> constructor <;> simp [Entry.upd, Entry.expired, Mapped.expired, Mapped.holdsError, Mapped.strong, Entry.isPending, Mapped.isPending, Mapped.strengthen, Mapped.isVoid, h, hp, Mapped.val?, Mapped.live, Mapped.cbs]
  | _ => constructor <;> simp [Entry.upd, Entry.expired, Mapped.expired, Mapped.holdsError, Mapped.strong, Entry.isPending, Mapped.isPending, Mapped.strengthen, Mapped.isVoid, h, Mapped.val?, Mapped.live, Mapped.cbs]

theorem ShrE.evUpd (e : Entry K V E) (hv : F.vic e.id) : ShrE cfg env F e (evUpd cfg e) := by
  unfold Hoard.evUpd; split
  · rename_i hw; exact .weaken _ _ hw hv
  · exact .markExpired _
theorem ShrE.creUpd (o) (e : Entry K V E) : ShrE cfg env F e (creUpd o env e) := by
  unfold Hoard.creUpd; split
  · exact .strengthen _
  · exact .refl _
theorem ShrE.expUpd (k) (e : Entry K V E) : ShrE cfg env F e (expUpd cfg k e) := by
  unfold Hoard.expUpd; split
  · exact .markExpired _
  · exact .refl _
theorem ShrE.setCan (e : Entry K V E) (x) (h : e.mapped.holdsValue env = true) (hx : e.expired env = false) (hh : F.hit e.id ∨ e.isPending = true) :
    ShrE cfg env F e { e with canTp := x } := by
  have hh : F.hit e.id := hh.resolve_right (fun hp => by cases hm : e.mapped <;> simp_all [Mapped.holdsValue, Entry.isPending, Mapped.isPending])
  refine ⟨rfl, rfl, rfl, fun _ h => h, fun h => h, rfl, fun hp => ?_, fun h => h, rfl, rfl, ?_, fun hn => absurd hh hn, fun _ h => h, fun _ => rfl, fun h => h⟩
  · cases hm : e.mapped <;> simp_all [Mapped.holdsValue, Entry.isPending, Mapped.isPending]
  · intro he; rw [hx] at he; cases he

/-- Nothing is lost of an entry. -/
structure Keeps (env : Env V) (e e' : Entry K V E) : Prop where
  val : e'.mapped.val? = e.mapped.val?
  live : e'.mapped.live = e.mapped.live
  exp : e'.expired env = false

theorem Keeps.strengthen (e : Entry K V E) (hx : e.expired env = false) : Keeps env e (e.upd (.strengthen env)) := by
  cases h : e.mapped with
  | pending p =>
    cases hp : p.expired <;> constructor <;> simp_all [Entry.upd, Entry.expired, Mapped.expired, Mapped.holdsError, Mapped.strengthen, Mapped.val?, Mapped.live]
  | weak v =>
    cases hp : env.alive v <;> constructor <;> simp_all [Entry.upd, Entry.expired, Mapped.expired, Mapped.holdsError, Mapped.strengthen, Mapped.val?, Mapped.live]
  | _ => constructor <;> simp_all [Entry.upd, Entry.expired, Mapped.expired, Mapped.holdsError, Mapped.strengthen, Mapped.val?, Mapped.live]

theorem Keeps.creUpd (o) (e : Entry K V E) (hx : e.expired env = false) : Keeps env e (creUpd o env e) := by
  unfold Hoard.creUpd; split
  · exact .strengthen _ hx
  · exact ⟨rfl, rfl, hx⟩

theorem hitUpd_facts (e : Entry K V E) (hx : e.expired env = false) (hh : F.hit e.id ∨ e.isPending = true) :
    ShrE cfg env F e (hitUpd cfg env e) ∧
    ((∀ d i, cfg.refresh = some (d, i) → 0 ≤ i) → Keeps env e (hitUpd cfg env e)) ∧
    (e.mapped.val? ≠ none → (hitUpd cfg env e).canTp = match cfg.refresh with
      | none => e.canTp
      | some (_, i) => if i = 0 then e.canTp else some (env.now + i)) := by
  have h1 : ShrE cfg env F e (if cfg.maxSize.isSome then e.upd (.strengthen env) else e) := by
    split
    · exact .strengthen _
    · exact .refl _
  have h2 : Keeps env e (if cfg.maxSize.isSome then e.upd (.strengthen env) else e) := by
    split
    · exact .strengthen _ hx
    · exact ⟨rfl, rfl, hx⟩
  have h3 : (if cfg.maxSize.isSome then e.upd (.strengthen env) else e).canTp = e.canTp := by split <;> rfl
  unfold Hoard.hitUpd
  generalize (if cfg.maxSize.isSome then e.upd (.strengthen env) else e) = e1 at h1 h2 h3
  simp only
  cases hr : cfg.refresh with
  | none => exact ⟨h1, fun _ => h2, fun _ => h3⟩
  | some p =>
    obtain ⟨d, i⟩ := p
    simp only
    by_cases hi : i = 0
    · simp only [hi, if_true]; exact ⟨h1, fun _ => h2, fun _ => h3⟩
    · simp only [hi, if_false]
      by_cases hv : e1.mapped.holdsValue env = true
      · simp only [hv, if_true]
        refine ⟨h1.trans (.setCan _ _ hv h2.exp (by rw [h1.id, h1.pend]; exact hh)), fun hpos => ?_, fun _ => trivial⟩
        have := hpos d i rfl
        refine ⟨h2.val, h2.live, ?_⟩
        have hx := h2.exp
        simp only [Entry.expired, Bool.or_eq_false_iff] at hx ⊢
        refine ⟨hx.1, ?_⟩
        simp only [reached, decide_eq_false_iff_not]; omega
      · simp only [hv]
        refine ⟨h1, fun _ => h2, fun hne => ?_⟩
        exfalso; apply hv
        have hx := h2.exp
        have h2v := h2.val
        simp only [Entry.expired, Bool.or_eq_false_iff] at hx
        rw [← h2v] at hne
        have hx1 := hx.1.1.1
        cases hm : e1.mapped <;> rw [hm] at hne hx1 <;> simp [Mapped.val?, Mapped.holdsValue, Mapped.expired] at hne hx1 ⊢
        exact hx1

/-- The entry is in use and the step does not kill it. -/
structure Wanted (env : Env V) (F : Eff K V) (e : Entry K V E) : Prop where
  exp : e.expired env = false
  die : ¬ F.die e.id e.key e.mapped.val?
  use : e.mapped.val? ≠ none ∨ e.mapped.live = true

theorem Wanted.keeps {e e' : Entry K V E} (h : Wanted env F e) (s : ShrE cfg env F e e') (k : Keeps env e e') : Wanted env F e' where
  exp := k.exp
  die := by rw [s.id, s.key, k.val]; exact h.die
  use := by rw [k.val, k.live]; exact h.use

theorem Keeps.trans {a b c : Entry K V E} (h : Keeps env a b) (h' : Keeps env b c) : Keeps env a c :=
  ⟨h'.val.trans h.val, h'.live.trans h.live, h'.exp⟩

/-- What may happen to an object, linked or not. -/
structure LimE (F : Eff K V) (e e' : Entry K V E) : Prop where
  id : e'.id = e.id
  key : e'.key = e.key
  can : ¬ F.hit e.id → e'.canTp = e.canTp

theorem LimE.refl (e : Entry K V E) : LimE F e e := ⟨rfl, rfl, fun _ => rfl⟩
theorem LimE.trans {a b c : Entry K V E} (h : LimE F a b) (h' : LimE F b c) : LimE F a c :=
  ⟨h'.id.trans h.id, h'.key.trans h.key, fun hh => (h'.can (by rw [h.id]; exact hh)).trans (h.can hh)⟩
theorem ShrE.lim {e e' : Entry K V E} (h : ShrE cfg env F e e') : LimE F e e' := ⟨h.id, h.key, h.can⟩

/-- Nothing new appears between `s` and `s'`; lookups in flight stay linked. -/
structure Shr (cfg : Cfg K) (env : Env V) (F : Eff K V) (s s' : St K V E) : Prop where
  same : Same s s'
  bwd : ∀ e' ∈ s'.ents, ∃ e ∈ s.ents, ShrE cfg env F e e'
  keepP : ∀ e ∈ s.ents, e.isPending = true → ∃ e' ∈ s'.ents, ShrE cfg env F e e'
  keepV : ∀ e ∈ s.ents, Wanted env F e → ∃ e' ∈ s'.ents, ShrE cfg env F e e' ∧ Keeps env e e'
  dq : s'.delayQ.Sublist s.delayQ
  dqk : ∀ i ∈ s.delayQ, i ∈ s'.delayQ ∨ i ∉ s'.ents.map (·.id) ∨ F.pop i
  lim : (∀ e ∈ s.limbo, e.mapped.cbs = []) → ∀ e ∈ s'.limbo, e.mapped.cbs = []
  any : ∀ o ∈ s.ents ++ s.limbo, ∃ o' ∈ s'.ents ++ s'.limbo, LimE F o o'

theorem Shr.refl (s : St K V E) : Shr cfg env F s s :=
  ⟨.refl _, fun e h => ⟨e, h, .refl _⟩, fun e h _ => ⟨e, h, .refl _⟩, fun e h w => ⟨e, h, .refl _, rfl, rfl, w.exp⟩,
   .refl _, fun _ h => .inl h, fun h => h, fun o h => ⟨o, h, .refl _⟩⟩

theorem Shr.trans {a b c : St K V E} (h : Shr cfg env F a b) (h' : Shr cfg env F b c) : Shr cfg env F a c where
  same := h.same.trans h'.same
  bwd := by
    intro e' he'
    obtain ⟨e1, h1, s1⟩ := h'.bwd e' he'
    obtain ⟨e2, h2, s2⟩ := h.bwd e1 h1
    exact ⟨e2, h2, s2.trans s1⟩
  keepP := by
    intro e he hp
    obtain ⟨e1, h1, s1⟩ := h.keepP e he hp
    obtain ⟨e2, h2, s2⟩ := h'.keepP e1 h1 (s1.pend.trans hp)
    exact ⟨e2, h2, s1.trans s2⟩
  keepV := by
    intro e he w
    obtain ⟨e1, h1, s1, k1⟩ := h.keepV e he w
    obtain ⟨e2, h2, s2, k2⟩ := h'.keepV e1 h1 (w.keeps s1 k1)
    exact ⟨e2, h2, s1.trans s2, k1.trans k2⟩
  dq := h'.dq.trans h.dq
  dqk := by
    intro i hi
    rcases h.dqk i hi with h1 | h1 | h1
    · exact h'.dqk i h1
    · refine .inr (.inl fun hm => h1 ?_)
      obtain ⟨e, he, rfl⟩ := List.mem_map.1 hm
      obtain ⟨e0, h0, s0⟩ := h'.bwd e he
      exact List.mem_map.2 ⟨e0, h0, s0.id.symm⟩
    · exact .inr (.inr h1)
  lim := fun h0 => h'.lim (h.lim h0)
  any := by
    intro o ho
    obtain ⟨o1, h1, l1⟩ := h.any o ho
    obtain ⟨o2, h2, l2⟩ := h'.any o1 h1
    exact ⟨o2, h2, l1.trans l2⟩

theorem stale_not_pending {e : Entry K V E} (h : stale env e = true) : e.isPending = false := by
  simp only [stale, Bool.and_eq_true] at h
  simpa using h.2

theorem stale_expired {e : Entry K V E} (h : stale env e = true) : e.expired env = true := by
  simp only [stale, Bool.and_eq_true] at h
  exact h.1

theorem foldl_erase_sublist (l : List Nat) : ∀ (q : List Nat), (l.foldl List.erase q).Sublist q := by
  induction l with
  | nil => intro q; exact .refl _
  | cons a l ih => intro q; exact (ih _).trans List.erase_sublist

theorem foldl_erase_mem (l : List Nat) : ∀ (q : List Nat) (i), i ∈ q → i ∉ l → i ∈ l.foldl List.erase q := by
  induction l with
  | nil => intro q i h _; exact h
  | cons a l ih =>
    intro q i h hn
    rw [List.mem_cons, not_or] at hn
    exact ih _ _ ((List.mem_erase_of_ne hn.1).2 h) hn.2

theorem dispose_lim (cfg : Cfg K) (s : St K V E) (es) (h : ∀ e ∈ s.limbo, e.mapped.cbs = []) :
    ∀ e ∈ (dispose cfg s es).limbo, e.mapped.cbs = [] := by
  intro e he
  rw [(dispose_fields cfg es s).2.1] at he
  rcases List.mem_append.1 he with he | he
  · exact h e he
  · obtain ⟨x, _, rfl⟩ := List.mem_map.1 he
    show (x.upd .cancel).mapped.cbs = []
    unfold Entry.upd
    cases x.mapped <;> rfl

/-- A modification of the objects with one id. -/
theorem Shr.modify (s : St K V E) (i : Nat) (f) (hf : ∀ e ∈ s.ents, e.id = i → ShrE cfg env F e (f e))
    (hk : ∀ e ∈ s.ents, e.id = i → Wanted env F e → Keeps env e (f e))
    (hl : ∀ e ∈ s.limbo, e.id = i → LimE F e (f e) ∧ (f e).mapped.cbs = e.mapped.cbs) : Shr cfg env F s (s.modify i f) := by
  have hsh : ∀ e ∈ s.ents, ShrE cfg env F e (atId i f e) := by
    intro e he
    unfold atId; split
    · rename_i h; exact hf e he h
    · exact .refl _
  have hmem : ∀ e ∈ s.ents, atId i f e ∈ (s.modify i f).ents := by
    intro e he; rw [ents_modify]; exact List.mem_map.2 ⟨e, he, rfl⟩
  constructor
  case same => exact .modify _ _ _
  case bwd =>
    intro e' he'
    rw [ents_modify] at he'
    obtain ⟨e, he, rfl⟩ := List.mem_map.1 he'
    exact ⟨e, he, hsh e he⟩
  case keepP => intro e he _; exact ⟨_, hmem e he, hsh e he⟩
  case keepV =>
    intro e he w
    refine ⟨_, hmem e he, hsh e he, ?_⟩
    unfold atId; split
    · rename_i h; exact hk e he h w
    · exact ⟨rfl, rfl, w.exp⟩
  case dq => exact .refl _
  case dqk => exact fun _ h => .inl h
  case lim =>
    intro h e he
    rw [limbo_modify] at he
    obtain ⟨x, hx, rfl⟩ := List.mem_map.1 he
    unfold atId; split
    · rename_i hi; rw [(hl x hx hi).2]; exact h x hx
    · exact h x hx
  case any =>
    intro o ho
    rcases List.mem_append.1 ho with ho | ho
    · exact ⟨_, List.mem_append_left _ (hmem o ho), (hsh o ho).lim⟩
    · refine ⟨atId i f o, List.mem_append_right _ (by rw [limbo_modify]; exact List.mem_map.2 ⟨o, ho, rfl⟩), ?_⟩
      unfold atId; split
      · rename_i hi; exact (hl o ho hi).1
      · exact .refl _

/-- Removal of some entries, benign change of the others. -/
theorem Shr.removal {s : St K V E} {t' : List (List (Entry K V E))} {kept rem : List (Entry K V E)} {g : Entry K V E → Entry K V E}
    (w' : WF1 cfg (dispose cfg { s with tbl := t' } rem)) (h1 : s.ents.Perm (kept ++ rem)) (h2 : t'.flatten.Perm (kept.map g))
    (hg : ∀ e ∈ kept, ShrE cfg env F e (g e)) (hk : ∀ e ∈ kept, Wanted env F e → Keeps env e (g e))
    (hr : ∀ e ∈ rem, e.isPending = false ∧ ¬ Wanted env F e) : Shr cfg env F s (dispose cfg { s with tbl := t' } rem) := by
  obtain ⟨f1, f2, f3, f4, f5, f6, f7⟩ := dispose_fields cfg rem { s with tbl := t' }
  have hent : (dispose cfg { s with tbl := t' } rem).ents = t'.flatten := by rw [St.ents, f1]
  have hmem : ∀ e ∈ kept, g e ∈ (dispose cfg { s with tbl := t' } rem).ents := by
    intro e he; rw [hent]; exact h2.mem_iff.2 (List.mem_map.2 ⟨e, he, rfl⟩)
  constructor
  case same => exact Same.tbl _ _ _ _
  case bwd =>
    intro e' he'
    rw [hent] at he'
    obtain ⟨e, he, rfl⟩ := List.mem_map.1 (h2.mem_iff.1 he')
    exact ⟨e, h1.mem_iff.2 (List.mem_append_left _ he), hg e he⟩
  case keepP =>
    intro e he hp
    rcases List.mem_append.1 (h1.mem_iff.1 he) with h | h
    · exact ⟨_, hmem e h, hg e h⟩
    · rw [(hr e h).1] at hp; cases hp
  case keepV =>
    intro e he w
    rcases List.mem_append.1 (h1.mem_iff.1 he) with h | h
    · exact ⟨_, hmem e h, hg e h, hk e h w⟩
    · exact absurd w (hr e h).2
  case dq => rw [f6]; exact foldl_erase_sublist _ _
  case dqk =>
    intro i hi
    by_cases hm : i ∈ rem.map (·.id)
    · obtain ⟨e, he, rfl⟩ := List.mem_map.1 hm
      refine .inr (.inl fun hc => ?_)
      obtain ⟨e2, he2, hid⟩ := List.mem_map.1 hc
      have hl : e.upd .cancel ∈ (dispose cfg { s with tbl := t' } rem).limbo := by
        rw [f2]; exact List.mem_append_right _ (List.mem_map.2 ⟨e, he, rfl⟩)
      exact not_limbo_of_ents w' he2 hl hid
    · refine .inl ?_
      rw [f6]; exact foldl_erase_mem _ _ _ hi hm
  case lim => exact fun h => dispose_lim _ _ _ h
  case any =>
    intro o ho
    rw [f2]
    rcases List.mem_append.1 ho with ho | ho
    · rcases List.mem_append.1 (h1.mem_iff.1 ho) with h | h
      · exact ⟨_, List.mem_append_left _ (hmem o h), (hg o h).lim⟩
      · exact ⟨o.upd .cancel, List.mem_append_right _ (List.mem_append_right _ (List.mem_map.2 ⟨o, h, rfl⟩)), rfl, rfl, fun _ => rfl⟩
    · exact ⟨o, List.mem_append_right _ (List.mem_append_left _ ho), .refl _⟩

theorem not_wanted_of_stale {e : Entry K V E} (h : stale env e = true) : ¬ Wanted env F e := by
  intro w; have := stale_expired h; rw [w.exp] at this; cases this

theorem walked_shr {s : St K V E} (h : WF1 cfg s) (k : K) (incl : Bool) : Shr cfg env F s (walked cfg env s k incl) := by
  have h1 := getWalk_perm cfg env k incl (s.bucket (s.bucketFor (cfg.hash k)))
  obtain ⟨oth, h2, h3, _⟩ := applyWalk_perm (cfg := cfg) (g := id) h1 (by simp)
  have h3' : (walked cfg env s k incl).ents.Perm ((oth ++ (getWalk cfg env k incl (s.bucket (s.bucketFor (cfg.hash k)))).kept).map id) := by
    simpa [walked] using h3
  unfold walked applyWalk at h3'
  rw [dispose_ents] at h3'
  refine Shr.removal (g := id) (walked_wf1 h env k incl) h2 h3' (fun e _ => .refl _) (fun e _ w => ⟨rfl, rfl, w.exp⟩) ?_
  intro e he
  have := getWalk_removed cfg env k incl _ e he
  exact ⟨stale_not_pending this, not_wanted_of_stale this⟩

theorem onHit_fields (cfg : Cfg K) (env : Env V) (s : St K V E) (i : Nat) :
    (onHit cfg env s i).delayQ = s.delayQ ∧ (onHit cfg env s i).limbo = s.limbo.map (atId i (hitUpd cfg env)) := by
  have hid : ∀ l : List (Entry K V E), l = l.map (atId i id) := by
    intro l
    have : (atId i id : Entry K V E → Entry K V E) = id := by funext e; simp [atId]
    simp [this]
  constructor
  · unfold onHit
    split <;> (simp only; split) <;> (try split) <;> rfl
  · unfold onHit
    by_cases hm : cfg.maxSize.isSome = true
    · simp only [hm, if_true]
      split
      · rename_i hr
        have : (hitUpd cfg env : Entry K V E → Entry K V E) = (·.upd (.strengthen env)) := by funext e; simp [hitUpd, hr, hm]
        rw [this]; rfl
      · rename_i d idle hr
        split
        · rename_i h0
          have : (hitUpd cfg env : Entry K V E → Entry K V E) = (·.upd (.strengthen env)) := by funext e; simp [hitUpd, hr, hm, h0]
          rw [this]; rfl
        · rename_i h0
          rw [limbo_modify]
          show List.map _ (s.limbo.map (atId i _)) = _
          rw [List.map_map]
          apply List.map_congr_left
          intro e _
          simp only [Function.comp]
          rw [atId_comp i (IdKey.upd _)]
          simp [atId, hitUpd, hr, hm, h0]
    · simp only [hm]
      split
      · rename_i hr
        have : (hitUpd cfg env : Entry K V E → Entry K V E) = id := by funext e; simp [hitUpd, hr, hm]
        rw [this]; exact hid _
      · rename_i d idle hr
        split
        · rename_i h0
          have : (hitUpd cfg env : Entry K V E → Entry K V E) = id := by funext e; simp [hitUpd, hr, hm, h0]
          rw [this]; exact hid _
        · rename_i h0
          refine (limbo_modify _ i _).trans ?_
          apply List.map_congr_left
          intro e _
          simp [atId, hitUpd, hr, hm, h0]

/-- A hit of an entry that is not expired. -/
theorem onHit_shr (hc : cfg.Ok) {s : St K V E} (w : WF1 cfg s) {e0 : Entry K V E} (he0 : e0 ∈ s.ents)
    (hx : e0.expired env = false) (hh : F.hit e0.id ∨ e0.isPending = true) : Shr cfg env F s (onHit cfg env s e0.id) := by
  obtain ⟨hq, hl⟩ := onHit_fields cfg env s e0.id
  have hsh : ∀ e ∈ s.ents, ShrE cfg env F e (atId e0.id (hitUpd cfg env) e) := by
    intro e he
    unfold atId; split
    · rename_i h
      obtain rfl := eq_of_id w he he0 h
      exact (hitUpd_facts e hx hh).1
    · exact .refl _
  have hmem : ∀ e ∈ s.ents, atId e0.id (hitUpd cfg env) e ∈ (onHit cfg env s e0.id).ents := by
    intro e he; rw [onHit_ents]; exact List.mem_map.2 ⟨e, he, rfl⟩
  have hlim : ∀ e ∈ s.limbo, atId e0.id (hitUpd cfg env) e = e := by
    intro e he
    have := not_limbo_of_ents w he0 he
    simp [atId, Ne.symm this]
  have hl' : (onHit cfg env s e0.id).limbo = s.limbo := by
    rw [hl]
    conv => rhs; rw [← List.map_id s.limbo]
    exact List.map_congr_left hlim
  constructor
  case same => exact onHit_same _ _ _ _
  case bwd =>
    intro e' he'
    rw [onHit_ents] at he'
    obtain ⟨e, he, rfl⟩ := List.mem_map.1 he'
    exact ⟨e, he, hsh e he⟩
  case keepP => intro e he _; exact ⟨_, hmem e he, hsh e he⟩
  case keepV =>
    intro e he wn
    refine ⟨_, hmem e he, hsh e he, ?_⟩
    unfold atId; split
    · rename_i h
      obtain rfl := eq_of_id w he he0 h
      exact (hitUpd_facts e hx hh).2.1 hc.idle
    · exact ⟨rfl, rfl, wn.exp⟩
  case dq => rw [hq]; exact .refl _
  case dqk => rw [hq]; exact fun _ h => .inl h
  case lim => rw [hl']; exact fun h => h
  case any =>
    rw [hl']
    intro o ho
    rcases List.mem_append.1 ho with ho | ho
    · exact ⟨_, List.mem_append_left _ (hmem o ho), (hsh o ho).lim⟩
    · exact ⟨o, List.mem_append_right _ ho, .refl _⟩

theorem get__wf1 (hc : cfg.Ok) {s : St K V E} (h : WF1 cfg s) (env : Env V) (k : K) (incl : Bool) :
    WF1 cfg (get_ cfg env s k incl).1 := by
  rw [get__eq hc h.placed]
  split
  · exact walked_wf1 h _ _ _
  · rename_i e he
    exact onHit_wf1 env (walked_wf1 h _ _ _) (hit_mem_walked he)

theorem expire_shr (hc : cfg.Ok) {s : St K V E} (h : WF1 cfg s) (k : K) (hF : ∀ i k' v, cfg.eqv k' k = true → F.die i k' v) :
    Shr cfg env F s (expire_ cfg env s k) := by
  let p : Entry K V E → Bool := fun e => if cfg.eqv e.key k then e.isPending else !stale env e
  have hb : (s.bucket (s.bucketFor (cfg.hash k))).Perm
      ((s.bucket (s.bucketFor (cfg.hash k))).filter p ++
        (expireWalk cfg env k (s.bucket (s.bucketFor (cfg.hash k)))).removed) := by
    rw [(expireWalk_eq hc env k _).2]
    refine (filter_append_not _ p).trans ?_
    apply List.Perm.append_left
    rw [show (fun e : Entry K V E => !p e) =
      (fun e => if cfg.eqv e.key k then !e.isPending else stale env e) by
        funext e; simp only [p]; split <;> simp]
  obtain ⟨oth, h1, h2, h3⟩ := applyWalk_perm (cfg := cfg) hb (expireWalk_eq hc env k _).1
  have hoth : ∀ e ∈ oth, cfg.eqv e.key k = false := by
    intro e he
    cases hek : cfg.eqv e.key k
    · rfl
    · exact absurd (hc.hash _ _ hek) (h3 e he _ h.placed rfl)
  have h2' : (applyWalk cfg s (s.bucketFor (cfg.hash k)) (expireWalk cfg env k (s.bucket (s.bucketFor (cfg.hash k))))).ents.Perm
      ((oth ++ (s.bucket (s.bucketFor (cfg.hash k))).filter p).map (expUpd cfg k)) := by
    rw [List.map_append]
    refine h2.trans (List.Perm.append_right _ ?_)
    have : oth.map (expUpd cfg k) = oth := by
      conv => rhs; rw [← List.map_id oth]
      apply List.map_congr_left
      intro e he; simp [expUpd, hoth e he]
    rw [this]
  unfold applyWalk at h2'
  rw [dispose_ents] at h2'
  refine Shr.removal (expire_wf1 hc h env k) h1 h2' (fun e _ => .expUpd k e) ?_ ?_
  · intro e he w
    unfold expUpd; split
    · rename_i hk; exact absurd (hF _ _ _ hk) w.die
    · exact ⟨rfl, rfl, w.exp⟩
  · intro e he
    rw [(expireWalk_eq hc env k _).2, List.mem_filter] at he
    by_cases hk : cfg.eqv e.key k = true
    · simp only [hk, if_true] at he
      exact ⟨by simpa using he.2, fun w => w.die (hF _ _ _ hk)⟩
    · simp only [hk] at he
      exact ⟨stale_not_pending he.2, not_wanted_of_stale he.2⟩

theorem clear_shr {s : St K V E} (h : WF1 cfg s) (hF : ∀ i k v, F.die i k v) : Shr cfg env F s (clear cfg s) := by
  refine Shr.removal (kept := s.ents.filter (·.isPending)) (g := (·.upd .markExpired)) (clear_wf1 h) (filter_append_not _ _) ?_
    (fun e _ => .markExpired e) (fun e _ w => absurd (hF _ _ _) w.die) ?_
  · have := clear_ents cfg s
    unfold clear at this
    rw [dispose_ents] at this
    rw [show (s.tbl.map (fun b => (expireAllWalk b).kept)).flatten = _ from this]
  · intro e he
    have := (List.mem_filter.1 he).2
    exact ⟨by simpa using this, fun w => w.die (hF _ _ _)⟩

theorem purge_shr {s : St K V E} (h : WF1 cfg s) : Shr cfg env F s (purge cfg env s) := by
  refine Shr.removal (kept := s.ents.filter (fun e => !stale env e)) (g := id) (purge_wf1 h env) ?_ ?_
    (fun e _ => .refl _) (fun e _ w => ⟨rfl, rfl, w.exp⟩) ?_
  · have := filter_append_not s.ents (fun e => !stale env e)
    simpa [purgeWalk] using this
  · rw [List.map_id]
    simp only [St.ents, purgeWalk]; rw [flatten_map_filter]
  · intro e he
    have := (List.mem_filter.1 he).2
    exact ⟨stale_not_pending this, not_wanted_of_stale this⟩

theorem beforeLink_shr {s : St K V E} (h : WF1 cfg s) : Shr cfg env F s (beforeLink cfg env s) := by
  unfold beforeLink; split
  · exact purge_shr h
  · exact .refl _

/-- Only the order of the entries changes. -/
theorem Shr.perm {s s' : St K V E} (hs : Same s s') (hp : s'.ents.Perm s.ents) (hq : s'.delayQ = s.delayQ) (hl : s'.limbo = s.limbo) :
    Shr cfg env F s s' where
  same := hs
  bwd := fun e' he' => ⟨e', hp.mem_iff.1 he', .refl _⟩
  keepP := fun e he _ => ⟨e, hp.mem_iff.2 he, .refl _⟩
  keepV := fun e he w => ⟨e, hp.mem_iff.2 he, .refl _, rfl, rfl, w.exp⟩
  dq := by rw [hq]; exact .refl _
  dqk := by rw [hq]; exact fun _ h => .inl h
  lim := by rw [hl]; exact fun h => h
  any := by
    intro o ho
    refine ⟨o, ?_, .refl _⟩
    rw [hl]
    rcases List.mem_append.1 ho with ho | ho
    · exact List.mem_append_left _ (hp.mem_iff.2 ho)
    · exact List.mem_append_right _ ho

theorem maybeRehash_shr {s : St K V E} (h : WF1 cfg s) : Shr cfg env F s (maybeRehash cfg env s) := by
  unfold maybeRehash
  simp only
  split
  · rename_i hg
    exact (beforeLink_shr h).trans (.perm ⟨rfl, rfl, rfl⟩ (rehash_perm _ _ (grown_pos hg)) rfl rfl)
  · exact beforeLink_shr h

/-- An eviction that keeps the entry usable. -/
def Spared (cfg : Cfg K) (env : Env V) (v : Option V) : Prop :=
  cfg.weaken = true ∧ (v = none ∨ cfg.ptr = true ∧ ∀ u, v = some u → env.alive u = true)

theorem Keeps.evUpd (e : Entry K V E) (hx : e.expired env = false) (hs : Spared cfg env e.mapped.val?) (hu : e.mapped.val? ≠ none ∨ e.mapped.live = true) :
    Keeps env e (evUpd cfg e) := by
  obtain ⟨hw, hs⟩ := hs
  unfold Hoard.evUpd
  simp only [hw, if_true]
  rcases hs with hs | ⟨hp, hs⟩
  · have hl : e.mapped.live = true := hu.resolve_left (fun h => h hs)
    cases hm : e.mapped <;> simp_all [Mapped.live]
    constructor <;> simp_all [Entry.upd, Entry.expired, Mapped.expired, Mapped.holdsError, Mapped.weaken, Mapped.isVoid, Mapped.val?, Mapped.live]
  · cases hm : e.mapped <;> simp_all [Mapped.live, Mapped.val?]
    all_goals constructor <;> simp_all [Entry.upd, Entry.expired, Mapped.expired, Mapped.holdsError, Mapped.weaken, Mapped.isVoid, Mapped.val?, Mapped.live]

theorem evictAll_shr (vs : List Nat) : ∀ (s : St K V E), WF1 cfg s → (∀ i ∈ vs, F.vic i) →
    (∀ i ∈ vs, ∀ k v, ¬ Spared cfg env v → F.die i k v) → Shr cfg env F s (evictAll cfg s vs) := by
  induction vs with
  | nil => intro s _ _ _; exact .refl _
  | cons v vs ih =>
    intro s w hv hd
    refine Shr.trans (b := s.modify v (·.upd (if cfg.weaken then .weaken cfg.ptr else .markExpired))) ?_
      (ih _ (w.modify v (IdKey.upd _)) (fun i hi => hv i (List.mem_cons_of_mem _ hi)) (fun i hi => hd i (List.mem_cons_of_mem _ hi)))
    have hvv : F.vic v := hv v (List.mem_cons_self ..)
    refine Shr.modify s v _ (fun e _ hi => ShrE.evUpd e (hi ▸ hvv)) ?_
      (fun e _ hi => ⟨(ShrE.evUpd (cfg := cfg) (env := env) (F := F) e (hi ▸ hvv)).lim, (ShrE.evUpd (cfg := cfg) (env := env) (F := F) e (hi ▸ hvv)).cbs⟩)
    intro e he hi wn
    refine Keeps.evUpd e wn.exp ?_ wn.use
    refine Classical.byContradiction fun hns => wn.die ?_
    exact hd _ (hi ▸ List.mem_cons_self ..) _ _ hns

/-- What eviction may do. -/
def evEff (cfg : Cfg K) (env : Env V) (vs : List Nat) : Eff K V :=
  { die := fun i _ v => i ∈ vs ∧ ¬ Spared cfg env v, vic := fun i => i ∈ vs }

theorem maintenance_shr (env : Env V) {s : St K V E} (w : WF1 cfg s) :
    Shr cfg env (evEff cfg env (victimIds cfg s)) s (maintenance cfg s) := by
  cases hm : cfg.maxSize with
  | none => simp only [maintenance, hm]; exact .refl _
  | some m =>
    simp only [maintenance, victimIds, hm]
    exact evictAll_shr _ _ w (fun i hi => hi) (fun i hi k v hn => ⟨hi, hn⟩)

end Hoard
