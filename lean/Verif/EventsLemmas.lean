import Verif.Spec.Events
import Verif.VisitsLemmas
import Verif.FillLemmas
import Verif.HandlersFull
/-!
# The calls a policy sees agree with the table (helper lemmas for C113)
-/
namespace Hoard.Events
open Spec
variable {K V E : Type} {cfg : Cfg K} {env : Env V} {s s' s'' : St K V E}

def ids (s : St K V E) : List Nat := s.ents.map (·.id)

theorem notes_append (b : Book) (xs ys : List Ev) : b.notes (xs ++ ys) = (b.notes xs).notes ys := by simp [Book.notes]

theorem accepts_append (b : Book) (xs ys : List Ev) : b.accepts (xs ++ ys) ↔ b.accepts xs ∧ (b.notes xs).accepts ys := by
  induction xs generalizing b with
  | nil => simp [Book.accepts, Book.notes]
  | cons x xs ih => simp [Book.accepts, Book.notes, ih, and_assoc]

/-- Values of `s'` were there before, up to exceptions. -/
def Vals (X : Nat → Prop) (s s' : St K V E) : Prop :=
  ∀ e' ∈ s'.ents, e'.mapped.val?.isSome = true → X e'.id ∨ ∃ e ∈ s.ents, e.id = e'.id ∧ e.mapped.val?.isSome = true

theorem Vals.refl (X : Nat → Prop) (s : St K V E) : Vals X s s := fun e he hv => .inr ⟨e, he, rfl, hv⟩
theorem Vals.trans {X : Nat → Prop} (h : Vals X s s') (h' : Vals X s' s'') : Vals X s s'' := by
  intro e he hv
  rcases h' e he hv with hx | ⟨e1, h1, hi, hv1⟩
  · exact .inl hx
  · rcases h e1 h1 hv1 with hx | ⟨e2, h2, hi2, hv2⟩
    · exact .inl (hi ▸ hx)
    · exact .inr ⟨e2, h2, hi2.trans hi, hv2⟩
theorem Vals.of_shr {F : Eff K V} {X : Nat → Prop} (h : Shr cfg env F s s') : Vals X s s' := by
  intro e' he' hv
  obtain ⟨e, he, sh⟩ := h.bwd e' he'
  obtain ⟨v, hv⟩ := Option.isSome_iff_exists.1 hv
  exact .inr ⟨e, he, sh.id.symm, by rw [sh.val v hv]; rfl⟩
theorem Vals.of_spc {F : Eff K V} {x : Nat} (h : Spc cfg env F x s s') : Vals (fun i => i = x) s s' := by
  intro e' he' hv
  by_cases hx : e'.id = x
  · exact .inl hx
  · obtain ⟨e, he, sh⟩ := h.bwd e' he' hx
    obtain ⟨v, hv⟩ := Option.isSome_iff_exists.1 hv
    exact .inr ⟨e, he, sh.id.symm, by rw [sh.val v hv]; rfl⟩
theorem Vals.of_map {X : Nat → Prop} {g : Entry K V E → Entry K V E} (h : s'.ents = s.ents.map g)
    (hg : ∀ e, (g e).id = e.id ∧ ((g e).mapped.val?.isSome = true → X e.id ∨ e.mapped.val?.isSome = true)) : Vals X s s' := by
  intro e' he' hv
  rw [h] at he'
  obtain ⟨e, he, rfl⟩ := List.mem_map.1 he'
  rcases (hg e).2 hv with hx | hx
  · exact .inl (by rw [(hg e).1]; exact hx)
  · exact .inr ⟨e, he, (hg e).1.symm, hx⟩
theorem Vals.modify {X : Nat → Prop} (i : Nat) {f : Entry K V E → Entry K V E} (hf : IdKey f)
    (hv : ∀ e, (f e).mapped.val?.isSome = true → X i ∨ e.mapped.val?.isSome = true) : Vals X s (s.modify i f) :=
  .of_map (ents_modify s i f) (fun e => ⟨(hf.atId i e).1, by
    unfold atId; split
    · rename_i h; intro h2; rw [h]; exact hv e h2
    · exact .inr⟩)

theorem ids_map {g : Entry K V E → Entry K V E} (h : s'.ents = s.ents.map g) (hg : IdKey g) : ids s' = ids s := by
  unfold ids; rw [h, List.map_map]; exact List.map_congr_left (fun e _ => (hg e).1)
theorem ids_modify (i : Nat) {f : Entry K V E → Entry K V E} (hf : IdKey f) : ids (s.modify i f) = ids s := ids_map (ents_modify s i f) (hf.atId i)

/-- The notes of a policy agree with the table.  It need not know of the values of the entries in `Z`. -/
structure Knows (Z : Nat → Prop) (b : Book) (s : St K V E) : Prop where
  there : b.there.Perm (ids s)
  nd : (ids s).Nodup
  ever : ∀ i, i ∈ b.ever ↔ i < s.nextId
  sub : ∀ i ∈ b.there, i < s.nextId
  lt : ∀ i ∈ b.given, i < s.nextId
  op : ∀ i ∈ b.given, i ∉ s.opens
  val : ∀ e ∈ s.ents, e.mapped.val?.isSome = true → Z e.id ∨ e.id ∈ b.valued

/-- A change of the table together with the calls that report it. -/
def Seg (Z : Nat → Prop) (s s' : St K V E) (evs : List Ev) : Prop := ∀ b, Knows Z b s → b.accepts evs ∧ Knows Z (b.notes evs) s'

variable {Z : Nat → Prop}

theorem Seg.trans {xs ys : List Ev} (h : Seg Z s s' xs) (h' : Seg Z s' s'' ys) : Seg Z s s'' (xs ++ ys) := by
  intro b k
  obtain ⟨h1, h2⟩ := h b k
  obtain ⟨h3, h4⟩ := h' _ h2
  rw [accepts_append, notes_append]
  exact ⟨⟨h1, h3⟩, h4⟩

theorem Seg.refl (s : St K V E) : Seg Z s s [] := fun _ k => ⟨trivial, k⟩

theorem Seg.neutral (hp : (ids s').Perm (ids s)) (hn : s'.nextId = s.nextId) (ho : ∀ t ∈ s'.opens, t ∈ s.opens) (hv : Vals (fun _ => False) s s') :
    Seg Z s s' [] := by
  intro b k
  refine ⟨trivial, k.there.trans hp.symm, hp.nodup_iff.2 k.nd, by rw [hn]; exact k.ever, by rw [hn]; exact k.sub, by rw [hn]; exact k.lt,
    fun i hi h => k.op i hi (ho i h), ?_⟩
  intro e he hs
  rcases hv e he hs with h | ⟨e1, h1, hi, hs1⟩
  · exact h.elim
  · exact hi ▸ k.val e1 h1 hs1

theorem unlinks_book (rem : List (Entry K V E)) (b : Book) :
    (b.notes (unlinks rem)).ever = b.ever ∧ (b.notes (unlinks rem)).given = b.given ∧ (b.notes (unlinks rem)).valued = b.valued := by
  induction rem generalizing b with
  | nil => exact ⟨rfl, rfl, rfl⟩
  | cons e rem ih => exact ih (b.note (.unlink e.id))

theorem unlinks_there (rem : List (Entry K V E)) (l : List Nat) (b : Book) (h : b.there.Perm (l ++ rem.map (·.id))) :
    b.accepts (unlinks rem) ∧ (b.notes (unlinks rem)).there.Perm l := by
  induction rem generalizing b with
  | nil => exact ⟨trivial, by simpa [Book.notes, unlinks] using h⟩
  | cons e rem ih =>
    have hm : e.id ∈ b.there := h.mem_iff.2 (by simp)
    have h1 : (b.note (.unlink e.id)).there.Perm (l ++ rem.map (·.id)) := by
      show (b.there.erase e.id).Perm _
      have := (List.perm_cons_erase hm).symm.trans (h.trans List.perm_middle)
      exact this.cons_inv
    obtain ⟨h2, h3⟩ := ih _ h1
    exact ⟨⟨hm, h2⟩, h3⟩

theorem Seg.unlinks {rem : List (Entry K V E)} (hp : (ids s).Perm (ids s' ++ rem.map (·.id))) (hs : s'.nextId = s.nextId ∧ s'.opens = s.opens)
    (hv : Vals (fun _ => False) s s') : Seg Z s s' (unlinks rem) := by
  intro b k
  obtain ⟨h1, h2⟩ := unlinks_there rem (ids s') b (k.there.trans hp)
  obtain ⟨h3, h4, h5⟩ := unlinks_book rem b
  refine ⟨h1, h2, ?_, ?_, ?_, ?_, ?_, ?_⟩
  · exact (List.nodup_append.1 (hp.nodup_iff.1 k.nd)).1
  · rw [h3, hs.1]; exact k.ever
  · rw [hs.1]
    exact fun i hi => k.sub i ((k.there.trans hp).mem_iff.2 (List.mem_append_left _ (h2.mem_iff.1 hi)))
  · rw [h4, hs.1]; exact k.lt
  · rw [h4, hs.2]; exact k.op
  · rw [h5]
    intro e he hs
    rcases hv e he hs with h | ⟨e1, h1, hi, hs1⟩
    · exact h.elim
    · exact hi ▸ k.val e1 h1 hs1

theorem Seg.hit {i : Nat} (hi : i ∈ ids s) : Seg Z s s [.hit i] := by
  intro b k
  exact ⟨⟨k.there.mem_iff.2 hi, trivial⟩, k.there, k.nd, k.ever, k.sub, k.lt, k.op, k.val⟩

theorem Seg.miss : Seg Z s s [.miss] := by
  intro b k
  exact ⟨⟨trivial, trivial⟩, k.there, k.nd, k.ever, k.sub, k.lt, k.op, k.val⟩

/-- A new entry without value. -/
theorem Seg.create (hp : (ids s').Perm (ids s ++ [s.nextId])) (hn : s'.nextId = s.nextId + 1) (ho : ∀ t ∈ s'.opens, t ∈ s.opens ∨ t = s.nextId)
    (hv : Vals (fun _ => False) s s') : Seg Z s s' [.create s.nextId] := by
  intro b k
  have hlt : s.nextId ∉ ids s := fun h => Nat.lt_irrefl _ (k.sub _ (k.there.mem_iff.2 h))
  refine ⟨⟨fun h => Nat.lt_irrefl _ ((k.ever _).1 h), trivial⟩, ?_, ?_, ?_, ?_, ?_, ?_, ?_⟩
  · exact ((k.there.cons _).trans (List.perm_append_singleton _ _).symm).trans hp.symm
  · rw [hp.nodup_iff]
    exact (List.perm_append_singleton _ _).nodup_iff.2 (List.nodup_cons.2 ⟨hlt, k.nd⟩)
  · intro i
    show i ∈ s.nextId :: b.ever ↔ _
    rw [List.mem_cons, k.ever i, hn]
    omega
  · intro i hi
    rcases List.mem_cons.1 hi with rfl | h
    · omega
    · have := k.sub i h; omega
  · intro i hi; have := k.lt i hi; omega
  · intro i hi h
    rcases ho i h with h | h
    · exact k.op i hi h
    · have := k.lt i hi; omega
  · intro e he hs
    rcases hv e he hs with h | ⟨e1, h1, hi, hs1⟩
    · exact h.elim
    · exact hi ▸ k.val e1 h1 hs1

/-- A new entry with a value or an error. -/
theorem Seg.born (v : Bool) (hp : (ids s').Perm (ids s ++ [s.nextId])) (hn : s'.nextId = s.nextId + 1) (ho : s'.opens = s.opens)
    (hno : s.nextId ∉ s.opens) (hv : Vals (fun i => i = s.nextId ∧ v = true) s s') : Seg Z s s' [.create s.nextId, .assign s.nextId v false] := by
  intro b k
  have hlt : s.nextId ∉ ids s := fun h => Nat.lt_irrefl _ (k.sub _ (k.there.mem_iff.2 h))
  refine ⟨⟨fun h => Nat.lt_irrefl _ ((k.ever _).1 h), ⟨List.mem_cons_self, fun h => Nat.lt_irrefl _ (k.lt _ h), fun _ => rfl⟩, trivial⟩, ?_, ?_, ?_, ?_, ?_, ?_, ?_⟩
  · exact ((k.there.cons _).trans (List.perm_append_singleton _ _).symm).trans hp.symm
  · rw [hp.nodup_iff]
    exact (List.perm_append_singleton _ _).nodup_iff.2 (List.nodup_cons.2 ⟨hlt, k.nd⟩)
  · intro i
    show i ∈ s.nextId :: b.ever ↔ _
    rw [List.mem_cons, k.ever i, hn]
    omega
  · intro i hi
    rcases List.mem_cons.1 hi with rfl | h
    · omega
    · have := k.sub i h; omega
  · intro i hi
    rcases List.mem_cons.1 hi with rfl | h
    · omega
    · have := k.lt i h; omega
  · intro i hi h
    rw [ho] at h
    rcases List.mem_cons.1 hi with rfl | hi
    · exact hno h
    · exact k.op i hi h
  · intro e he hs
    rcases hv e he hs with h | ⟨e1, h1, hi, hs1⟩
    · obtain ⟨h, rfl⟩ := h
      exact .inr (h ▸ List.mem_cons_self)
    · refine (hi ▸ k.val e1 h1 hs1 : Z e.id ∨ e.id ∈ b.valued).imp_right (fun q => ?_)
      cases v with
      | true => exact List.mem_cons_of_mem _ q
      | false => exact q

/-- A lookup completes. -/
theorem Seg.assign {t : Nat} (v : Bool) (ht : t ∈ s.opens) (hm : t ∈ ids s) (hp : ids s' = ids s) (hn : s'.nextId = s.nextId)
    (ho : s'.opens = s.opens.erase t) (hno : s.opens.Nodup) (hv : Vals (fun i => i = t ∧ v = true) s s') : Seg Z s s' [.assign t v true] := by
  intro b k
  refine ⟨⟨⟨k.there.mem_iff.2 hm, fun h => k.op t h ht, fun h => by cases h⟩, trivial⟩, ?_, ?_, ?_, ?_, ?_, ?_, ?_⟩
  · rw [hp]; exact k.there
  · rw [hp]; exact k.nd
  · rw [hn]; exact k.ever
  · rw [hn]; exact k.sub
  · intro i hi
    rw [hn]
    rcases List.mem_cons.1 hi with rfl | h
    · exact k.sub _ (k.there.mem_iff.2 hm)
    · exact k.lt i h
  · intro i hi h
    rw [ho] at h
    rcases List.mem_cons.1 hi with rfl | hi
    · exact (hno.mem_erase_iff.1 h).1 rfl
    · exact k.op i hi (List.mem_of_mem_erase h)
  · intro e he hs
    rcases hv e he hs with h | ⟨e1, h1, hi, hs1⟩
    · obtain ⟨h, rfl⟩ := h
      exact .inr (h ▸ List.mem_cons_self)
    · refine (hi ▸ k.val e1 h1 hs1 : Z e.id ∨ e.id ∈ b.valued).imp_right (fun q => ?_)
      cases v with
      | true => exact List.mem_cons_of_mem _ q
      | false => exact q

/-! ### The operations -/

theorem walked_seg (w : WF1 cfg s) (k : K) (incl : Bool) :
    Seg Z s (walked cfg env s k incl) (unlinks (getWalk cfg env k incl (s.bucket (s.bucketFor (cfg.hash k)))).removed) := by
  have h1 := getWalk_perm cfg env k incl (s.bucket (s.bucketFor (cfg.hash k)))
  obtain ⟨oth, h2, h3, _⟩ := applyWalk_perm (cfg := cfg) (g := id) h1 (by simp)
  refine .unlinks ?_ ⟨by simp [walked], by simp [walked]⟩ (.of_shr (env := env) (F := {}) (walked_shr w k incl))
  have h2' := h2.map (·.id)
  have h3' := h3.map (·.id)
  rw [List.map_append] at h2'
  rw [List.map_id] at h3'
  exact h2'.trans (h3'.symm.append_right _)

theorem onHit_ids (i : Nat) : ids (onHit cfg env s i) = ids s := ids_map (onHit_ents cfg env s i) ((hitUpd_idKey cfg env).atId i)
theorem onAssign_ids (i : Nat) (b : Bool) : ids (onAssign cfg env s i b) = ids s := ids_map (onAssign_ents cfg env s i b) ((assignTimes_idKey cfg env b).atId i)
theorem onCreate_ids (i : Nat) : ids (onCreate cfg env s i) = ids s := ids_map (onCreate_ents cfg env s i) (creUpd_idKey _ _)

theorem strengthen_val (m : Mapped V E) : (m.strengthen env).val?.isSome = true → m.val?.isSome = true := by
  cases m with
  | pending p => unfold Mapped.strengthen; simp only; split <;> exact fun h => h
  | _ => simp [Mapped.strengthen, Mapped.val?]

theorem hitUpd_val (x : Entry K V E) : (hitUpd cfg env x).mapped.val?.isSome = true → x.mapped.val?.isSome = true := by
  have h : (hitUpd cfg env x).mapped = x.mapped ∨ (hitUpd cfg env x).mapped = x.mapped.strengthen env := by
    unfold hitUpd
    simp only
    cases cfg.refresh with
    | none => by_cases hm : cfg.maxSize.isSome = true <;> simp [hm, Entry.upd]
    | some p =>
      obtain ⟨a, idle⟩ := p
      by_cases hm : cfg.maxSize.isSome = true <;> simp only [hm, if_true, if_false, Bool.false_eq_true] <;> repeat' split
      all_goals first | exact .inl rfl | exact .inr rfl
  rcases h with h | h <;> rw [h]
  · exact fun h => h
  · exact strengthen_val _

theorem atId_hit_val (i : Nat) (x : Entry K V E) :
    (atId i (hitUpd cfg env) x).mapped.val?.isSome = true → False ∨ x.mapped.val?.isSome = true := by
  unfold atId; split
  · exact fun h => .inr (hitUpd_val x h)
  · exact .inr

theorem lookup_seg (hc : cfg.Ok) (w : WF1 cfg s) (k : K) (incl : Bool) : Seg Z s (get_ cfg env s k incl).1 (lookup cfg env s k incl) := by
  have hw := walked_seg (Z := Z) (env := env) w k incl
  have h1 : (getWalk cfg env k incl (s.bucket (s.bucketFor (cfg.hash k)))).hit =
      (s.ents.find? (isHit cfg env k incl)).map (fun e => (e.id, e.mapped.get env incl)) := by
    rw [getWalk_hit hc, find_ents_bucket hc w.placed]
  have hsh := get__shr (env := env) hc w k incl
  rw [get__eq hc w.placed] at hsh ⊢
  unfold lookup
  simp only
  rw [h1]
  cases hf : s.ents.find? (isHit cfg env k incl) with
  | none => exact hw.trans .miss
  | some e =>
    have hm : e.id ∈ ids (walked cfg env s k incl) := List.mem_map.2 ⟨e, hit_mem_walked hf, rfl⟩
    refine hw.trans ?_
    show Seg Z _ _ ([.hit e.id] ++ [])
    refine (Seg.hit hm).trans (.neutral (by rw [onHit_ids]) (by simp) (by simp) ?_)
    refine .of_map (onHit_ents cfg env _ _) (fun x => ⟨((hitUpd_idKey cfg env).atId e.id x).1, ?_⟩)
    exact atId_hit_val e.id x

theorem expire_seg (hc : cfg.Ok) (w : WF1 cfg s) (k : K) : Seg Z s (expire_ cfg env s k) (expire cfg env s k) := by
  have hsh := expire_shr (env := env) (F := { die := fun _ _ _ => True }) hc w k (fun _ _ _ _ => trivial)
  obtain ⟨h1, h2⟩ := expireWalk_eq hc env k (s.bucket (s.bucketFor (cfg.hash k)))
  have hb : (s.bucket (s.bucketFor (cfg.hash k))).Perm
      ((s.bucket (s.bucketFor (cfg.hash k))).filter (fun e => if cfg.eqv e.key k then e.isPending else !stale env e) ++
        (expireWalk cfg env k (s.bucket (s.bucketFor (cfg.hash k)))).removed) := by
    rw [h2]
    have := filter_append_not (s.bucket (s.bucketFor (cfg.hash k))) (fun e => if cfg.eqv e.key k then e.isPending else !stale env e)
    have h3 : (fun e : Entry K V E => !(if cfg.eqv e.key k then e.isPending else !stale env e)) =
        (fun e => if cfg.eqv e.key k then !e.isPending else stale env e) := by
      funext e; split <;> simp
    rw [← h3]; exact this
  obtain ⟨oth, h3, h4, _⟩ := applyWalk_perm (cfg := cfg) hb h1
  refine .unlinks ?_ ⟨by simp, by simp⟩ (.of_shr hsh)
  have h3' := h3.map (·.id)
  have h4' := h4.map (·.id)
  simp only [List.map_append, List.map_map] at h3' h4'
  have hid : ∀ l : List (Entry K V E), l.map ((fun e => e.id) ∘ fun e => if cfg.eqv e.key k = true then e.upd .markExpired else e) = l.map (·.id) := by
    intro l; apply List.map_congr_left; intro e _; simp only [Function.comp]; split <;> rfl
  rw [hid] at h4'
  exact h3'.trans (h4'.symm.append_right _)

theorem clear_seg (env : Env V) (w : WF1 cfg s) : Seg Z s (clear cfg s) (unlinks (expireAllWalk s.ents).removed) := by
  have hsh := clear_shr (env := env) (F := { die := fun _ _ _ => True }) w (fun _ _ _ => trivial)
  refine .unlinks ?_ ⟨by simp, by simp⟩ (.of_shr hsh)
  unfold ids
  rw [clear_ents, List.map_map]
  have := (filter_append_not s.ents (·.isPending)).map (·.id)
  rw [List.map_append] at this
  exact this

theorem before_seg (w : WF1 cfg s) : Seg Z s (beforeLink cfg env s) (before cfg env s) := by
  unfold beforeLink before
  split
  · have hsh := purge_shr (env := env) (F := {}) w
    refine .unlinks ?_ ⟨by simp, by simp⟩ (.of_shr hsh)
    unfold ids
    rw [purge_ents]
    have := (filter_append_not s.ents (fun e => !stale env e)).map (·.id)
    rw [List.map_append] at this
    simpa [purgeWalk] using this
  · exact .refl s

theorem rehash_seg (w : WF1 cfg s) : Seg Z s (maybeRehash cfg env s) (before cfg env s) := by
  have h1 := before_seg (Z := Z) (env := env) w
  unfold maybeRehash
  simp only
  split
  · rename_i hg
    have hp := rehash_perm cfg (beforeLink cfg env s) (grown_pos hg)
    have : Seg Z (beforeLink cfg env s) (rehash cfg (beforeLink cfg env s) (grown cfg (beforeLink cfg env s).tbl.length)) [] :=
      .neutral (hp.map _) rfl (fun t h => h) (fun e he hv => .inr ⟨e, hp.mem_iff.1 he, rfl, hv⟩)
    have := h1.trans this
    rwa [List.append_nil] at this
  · exact h1

theorem place_ids (s : St K V E) (e : Entry K V E) (hn : s.tbl ≠ []) :
    ({ s with tbl := place cfg s.tbl e, nextId := s.nextId + 1 } : St K V E).ents.Perm (s.ents ++ [e]) :=
  Buckets.perm_place (fun e : Entry K V E => cfg.hash e.key) hn e

theorem onAssign_vals {X : Nat → Prop} (i : Nat) (v : Bool) : Vals X s (onAssign cfg env s i v) :=
  .of_map (onAssign_ents cfg env s i v) (fun e => ⟨((assignTimes_idKey cfg env v).atId i e).1, fun h => .inr (by
    unfold atId at h; split at h
    · unfold assignTimes at h; repeat' split at h
      all_goals exact h
    · exact h)⟩)

theorem link_seg (w : WF1 cfg s) {e : Entry K V E} (he : e.id = s.nextId) (hno : s.nextId ∉ s.opens)
    (hvl : e.mapped.val?.isSome = true → e.mapped.holdsValue env = true) : Seg Z s (link cfg env s e) (linked cfg env s e) := by
  have h1 := rehash_seg (Z := Z) (env := env) w
  have hne := maybeRehash_ne (cfg := cfg) env s
  have hnx : (maybeRehash cfg env s).nextId = s.nextId := by simp
  have hop : (maybeRehash cfg env s).opens = s.opens := by simp
  unfold linked
  refine h1.trans ?_
  unfold link
  simp only
  generalize maybeRehash cfg env s = s1 at *
  have hp := place_ids (cfg := cfg) s1 e hne
  have hpi : (ids ({ s1 with tbl := place cfg s1.tbl e, nextId := s1.nextId + 1 } : St K V E)).Perm (ids s1 ++ [s1.nextId]) := by
    have := hp.map (·.id)
    rw [List.map_append] at this
    rw [hnx, ← he]
    exact this
  have hsp := place_spc (cfg := cfg) (F := {}) env s1 e hne
  generalize hs2 : ({ s1 with tbl := place cfg s1.tbl e, nextId := s1.nextId + 1 } : St K V E) = s2 at *
  have hn2 : s2.nextId = s1.nextId + 1 := by rw [← hs2]
  have ho2 : s2.opens = s1.opens := by rw [← hs2]
  have hcr := onCreate_shr (cfg := cfg) (F := {}) env s2 e.id
  have hid : e.id = s1.nextId := he.trans hnx.symm
  split
  · rename_i hpend
    rw [hid]
    rw [hid] at hcr
    refine .create (by rw [onCreate_ids]; exact hpi) (by simp [hn2]) (by simp [ho2]; exact fun t h => .inl h) ?_
    intro e' he' hv
    rcases Vals.of_shr (X := fun _ => False) hcr e' he' hv with h | ⟨e1, h2, hi, hv1⟩
    · exact .inl h
    · rcases List.mem_append.1 (hp.mem_iff.1 h2) with h | h
      · exact .inr ⟨e1, h, hi, hv1⟩
      · simp at h
        subst h
        exfalso
        revert hpend hv1
        unfold Entry.isPending Mapped.isPending
        cases e1.mapped <;> simp [Mapped.val?]
  · rw [hid]
    rw [hid] at hcr hsp
    refine .born _ (by rw [onAssign_ids, onCreate_ids]; exact hpi) (by simp [hn2]) (by simp [ho2]) (by rw [hnx, hop]; exact hno) ?_
    refine Vals.trans (Vals.trans (s' := s2) ?_ (.of_shr hcr)) (onAssign_vals _ _)
    intro e' he' hv
    rcases List.mem_append.1 (hp.mem_iff.1 he') with h | h
    · exact .inr ⟨e', h, rfl, hv⟩
    · simp at h
      subst h
      exact .inl ⟨hid, hvl hv⟩

theorem evict_seg (env : Env V) (w : WF1 cfg s) : Seg Z s (maintenance cfg s) [] := by
  have hsh := maintenance_shr (cfg := cfg) env w
  refine .neutral ?_ (by simp) (by simp) (.of_shr hsh)
  have : ids (maintenance cfg s) = ids s := by
    unfold ids
    rw [maintenance_ents w, List.map_map]
    apply List.map_congr_left
    intro e _
    simp only [Function.comp]
    split
    · unfold evUpd; split <;> rfl
    · rfl
  rw [this]

theorem tried_seg (w : WF1 cfg s) {e : Entry K V E} (he : e.id = s.nextId) (hno : s.nextId ∉ s.opens)
    (hvl : e.mapped.val?.isSome = true → e.mapped.holdsValue env = true) (f : Fail) : Seg Z s (tryLink cfg env s e f).1 (tried cfg env s e f) := by
  cases f with
  | none => exact link_seg w he hno hvl
  | alloc => exact .refl s
  | grow =>
    simp only [tryLink, tried]
    by_cases h : mustGrow cfg (beforeLink cfg env s) = true
    · simp only [h, if_true]; exact before_seg w
    · simp only [h]; exact link_seg w he hno hvl

theorem runCb_ids (i : Nat) (c : Cb) : ids (runCb s i c) = ids s := by
  cases c with
  | user _ => rfl
  | refresh old => unfold runCb; simp only; rw [ids_modify _ (IdKey.upd _)]; exact ids_modify i (fun _ => ⟨rfl, rfl⟩)
theorem runCbs_ids (i : Nat) (cs : List Cb) : ids (runCbs s i cs) = ids s := by
  unfold runCbs
  induction cs generalizing s with
  | nil => rfl
  | cons c cs ih => rw [List.foldl_cons, ih, runCb_ids]
theorem upd_vals {X : Nat → Prop} (i : Nat) {g : Mapped V E → Mapped V E} (hg : ∀ m, (g m).val?.isSome = true → m.val?.isSome = true) :
    Vals X s (s.modify i (·.upd g)) := .modify i (IdKey.upd _) (fun e h => .inr (hg e.mapped h))
theorem runCb_vals {X : Nat → Prop} (i : Nat) (c : Cb) : Vals X s (runCb s i c) := by
  cases c with
  | user _ => exact .refl X s
  | refresh old =>
    unfold runCb
    simp only
    refine Vals.trans ?_ (upd_vals old (fun m => by cases m <;> simp [Mapped.markExpired, Mapped.val?]))
    exact Vals.modify i (fun _ => ⟨rfl, rfl⟩) (fun e h => .inr h)
theorem runCbs_vals {X : Nat → Prop} (i : Nat) (cs : List Cb) : Vals X s (runCbs s i cs) := by
  unfold runCbs
  induction cs generalizing s with
  | nil => exact .refl X s
  | cons c cs ih => rw [List.foldl_cons]; exact (runCb_vals i c).trans ih

theorem cancel_val (m : Mapped V E) : m.cancel.val?.isSome = true → m.val?.isSome = true := by
  cases m <;> simp [Mapped.cancel, Mapped.val?]

theorem completed_val {r : Res V E} (m : Mapped V E) (h : (Hoard.completed cfg r m).val?.isSome = true) : r.isOk = true ∨ m.val?.isSome = true := by
  cases r with
  | ok v => exact .inl rfl
  | err x =>
    cases m with
    | pending p =>
      exfalso; revert h
      simp only [Hoard.completed, Mapped.assignedError]
      split <;> simp [Mapped.val?]
    | _ => exact .inr h

theorem complete_seg (t : Nat) (r : Res V E) (hno : s.opens.Nodup) (hm : s.destroyed = false → t ∈ s.opens → t ∈ ids s) :
    Seg Z s (complete cfg env s t r).1 (completed s t r) := by
  unfold completed
  by_cases ht : t ∈ s.opens
  · simp only [ht, if_true, complete]
    cases hd : s.destroyed with
    | true =>
      simp only [if_true]
      refine .neutral (by rw [ids_modify _ (IdKey.upd _)]; exact .refl _) rfl (fun t h => List.mem_of_mem_erase h) ?_
      exact Vals.trans (s' := ({ s with opens := s.opens.erase t, destroyed := true } : St K V E)) (fun e he hv => .inr ⟨e, he, rfl, hv⟩) (upd_vals t cancel_val)
    | false =>
      simp only [Bool.false_eq_true, if_false]
      refine .assign _ ht (hm hd ht) ?_ (by simp) (by simp) hno ?_
      · rw [onAssign_ids, ids_modify _ (IdKey.upd _), runCbs_ids]; rfl
      · refine Vals.trans ?_ (onAssign_vals _ _)
        refine Vals.trans ?_ (.modify t (IdKey.upd _) (fun e h => (completed_val e.mapped h).imp_left (fun q => ⟨rfl, q⟩)))
        refine Vals.trans ?_ (runCbs_vals t _)
        exact fun e he hv => .inr ⟨e, he, rfl, hv⟩
  · simp only [ht, if_false, complete]
    exact .refl s

theorem drop_seg (t : Nat) : Seg Z s (drop s t).1 [] := by
  unfold drop
  split
  · refine .neutral (by rw [ids_modify _ (IdKey.upd _)]; exact .refl _) rfl (fun t h => List.mem_of_mem_erase h) ?_
    exact Vals.trans (s' := ({ s with opens := s.opens.erase t } : St K V E)) (fun e he hv => .inr ⟨e, he, rfl, hv⟩) (upd_vals t cancel_val)
  · exact .refl s

theorem open_seg {s1 : St K V E} {evs : List Ev} (h : Seg Z s s1 evs) (hg : ∀ b : Book, (b.notes evs).given = b.given) :
    Seg Z s { s1 with opens := s1.opens ++ [s.nextId] } evs := by
  intro b k
  obtain ⟨h1, h2⟩ := h b k
  refine ⟨h1, h2.there, h2.nd, h2.ever, h2.sub, h2.lt, ?_, h2.val⟩
  intro i hi hio
  rcases List.mem_append.1 hio with h | h
  · exact h2.op i hi h
  · rw [hg] at hi
    have := k.lt i hi
    simp at h; omega

theorem linked_given {e : Entry K V E} (hp : e.isPending = true) (b : Book) : (b.notes (linked cfg env s e)).given = b.given := by
  unfold linked before
  rw [notes_append]
  simp only [hp, if_true]
  show (Book.notes b _).given = _
  split
  · exact (unlinks_book _ b).2.1
  · rfl

theorem resolveAsync_seg (w : WF1 cfg s) (hN : s.opens.Nodup) (hno : s.nextId ∉ s.opens) (k : K) (b : Beh V E) :
    Seg Z s (Hoard.resolveAsync cfg env s k b).1 (resolveAsync cfg env s k b) := by
  have h1 := link_seg (Z := Z) (env := env) w (e := newEntry s k (.pending {})) rfl hno (fun h => by cases h)
  have h2 := open_seg (Z := Z) h1 (linked_given rfl)
  have hop : (link cfg env s (newEntry s k (.pending {}))).opens = s.opens := by simp
  have hmem : s.nextId ∈ ids (link cfg env s (newEntry s k (.pending {}))) := by
    obtain ⟨_, _, hin, _⟩ := link_spc (F := ({} : Eff K V)) env w (e := newEntry s k (.pending {})) rfl
    exact List.mem_map.2 ⟨_, hin, (linkUpd_facts cfg env (newEntry s k (.pending {}))).1⟩
  unfold resolveAsync Hoard.resolveAsync
  simp only
  cases b with
  | later => simpa using h2
  | drop =>
    have := h2.trans (drop_seg (Z := Z) s.nextId)
    simpa using this
  | now r =>
    refine h2.trans (complete_seg s.nextId r ?_ (fun _ _ => hmem))
    rw [hop]
    exact (List.perm_append_singleton _ _).nodup_iff.2 (List.nodup_cons.2 ⟨hno, hN⟩)

theorem resolveSync_seg (w : WF1 cfg s) (hno : s.nextId ∉ s.opens) (k : K) (r : Res V E) :
    Seg Z s (Hoard.resolveSync cfg env s k r).1 (resolveSync cfg env s k r) :=
  link_seg w rfl hno (by cases r <;> simp [newEntry, syncMapped, Mapped.val?, Mapped.holdsValue])

theorem addCb_vals {X : Nat → Prop} (i : Nat) (c : Cb) : Vals X s (s.modify i (·.upd (.addCb c))) :=
  upd_vals i (fun m => by cases m <;> simp [Mapped.addCb, Mapped.val?])

theorem refresh_seg (w : WF1 cfg s) (hN : s.opens.Nodup) (hno : s.nextId ∉ s.opens) (e : Entry K V E) (r : Res V E) (b : Beh V E) :
    Seg Z s (Hoard.refresh cfg env s e r b).1 (refresh cfg env s e r b) := by
  unfold Hoard.refresh refresh
  by_cases hx : (e.refreshing || e.expired env) = true
  · rw [if_pos hx, if_pos hx]; exact .refl s
  · rw [if_neg hx, if_neg hx]
    have h1 : Seg Z s (if cfg.resolver = .async then Hoard.resolveAsync cfg env s e.key b else Hoard.resolveSync cfg env s e.key r).1
        (if cfg.resolver = .async then resolveAsync cfg env s e.key b else resolveSync cfg env s e.key r) := by
      by_cases ha : cfg.resolver = .async
      · simp only [ha, if_true]; exact resolveAsync_seg w hN hno _ _
      · simp only [ha, if_false]; exact resolveSync_seg w hno _ _
    generalize (if cfg.resolver = .async then Hoard.resolveAsync cfg env s e.key b else Hoard.resolveSync cfg env s e.key r) = g at h1
    generalize (if cfg.resolver = .async then resolveAsync cfg env s e.key b else resolveSync cfg env s e.key r) = evs at h1
    obtain ⟨s1, tok⟩ := g
    simp only at h1 ⊢
    have h2 : Seg Z s1 (s1.modify e.id (fun x => { x with refreshing := true })) [] :=
      .neutral (by rw [ids_modify e.id (f := fun x => { x with refreshing := true }) (fun _ => ⟨rfl, rfl⟩)]) rfl (fun _ h => h)
        (.modify e.id (fun _ => ⟨rfl, rfl⟩) (fun e h => .inr h))
    have h3 := h1.trans h2
    rw [List.append_nil] at h3
    generalize s1.modify e.id (fun x => { x with refreshing := true }) = s2 at h3
    cases s2.find tok with
    | none => exact h3
    | some n =>
      simp only
      split
      · have := h3.trans (.neutral (s' := s2.modify tok (·.upd (.addCb (.refresh e.id)))) (by rw [ids_modify _ (IdKey.upd _)]) rfl (fun _ h => h) (addCb_vals _ _))
        rwa [List.append_nil] at this
      · have := h3.trans (.neutral (s' := runCb s2 tok (.refresh e.id)) (by rw [runCb_ids]) (by simp) (by simp) (runCb_vals _ _))
        rwa [List.append_nil] at this

theorem answer_seg (i u : Nat) (l : Look V E) : Seg Z s (answer s i u l).1 [] := by
  cases l with
  | pend => exact .neutral (s' := s.modify i (·.upd (.addCb (.user u)))) (by rw [ids_modify _ (IdKey.upd _)]) rfl (fun _ h => h) (addCb_vals _ _)
  | _ => exact .refl s

theorem hit_none_iff {k : K} {incl : Bool} :
    (getWalk cfg env k incl (s.bucket (s.bucketFor (cfg.hash k)))).hit.isNone = true ↔ (get_ cfg env s k incl).2 = .none := by
  cases h : (getWalk cfg env k incl (s.bucket (s.bucketFor (cfg.hash k)))).hit with
  | none => simp [get_, h]
  | some x => simp; exact Visits.get__hit_ne h

/-- Each operation. -/
theorem step_seg' (hc : cfg.Ok) (w : WF1 cfg s) (hN : s.opens.Nodup) (hno : s.destroyed = false → s.nextId ∉ s.opens) (o : Op K V E) (hok : o.ok cfg s)
    (hco : ∀ t r, o = .complete t r → s.destroyed = false → t ∈ s.opens → t ∈ ids s) : Seg Z s (step cfg env s o).1 (events cfg env s o) := by
  have hgw : ∀ k incl, WF1 cfg (get_ cfg env s k incl).1 := fun k incl => get__wf1 hc w env k incl
  cases o with
  | getIfExists k => exact .refl s
  | count => exact .refl s
  | get k r =>
    have hd := hok.2
    have h1 := lookup_seg (Z := Z) (env := env) hc w k false
    show Seg Z s (get cfg env s k r).1 _
    simp only [events]
    have hno' : (get_ cfg env s k false).1.nextId ∉ (get_ cfg env s k false).1.opens := by simpa using hno hd
    by_cases hm : cfg.resolver = .sync ∧ (getWalk cfg env k false (s.bucket (s.bucketFor (cfg.hash k)))).hit.isNone = true
    · rw [if_pos hm]
      have hl := hit_none_iff.1 hm.2
      have : (get cfg env s k r).1 = (Hoard.resolveSync cfg env (get_ cfg env s k false).1 k r).1 := by
        simp only [get]
        rw [hl, hm.1]
      rw [this]
      exact h1.trans (resolveSync_seg (hgw k false) hno' k r)
    · rw [if_neg hm, List.append_nil]
      have : (get cfg env s k r).1 = (get_ cfg env s k false).1 := by
        have hm' : ¬ (cfg.resolver = .sync ∧ (get_ cfg env s k false).2 = .none) := fun h => hm ⟨h.1, hit_none_iff.2 h.2⟩
        simp only [get]
        revert hm'
        cases cfg.resolver <;> cases (get_ cfg env s k false).2 <;> simp
      rw [this]; exact h1
  | asyncGet k u b =>
    have hd := hok.2
    have h1 := lookup_seg (Z := Z) (env := env) hc w k true
    show Seg Z s (asyncGet cfg env s k u b).1 _
    simp only [events, asyncGet]
    cases hh : (getWalk cfg env k true (s.bucket (s.bucketFor (cfg.hash k)))).hit with
    | some x =>
      obtain ⟨i, l⟩ := x
      exact h1.trans (answer_seg i u l)
    | none =>
      have := h1.trans (resolveAsync_seg (Z := Z) (env := env) (hgw k true) (by simpa using hN) (by simpa using hno hd) k b)
      have := fun l => this.trans (answer_seg (Z := Z) (Hoard.resolveAsync cfg env (get_ cfg env s k true).1 k b).2 u l)
      simp only [List.append_nil] at this
      exact this _
  | emplace k v f =>
    have hd : s.destroyed = false := hok
    have h1 := expire_seg (Z := Z) (env := env) hc w k
    have w1 := expire_wf1 hc w env k
    have h2 := h1.trans (tried_seg (Z := Z) (env := env) w1 (e := newEntry (expire_ cfg env s k) k (.value v)) rfl (by simpa using hno hd) (fun _ => rfl) f)
    have w2 := Handlers.tryLink_wf1' (env := env) w1 (e := newEntry (expire_ cfg env s k) k (.value v)) rfl f
    show Seg Z s (emplace cfg env s k v f).1 _
    simp only [events, emplace]
    split
    · have := h2.trans (evict_seg (Z := Z) env w2)
      rwa [List.append_nil] at this
    · exact h2
  | getOrEmplace k v f =>
    have hd : s.destroyed = false := hok
    have h1 := lookup_seg (Z := Z) (env := env) hc w k true
    show Seg Z s (getOrEmplace cfg env s k v f).1 _
    simp only [events, getOrEmplace]
    by_cases hm : (getWalk cfg env k true (s.bucket (s.bucketFor (cfg.hash k)))).hit.isNone = true
    · rw [if_pos hm, hit_none_iff.1 hm]
      simp only
      have h2 := h1.trans (tried_seg (Z := Z) (env := env) (hgw k true) (e := newEntry (get_ cfg env s k true).1 k (.value v)) rfl (by simpa using hno hd) (fun _ => rfl) f)
      have w2 := Handlers.tryLink_wf1' (env := env) (hgw k true) (e := newEntry (get_ cfg env s k true).1 k (.value v)) rfl f
      split
      · have := h2.trans (evict_seg (Z := Z) env w2)
        rwa [List.append_nil] at this
      · exact h2
    · rw [if_neg hm, List.append_nil]
      have hl : (get_ cfg env s k true).2 ≠ .none := fun h => hm (hit_none_iff.2 h)
      have h2 := h1.trans (evict_seg (Z := Z) env (hgw k true))
      rw [List.append_nil] at h2
      cases hx : (get_ cfg env s k true).2 with
      | none => exact absurd hx hl
      | _ => exact h2
  | erase k => exact expire_seg hc w k
  | clear => exact clear_seg env w
  | complete t r =>
    exact complete_seg t r hN (hco t r rfl)
  | drop t => exact drop_seg t
  | tick r b =>
    have hd : s.destroyed = false := hok.2.2
    show Seg Z s (tick cfg env s r b).1 _
    simp only [events, tick]
    cases hq : s.delayQ with
    | nil => exact .refl s
    | cons i q =>
      simp only
      cases s.find i with
      | none => exact .refl s
      | some e =>
        simp only
        split
        · have hqn := w.dqN
          have hqm := w.dqM
          rw [hq] at hqn hqm
          have w' : WF1 cfg ({ s with delayQ := q } : St K V E) :=
            ⟨w.ids, w.lt, w.placed, w.sorted, w.bq, (List.nodup_cons.1 hqn).2, fun j hj => hqm j (List.mem_cons_of_mem _ hj)⟩
          have h0 : Seg Z s ({ s with delayQ := q } : St K V E) [] := .neutral (.refl _) rfl (fun _ h => h) (fun e he hv => .inr ⟨e, he, rfl, hv⟩)
          exact h0.trans (refresh_seg w' hN (hno hd) e r b)
        · exact .refl s
  | destroy =>
    show Seg Z s (destroy cfg s).1 _
    refine .unlinks ?_ ⟨by simp [destroy], by simp [destroy]⟩ ?_
    · unfold ids
      rw [destroy_ents]
      exact .refl _
    · intro e he
      rw [destroy_ents] at he
      cases he

theorem step_seg {M : Md V} {X : Nat → Prop} {L : Ledger K V} (hc : cfg.Ok) (h : Good cfg M X s L) (o : Op K V E) (hok : o.ok cfg s) :
    Seg Z s (step cfg env s o).1 (events cfg env s o) := by
  refine step_seg' hc h.wf1 h.wf2.opN (next_not_open h.wf1 h.wf2) o hok ?_
  intro t _ _ hd ht
  obtain ⟨e, he, hid, _⟩ := h.wf2.opE hd t ht
  exact List.mem_map.2 ⟨e, he, hid⟩

theorem trace_append (s : St K V E) (h1 h2 : Hist K V E) : trace cfg s (h1 ++ h2) = trace cfg s h1 ++ trace cfg (run cfg s h1).1 h2 := by
  induction h1 generalizing s with
  | nil => rfl
  | cons p h1 ih => obtain ⟨e, o⟩ := p; simp [trace, run, ih]

theorem knows_init : Knows Z {} (St.init : St K V E) := by
  constructor <;> simp [ids, St.init, St.ents]

theorem trace_knows (hc : cfg.Ok) (h : Hist K V E) (hok : HistOk cfg St.init h) :
    Book.accepts {} (trace cfg St.init h) ∧ Knows (fun _ => False) (Book.notes {} (trace cfg St.init h)) (stateAfter cfg h) := by
  induction h using snoc_ind with
  | h0 => exact ⟨trivial, knows_init⟩
  | h1 h p ih =>
    obtain ⟨env, o⟩ := p
    obtain ⟨hk1, hk2⟩ := HistOk_append.1 hok
    obtain ⟨h1, h2⟩ := ih hk1
    rw [trace_append, accepts_append, notes_append, stateAfter_snoc]
    obtain ⟨h3, h4⟩ := step_seg (env := env) hc (good_any hc h hk1 env) o hk2.1 _ h2
    simp only [trace, List.append_nil]
    exact ⟨⟨h1, h3⟩, h4⟩

end Hoard.Events
