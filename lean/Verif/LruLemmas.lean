import Verif.NonInt
import Verif.AsyncLemmas
import Verif.WithinLemmas
import Verif.Props.Recency
import Verif.Spec.Lru
/-! A cache with a size limit behaves like a list in recency order. -/
namespace Hoard
open Spec
variable {K V E : Type} {cfg : Cfg K} {s t : St K V E} {env : Env V}

/-- The item an entry stands for. -/
def itemOf (e : Entry K V E) : Item K V :=
  (e.key, match e.mapped with
    | .value v => some (v, e.expTp)
    | _ => none)

/-- Entries without lookups, weak pointers and idle deadlines. -/
def FlatE (e : Entry K V E) : Prop :=
  e.canTp = none ∧ ((∃ v, e.mapped = .value v) ∨ e.mapped = .gone ∨ ∃ x, e.mapped = .error x)

theorem FlatE.not_pending {e : Entry K V E} (h : FlatE e) : e.isPending = false := by
  obtain ⟨_, ⟨v, h⟩ | h | ⟨x, h⟩⟩ := h <;> simp [Entry.isPending, Mapped.isPending, h]

theorem FlatE.expired {e : Entry K V E} (h : FlatE e) (env : Env V) : e.expired env = !(itemOf e).live env.now := by
  obtain ⟨hc, ⟨v, h⟩ | h | ⟨x, h⟩⟩ := h
  · cases hx : e.expTp with
    | none => simp [Entry.expired, Mapped.expired, Mapped.holdsError, h, hc, itemOf, Item.live, reached, hx]
    | some tp =>
      obtain ⟨t, _ | w⟩ := tp <;>
        simp only [Entry.expired, Mapped.expired, Mapped.holdsError, h, hc, itemOf, Item.live, reached, Time.past, hx, Bool.or_false, Bool.false_or] <;>
        rw [Bool.eq_iff_iff] <;> simp <;> omega
  · simp [Entry.expired, Mapped.expired, h, itemOf, Item.live]
  · simp [Entry.expired, Mapped.expired, Mapped.holdsError, h, itemOf, Item.live]

theorem FlatE.stale {e : Entry K V E} (h : FlatE e) (env : Env V) : stale env e = !(itemOf e).live env.now := by
  simp [Hoard.stale, h.expired env, h.not_pending]

theorem FlatE.hit {e : Entry K V E} (h : FlatE e) (env : Env V) (k : K) (incl : Bool) :
    isHit cfg env k incl e = (itemOf e).answers cfg.eqv env.now k := by
  unfold isHit Item.answers
  rw [h.expired env]
  obtain ⟨hc, ⟨v, h⟩ | h | ⟨x, h⟩⟩ := h
  · simp [h, Mapped.get, itemOf]
  · simp [h, Mapped.get, itemOf, Item.live]
  · simp [h, Mapped.get, itemOf, Item.live]

/-- All entries are flat. -/
def Flat (s : St K V E) : Prop := ∀ e ∈ s.ents, FlatE e

/-- `es` are the entries in recency order. -/
structure Ordered (s : St K V E) (es : List (Entry K V E)) : Prop where
  perm : es.Perm s.ents
  ids : es.map (·.id) = s.bq.q

theorem Ordered.nodup {es : List (Entry K V E)} (h : Ordered s es) (w : WF1 cfg s) : (es.map (·.id)).Nodup :=
  (h.perm.map _).nodup_iff.2 (nodup_ents w)

theorem foldl_onUnlink_q (l : List Nat) : ∀ (b : BQ), b.Inv → (∀ x ∈ l, x ∈ b.q) → l.Nodup →
    (l.foldl BQ.onUnlink b).q = b.q.filter (fun x => decide (x ∉ l)) := by
  induction l with
  | nil => intro b _ _ _; exact (List.filter_eq_self.2 (by simp)).symm
  | cons a l ih =>
    intro b ⟨hs, cs, hsh⟩ hm hn
    rw [List.nodup_cons] at hn
    have ha : a ∈ b.q := hm a (by simp)
    obtain ⟨hs', cs', h1, h2⟩ := BQ.shape_onUnlink hsh ha
    have hq : (b.onUnlink a).q = b.q.filter (fun x => x != a) := by
      rw [h1.q, h2, ← hsh.q, hsh.nodup.erase_eq_filter]
    rw [List.foldl_cons, ih (b.onUnlink a) ⟨hs', cs', h1⟩ ?_ hn.2, hq, List.filter_filter]
    · apply List.filter_congr
      intro x _
      by_cases hx : x = a <;> by_cases hl : x ∈ l <;> simp [hx, hl]
    · intro x hx
      rw [hq, List.mem_filter]
      refine ⟨hm x (by simp [hx]), ?_⟩
      simp; rintro rfl; exact hn.1 hx

/-- The entries that stay after some were unlinked. -/
def stay (rem es : List (Entry K V E)) : List (Entry K V E) := es.filter (fun e => decide (e.id ∉ rem.map (·.id)))

theorem Ordered.unlink {es kept rem : List (Entry K V E)} (w : WF1 cfg s) (hm : cfg.maxSize.isSome = true) (h : Ordered s es)
    (hp : s.ents.Perm (kept ++ rem)) (ht : t.ents.Perm kept) (hq : t.bq = (rem.map (·.id)).foldl BQ.onUnlink s.bq) :
    Ordered t (stay rem es) := by
  have hn := nodup_ents w
  have hn2 : ((kept ++ rem).map (·.id)).Nodup := (hp.map _).nodup_iff.1 hn
  rw [List.map_append, List.nodup_append] at hn2
  refine ⟨?_, ?_⟩
  · refine ((h.perm.trans hp).filter _).trans ?_
    rw [List.filter_append]
    have h1 : kept.filter (fun e => decide (e.id ∉ rem.map (·.id))) = kept := by
      rw [List.filter_eq_self]
      intro a ha
      simp only [decide_eq_true_eq]
      exact fun hc => hn2.2.2 a.id (List.mem_map_of_mem ha) a.id hc rfl
    have h2 : rem.filter (fun e => decide (e.id ∉ rem.map (·.id))) = [] := by
      rw [List.filter_eq_nil_iff]
      intro a ha
      simp only [decide_eq_true_eq, Classical.not_not]
      exact List.mem_map_of_mem ha
    rw [h1, h2, List.append_nil]
    exact ht.symm
  · rw [hq, foldl_onUnlink_q _ _ (w.bq hm).1 ?_ hn2.2.1, ← h.ids, List.filter_map]
    · rfl
    · intro x hx
      rw [← h.ids]
      obtain ⟨e, he, rfl⟩ := List.mem_map.1 hx
      exact List.mem_map_of_mem (h.perm.mem_iff.2 (hp.mem_iff.2 (List.mem_append_right _ he)))

/-- Unlinking only dead entries is a sweep. -/
theorem swept_stay {es rem : List (Entry K V E)} (hd : ∀ e ∈ es, e.id ∈ rem.map (·.id) → (itemOf e).live env.now = false) :
    Swept env.now (es.map itemOf) ((stay rem es).map itemOf) := by
  refine ⟨List.filter_sublist.map _, ?_⟩
  rw [stay, List.filter_map, List.filter_map, List.filter_filter]
  congr 1
  apply List.filter_congr
  intro e he
  by_cases hi : e.id ∈ rem.map (·.id)
  · simp [Function.comp, hd e he hi]
  · simp only [Function.comp, hi, not_false_eq_true, decide_true, Bool.and_true]

theorem Spec.Swept.refl (now : Time) (l : List (Item K V)) : Swept now l l := ⟨List.Sublist.refl _, rfl⟩
theorem Spec.Swept.trans {now : Time} {a b c : List (Item K V)} (h : Swept now a b) (h' : Swept now b c) : Swept now a c :=
  ⟨h'.1.trans h.1, h'.2.trans h.2⟩

/-- The relation between the state and the list. -/
def Sim (s : St K V E) (l : List (Item K V)) : Prop := ∃ es, Ordered s es ∧ l = es.map itemOf

theorem Flat.of_perm {l : List (Entry K V E)} (h : Flat s) {r : List (Entry K V E)} (hp : s.ents.Perm (l ++ r)) (ht : t.ents.Perm l) : Flat t :=
  fun e he => h e (hp.mem_iff.2 (List.mem_append_left _ (ht.mem_iff.1 he)))

/-! ### Sweeping in passing -/

theorem walked_parts (cfg : Cfg K) (s : St K V E) (env : Env V) (k : K) (incl : Bool) (hm : cfg.maxSize.isSome = true) :
    ∃ rem, s.ents.Perm ((walked cfg env s k incl).ents ++ rem) ∧ (∀ e ∈ rem, Hoard.stale env e = true) ∧
      (walked cfg env s k incl).bq = (rem.map (·.id)).foldl BQ.onUnlink s.bq := by
  have h1 := getWalk_perm cfg env k incl (s.bucket (s.bucketFor (cfg.hash k)))
  obtain ⟨oth, h2, h3, _⟩ := applyWalk_perm (cfg := cfg) (g := id) h1 (by simp)
  refine ⟨_, h2.trans ?_, getWalk_removed cfg env k incl (s.bucket (s.bucketFor (cfg.hash k))), ?_⟩
  · rw [List.map_id] at h3
    exact (List.Perm.append_right _ h3).symm
  · obtain ⟨_, _, _, _, _, _, h⟩ := dispose_fields cfg (getWalk cfg env k incl (s.bucket (s.bucketFor (cfg.hash k)))).removed
      (s.setBucket (s.bucketFor (cfg.hash k)) (getWalk cfg env k incl (s.bucket (s.bucketFor (cfg.hash k)))).kept)
    rw [if_pos hm] at h
    exact h

theorem maybeRehash_parts (cfg : Cfg K) (s : St K V E) (env : Env V) (hm : cfg.maxSize.isSome = true) :
    ∃ rem, s.ents.Perm ((maybeRehash cfg env s).ents ++ rem) ∧ (∀ e ∈ rem, Hoard.stale env e = true) ∧
      (maybeRehash cfg env s).bq = (rem.map (·.id)).foldl BQ.onUnlink s.bq := by
  have hb : ∃ rem, s.ents.Perm ((beforeLink cfg env s).ents ++ rem) ∧ (∀ e ∈ rem, Hoard.stale env e = true) ∧
      (beforeLink cfg env s).bq = (rem.map (·.id)).foldl BQ.onUnlink s.bq := by
    unfold beforeLink
    split
    · refine ⟨s.ents.filter (fun e => Hoard.stale env e), ?_, fun e he => (List.mem_filter.1 he).2, ?_⟩
      · rw [purge_ents]
        have := filter_append_not s.ents (fun e => !Hoard.stale env e)
        simpa using this
      · obtain ⟨_, _, _, _, _, _, h⟩ := dispose_fields cfg (purgeWalk env s.ents).removed
          ({ s with tbl := s.tbl.map (fun b => (purgeWalk env b).kept) })
        rw [if_pos hm] at h
        exact h
    · exact ⟨[], by simp, by simp, rfl⟩
  obtain ⟨rem, h1, h2, h3⟩ := hb
  refine ⟨rem, ?_, h2, ?_⟩
  · unfold maybeRehash
    simp only
    split
    · rename_i hg
      exact h1.trans ((rehash_perm _ _ (grown_pos hg)).symm.append_right _)
    · exact h1
  · unfold maybeRehash
    simp only
    split
    · exact h3
    · exact h3

/-- Sweeping away dead entries. -/
theorem sim_parts {es rem : List (Entry K V E)} (w : WF1 cfg s) (hm : cfg.maxSize.isSome = true) (ho : Ordered s es) (hf : Flat s)
    (h1 : s.ents.Perm (t.ents ++ rem)) (h2 : ∀ e ∈ rem, Hoard.stale env e = true)
    (h3 : t.bq = (rem.map (·.id)).foldl BQ.onUnlink s.bq) :
    Ordered t (stay rem es) ∧ Flat t ∧ Swept env.now (es.map itemOf) ((stay rem es).map itemOf) := by
  refine ⟨ho.unlink w hm h1 (List.Perm.refl _) h3, Flat.of_perm hf h1 (List.Perm.refl _), swept_stay ?_⟩
  intro e he hi
  obtain ⟨r, hr, hri⟩ := List.mem_map.1 hi
  have hre : r = e := eq_of_id w (h1.mem_iff.2 (List.mem_append_right _ hr)) (ho.perm.mem_iff.1 he) hri
  subst hre
  have := h2 r hr
  rw [(hf r (ho.perm.mem_iff.1 he)).stale] at this
  simpa using this

/-- A subsequence of `without`. -/
theorem swept_without {eqv : K → K → Bool} {now : Time} {l l1 : List (Item K V)} {k : K} (h : l1.Sublist l)
    (hk : ∀ it ∈ l1, eqv it.1 k = false)
    (hl : l1.filter (Item.live now) = (without eqv k l).filter (Item.live now)) : Swept now (without eqv k l) l1 := by
  refine ⟨?_, hl⟩
  have := h.filter (fun it => !eqv it.1 k)
  rwa [List.filter_eq_self.2 (fun it hit => by simp [hk it hit])] at this

/-! ### Hits -/

theorem Ordered.hit {es a b : List (Entry K V E)} {e : Entry K V E} (w : WF1 cfg s) (hm : cfg.maxSize.isSome = true)
    (hr : cfg.refresh = none) (hf : Flat s) (ho : Ordered s es) (he : es = a ++ e :: b) :
    Ordered (onHit cfg env s e.id) (e :: (a ++ b)) ∧ Flat (onHit cfg env s e.id) := by
  have hu : ∀ x ∈ s.ents, atId e.id (hitUpd cfg env) x = x := by
    intro x hx
    unfold atId
    split
    · unfold hitUpd
      simp only [hm, hr, if_true]
      obtain ⟨_, ⟨v, h⟩ | h | ⟨y, h⟩⟩ := hf x hx <;>
        (show { x with mapped := x.mapped.strengthen env } = x; cases x; simp only at h; subst h; rfl)
    · rfl
  have hents : (onHit cfg env s e.id).ents = s.ents := by
    rw [onHit_ents]
    conv => rhs; rw [← List.map_id s.ents]
    exact List.map_congr_left hu
  have hbq : (onHit cfg env s e.id).bq = s.bq.onHit e.id := by
    unfold onHit; simp [hm, hr]
  have hn := ho.nodup w
  refine ⟨⟨?_, ?_⟩, ?_⟩
  · rw [hents]
    refine List.Perm.trans ?_ ho.perm
    rw [he]; exact List.perm_middle.symm
  · obtain ⟨⟨hs, cs, sh⟩, _⟩ := w.bq hm
    have hq := ho.ids
    have hmem : e.id ∈ s.bq.q := by rw [← hq, he]; simp
    obtain ⟨hs', cs', h1, h2⟩ := BQ.shape_onHit sh hmem
    rw [hbq, h1.q, h2, ← sh.q, ← hq]
    rw [he] at hn ⊢
    simp only [List.map_cons, List.map_append] at hn ⊢
    rw [List.nodup_append] at hn
    have : e.id ∉ a.map (·.id) := fun hc => hn.2.2 _ hc _ (by simp) rfl
    rw [List.erase_append_right _ this, List.erase_cons_head]
  · intro x hx; rw [hents] at hx; exact hf x hx

/-! ### Insertions -/

theorem link_parts {s : St K V E} (w : WF1 cfg s) {e : Entry K V E} (he : e.id = s.nextId) (hm : cfg.maxSize.isSome = true) (env : Env V) :
    (link cfg env s e).bq = ((maybeRehash cfg env s).bq.onCreate e.id).1 ∧
    (link cfg env s e).ents.Perm ((maybeRehash cfg env s).ents.map (creUpd (strId cfg (maybeRehash cfg env s) e.id) env) ++ [linkUpd cfg env e]) := by
  have hw := maybeRehash_wf1 w env
  have hs := maybeRehash_same cfg env s
  have hne := maybeRehash_ne (cfg := cfg) env s
  generalize hs1 : maybeRehash cfg env s = s1 at hw hs hne
  have he1 : e.id = s1.nextId := by rw [hs.nextId, he]
  have hnew : e.id ∉ s1.ents.map (·.id) := by
    intro hm; obtain ⟨x, hx, hxe⟩ := List.mem_map.1 hm
    have := hw.lt x (List.mem_append_left _ hx); omega
  let s2 : St K V E := { s1 with tbl := place cfg s1.tbl e, nextId := s1.nextId + 1 }
  have hp2 : s2.ents.Perm (s1.ents ++ [e]) := Buckets.perm_place (fun e : Entry K V E => cfg.hash e.key) hne e
  have hso : strId cfg s2 e.id = strId cfg s1 e.id := rfl
  have hne_o : strId cfg s1 e.id ≠ some e.id := by
    intro hc; exact hnew (strId_ne hw hnew hc)
  have hce : creUpd (strId cfg s1 e.id) env e = e := by simp [creUpd, hne_o]
  have he3 : (onCreate cfg env s2 e.id).ents.Perm (s1.ents.map (creUpd (strId cfg s1 e.id) env) ++ [e]) := by
    rw [onCreate_ents, hso]
    refine (hp2.map _).trans ?_
    simp [hce]
  have hq3 : (onCreate cfg env s2 e.id).bq = (s1.bq.onCreate e.id).1 := by
    unfold onCreate
    rw [if_pos hm]
    simp only
    split <;> rfl
  have hl : link cfg env s e = if e.isPending then onCreate cfg env s2 e.id
      else onAssign cfg env (onCreate cfg env s2 e.id) e.id (e.mapped.holdsValue env) := by
    unfold link; rw [hs1]
  rw [hl]
  split
  · rename_i hp
    exact ⟨hq3, by simpa [linkUpd, hp] using he3⟩
  · rename_i hp
    constructor
    · rw [← hq3]; unfold onAssign; simp only; split <;> rfl
    · rw [onAssign_ents]
      refine (he3.map _).trans ?_
      rw [List.map_append, List.map_map]
      have : (s1.ents.map ((atId e.id (assignTimes cfg env (e.mapped.holdsValue env))) ∘ creUpd (strId cfg s1 e.id) env)) =
          s1.ents.map (creUpd (strId cfg s1 e.id) env) := by
        apply List.map_congr_left
        intro x hx
        simp only [Function.comp, atId]
        rw [(creUpd_idKey _ env x).1]
        have : x.id ≠ e.id := fun hc => hnew (List.mem_map.2 ⟨x, hx, hc⟩)
        simp [this]
      rw [this]
      simp [linkUpd, hp, atId]

theorem creUpd_flat {e : Entry K V E} (h : FlatE e) (o : Option Nat) (env : Env V) : creUpd o env e = e := by
  unfold creUpd
  split
  · obtain ⟨_, ⟨v, h⟩ | h | ⟨y, h⟩⟩ := h <;>
      (show { e with mapped := e.mapped.strengthen env } = e; cases e; simp only at h; subst h; rfl)
  · rfl

/-- Linking a flat entry: sweep, then insert in the middle. -/
theorem sim_link {es : List (Entry K V E)} {e : Entry K V E} (w : WF1 cfg s) (hm : cfg.maxSize.isSome = true) (ho : Ordered s es) (hf : Flat s)
    (he : e.id = s.nextId) (hfe : FlatE (linkUpd cfg env e)) :
    ∃ es1 : List (Entry K V E), Ordered (link cfg env s e) (es1.take ((es1.length + 1) / 2) ++ linkUpd cfg env e :: es1.drop ((es1.length + 1) / 2)) ∧
      Flat (link cfg env s e) ∧ es1.Sublist es ∧ Swept env.now (es.map itemOf) (es1.map itemOf) := by
  obtain ⟨rem, h1, h2, h3⟩ := maybeRehash_parts cfg s env hm
  obtain ⟨o1, f1, sw⟩ := sim_parts (env := env) w hm ho hf h1 h2 h3
  obtain ⟨q, p⟩ := link_parts w he hm env
  have hid : (maybeRehash cfg env s).ents.map (creUpd (strId cfg (maybeRehash cfg env s) e.id) env) = (maybeRehash cfg env s).ents := by
    conv => rhs; rw [← List.map_id (maybeRehash cfg env s).ents]
    exact List.map_congr_left (fun x hx => creUpd_flat (f1 x hx) _ _)
  rw [hid] at p
  have hw := maybeRehash_wf1 w env
  have hlid : (linkUpd cfg env e).id = e.id := by
    unfold linkUpd; split
    · rfl
    · exact (assignTimes_idKey cfg env _ e).1
  refine ⟨stay rem es, ⟨?_, ?_⟩, ?_, List.filter_sublist, sw⟩
  · refine List.Perm.trans ?_ p.symm
    refine List.perm_middle.trans ?_
    rw [List.take_append_drop]
    refine (List.Perm.cons _ o1.perm).trans ?_
    exact (List.perm_append_comm (l₁ := [_])).trans (List.Perm.refl _)
  · have hnew : e.id ∉ (maybeRehash cfg env s).bq.q := by
      rw [← o1.ids]
      intro hmem
      obtain ⟨x, hx, hxe⟩ := List.mem_map.1 hmem
      have := hw.lt x (List.mem_append_left _ (o1.perm.mem_iff.1 hx))
      rw [(maybeRehash_same cfg env s).nextId] at this
      omega
    obtain ⟨_, h5⟩ := BQ.apply_shape (.create e.id) (hw.bq hm).1 hnew
    have h6 : ((maybeRehash cfg env s).bq.onCreate e.id).1.q = recency (maybeRehash cfg env s).bq.q (.create e.id) := h5
    rw [q, h6, ← o1.ids]
    simp [recency, hlid, List.map_take, List.map_drop]
  · intro x hx
    rcases List.mem_append.1 (p.mem_iff.1 hx) with h | h
    · exact f1 x h
    · simp at h; subst h; exact hfe

/-! ### Evictions -/

theorem itemOf_evUpd (hw : cfg.weaken = false ∨ cfg.ptr = false) {e : Entry K V E} (h : FlatE e) :
    itemOf (evUpd cfg e) = (e.key, none) ∧ FlatE (evUpd cfg e) := by
  have hg : (evUpd cfg e).mapped = .gone := by
    unfold evUpd Entry.upd
    simp only
    rcases Bool.eq_false_or_eq_true cfg.weaken with hb | hb
    · have hp : cfg.ptr = false := by simpa [hb] using hw
      obtain ⟨_, ⟨v, h⟩ | h | ⟨y, h⟩⟩ := h <;> simp [hb, hp, h, Mapped.weaken]
    · obtain ⟨_, ⟨v, h⟩ | h | ⟨y, h⟩⟩ := h <;> simp [hb, h, Mapped.markExpired]
  refine ⟨?_, h.1, .inr (.inl hg)⟩
  simp [itemOf, hg]; rfl

theorem sim_maintenance {es : List (Entry K V E)} {N : Nat} (w : WF1 cfg s) (hm : cfg.maxSize = some N) (ho : Ordered s es) (hf : Flat s)
    (hwk : cfg.weaken = false ∨ cfg.ptr = false) :
    ∃ es', Ordered (maintenance cfg s) es' ∧ Flat (maintenance cfg s) ∧ es'.map itemOf = trim N (es.map itemOf) := by
  have hms : cfg.maxSize.isSome = true := by simp [hm]
  obtain ⟨⟨hs, cs, sh⟩, _⟩ := w.bq hms
  have hents := maintenance_ents w
  let g : Entry K V E → Entry K V E := fun e => if e.id ∈ victimIds cfg s then evUpd cfg e else e
  have hgid : ∀ e, (g e).id = e.id := by intro e; simp only [g]; split <;> rfl
  have hbq : (maintenance cfg s).bq = s.bq := by
    unfold maintenance; rw [hm]; exact (evictAll_fields cfg _ s).1
  have hlen : es.length = s.bq.q.length := by rw [← ho.ids]; simp
  have hsz : s.size = es.length := by simp [St.size, ho.perm.length_eq]
  refine ⟨es.map g, ⟨?_, ?_⟩, ?_, ?_⟩
  · rw [hents]; exact ho.perm.map _
  · rw [hbq, ← ho.ids, List.map_map]
    exact List.map_congr_left (fun e _ => hgid e)
  · intro x hx
    rw [hents] at hx
    obtain ⟨e, he, rfl⟩ := List.mem_map.1 hx
    split
    · exact (itemOf_evUpd hwk (hf e he)).2
    · exact hf e he
  · have hcs : cs = s.bq.q.drop (s.bq.q.length / 2) := by
      exact sh.take.2
    have hv : ∀ x, x ∈ victimIds cfg s ↔ x ∈ (es.drop (es.length - excess N es.length)).map (·.id) := by
      intro x
      have : victimIds cfg s = s.bq.victims (s.size - N) := by simp [victimIds, hm]
      rw [this, BQ.mem_victims sh, hcs, List.drop_drop, List.map_drop, ho.ids, hsz, hlen]
      have : s.bq.q.length / 2 + ((s.bq.q.drop (s.bq.q.length / 2)).length - (s.bq.q.length - N)) = s.bq.q.length - excess N s.bq.q.length := by
        simp only [List.length_drop, excess]; omega
      rw [this]
    have hn := ho.nodup w
    rw [trim, List.length_map]
    conv => lhs; rw [← List.take_append_drop (es.length - excess N es.length) es]
    have hn2 := hn
    rw [← List.take_append_drop (es.length - excess N es.length) es, List.map_append, List.nodup_append] at hn2
    rw [List.map_append, List.map_append, ← List.map_take, ← List.map_drop, List.map_map, List.map_map, List.map_map]
    congr 1
    · apply List.map_congr_left
      intro e he
      have : e.id ∉ victimIds cfg s := by
        rw [hv]; intro hc; exact hn2.2.2 e.id (List.mem_map_of_mem he) e.id hc rfl
      simp [g, this]
    · apply List.map_congr_left
      intro e he
      have hvi : e.id ∈ victimIds cfg s := by rw [hv]; exact List.mem_map_of_mem he
      simp only [Function.comp, g, hvi, if_true]
      rw [(itemOf_evUpd hwk (hf e (ho.perm.mem_iff.1 (List.mem_of_mem_drop he)))).1]
      rfl

/-! ### One call -/

/-- The configuration for which the cache is a recency list. -/
structure LruCfg (cfg : Cfg K) (N : Nat) : Prop where
  size : cfg.maxSize = some N
  refresh : cfg.refresh = none
  sync : cfg.resolver ≠ .async
  weak : cfg.weaken = false ∨ cfg.ptr = false

theorem look_eq {es : List (Entry K V E)} (hf : ∀ e ∈ es, FlatE e) (env : Env V) (k : K) (incl : Bool) :
    look cfg.eqv env.now k (es.map itemOf) = ((es.find? (isHit cfg env k incl)).bind (fun e => e.mapped.val?)) := by
  unfold look
  rw [List.find?_map]
  have : es.find? (Item.answers cfg.eqv env.now k ∘ itemOf) = es.find? (isHit cfg env k incl) := by
    induction es with
    | nil => rfl
    | cons e es ih =>
      rw [List.find?_cons, List.find?_cons, Function.comp, ← (hf e (by simp)).hit env k incl, ih (fun x hx => hf x (by simp [hx]))]
  rw [this]
  cases hh : es.find? (isHit cfg env k incl) with
  | none => rfl
  | some e =>
    obtain ⟨_, ⟨v, h⟩ | h | ⟨y, h⟩⟩ := hf e (List.mem_of_find?_eq_some hh) <;> simp [itemOf, h, Mapped.val?]

theorem find_perm_unique {α} {p : α → Bool} {l l' : List α} (hp : l.Perm l')
    (hu : ∀ a ∈ l, ∀ b ∈ l, p a = true → p b = true → a = b) : l.find? p = l'.find? p := by
  cases h : l.find? p with
  | none =>
    symm; rw [List.find?_eq_none] at h ⊢
    exact fun x hx => h x (hp.mem_iff.2 hx)
  | some a =>
    have ha := List.mem_of_find?_eq_some h
    have hpa := List.find?_some h
    cases h' : l'.find? p with
    | none => exact absurd hpa (by simpa using List.find?_eq_none.1 h' a (hp.mem_iff.1 ha))
    | some b =>
      rw [hu a ha b (hp.mem_iff.2 (List.mem_of_find?_eq_some h')) hpa (List.find?_some h')]

theorem hit_val {e : Entry K V E} (hf : FlatE e) {k : K} {incl : Bool} (h : isHit cfg env k incl e = true) :
    ∃ v, e.mapped = .value v := by
  rw [hf.hit] at h
  obtain ⟨_, ⟨v, hv⟩ | hv | ⟨y, hv⟩⟩ := hf
  · exact ⟨v, hv⟩
  · simp [Item.answers, Item.live, itemOf, hv] at h
  · simp [Item.answers, Item.live, itemOf, hv] at h

theorem hit_unique (hc : cfg.Ok) (w : WF1 cfg s) (w2 : WF2 cfg s) (hf : Flat s) (k : K) (incl : Bool) :
    ∀ a ∈ s.ents, ∀ b ∈ s.ents, isHit cfg env k incl a = true → isHit cfg env k incl b = true → a = b := by
  intro a ha b hb h1 h2
  obtain ⟨v, hv⟩ := hit_val (hf a ha) h1
  obtain ⟨u, hu⟩ := hit_val (hf b hb) h2
  have k1 : cfg.eqv a.key k = true := by simp [isHit] at h1; exact h1.1.1
  have k2 : cfg.eqv b.key k = true := by simp [isHit] at h2; exact h2.1.1
  exact eq_of_id w ha hb (w2.va a ha b hb v u (by simp [hv, Mapped.val?]) (by simp [hu, Mapped.val?]) (hc.trans _ _ _ k1 (hc.symm _ _ k2)))

/-- What `get_` does to the list. -/
theorem sim_get_ {N : Nat} (hc : cfg.Ok) (hl : LruCfg cfg N) (w : WF1 cfg s) (w2 : WF2 cfg s) (hf : Flat s) {l : List (Item K V)}
    (hs : Sim s l) (k : K) (incl : Bool) :
    Flat (get_ cfg env s k incl).1 ∧
    ((∃ v l1, look cfg.eqv env.now k l = some v ∧ (get_ cfg env s k incl).2 = .val v ∧ Swept env.now l l1 ∧
        Sim (get_ cfg env s k incl).1 (touch cfg.eqv env.now k l1)) ∨
     (look cfg.eqv env.now k l = none ∧ (get_ cfg env s k incl).2 = .none ∧
        ∃ l1, Sim (get_ cfg env s k incl).1 l1 ∧ Swept env.now (without cfg.eqv k l) l1)) := by
  obtain ⟨es, ho, rfl⟩ := hs
  have hms : cfg.maxSize.isSome = true := by simp [hl.size]
  have hfe : ∀ e ∈ es, FlatE e := fun e he => hf e (ho.perm.mem_iff.1 he)
  have hu := hit_unique (env := env) hc w w2 hf k incl
  have hfind : es.find? (isHit cfg env k incl) = s.ents.find? (isHit cfg env k incl) :=
    find_perm_unique ho.perm (fun a ha b hb => hu a (ho.perm.mem_iff.1 ha) b (ho.perm.mem_iff.1 hb))
  obtain ⟨rem, h1, h2, h3⟩ := walked_parts cfg s env k incl hms
  obtain ⟨o1, f1, sw⟩ := sim_parts (env := env) w hms ho hf h1 h2 h3
  have hw1 := walked_wf1 w env k incl
  rw [look_eq hfe env k incl, hfind]
  have hmn := miss_no_entry (env := env) hc w w2 (fun e he => by obtain ⟨_, ⟨v, h⟩ | h | ⟨x, h⟩⟩ := hf e he <;> rw [h] <;> rfl) hl.sync k incl (.inr hl.sync)
  rw [get__eq hc w.placed] at hmn ⊢
  cases hh : s.ents.find? (isHit cfg env k incl) with
  | none =>
    simp only [hh] at hmn ⊢
    refine ⟨f1, .inr ⟨by simp, by simp, _, ⟨_, o1, rfl⟩, swept_without sw.1 ?_ ?_⟩⟩
    · intro it hit
      obtain ⟨e, he, rfl⟩ := List.mem_map.1 hit
      exact hmn trivial e (o1.perm.mem_iff.1 he)
    · rw [sw.2, without, List.filter_filter]
      apply List.filter_congr
      intro it hit
      obtain ⟨e, he, rfl⟩ := List.mem_map.1 hit
      have := List.find?_eq_none.1 hh e (ho.perm.mem_iff.1 he)
      rw [(hfe e he).hit, Item.answers] at this
      cases h5 : (itemOf e).live env.now <;> cases h6 : cfg.eqv (itemOf e).1 k <;> simp_all
  | some e =>
    simp only
    have hhit := List.find?_some hh
    have hem := List.mem_of_find?_eq_some hh
    obtain ⟨v, hv⟩ := hit_val (hf e hem) hhit
    have hmem1 : e ∈ stay rem es := o1.perm.mem_iff.2 (hit_mem_walked hh)
    obtain ⟨a, b, hab⟩ := List.append_of_mem hmem1
    obtain ⟨o2, f2⟩ := o1.hit (env := env) hw1 hms hl.refresh f1 hab
    refine ⟨f2, .inl ⟨v, _, by simp [hv, Mapped.val?], by simp [hv, Mapped.get], sw, e :: (a ++ b), o2, ?_⟩⟩
    have hfe1 : ∀ x ∈ stay rem es, FlatE x := fun x hx => hfe x (List.mem_filter.1 hx).1
    have hn := o1.nodup hw1
    have hna : ∀ x ∈ a, isHit cfg env k incl x = false := by
      intro x hx
      have hxs : x ∈ stay rem es := by rw [hab]; simp [hx]
      cases hhx : isHit cfg env k incl x with
      | false => rfl
      | true =>
        have hxe := hu x (ho.perm.mem_iff.1 ((List.mem_filter.1 hxs).1)) e hem hhx hhit
        rw [hab, List.map_append, List.nodup_append] at hn
        exact absurd (by rw [hxe]) (hn.2.2 x.id (List.mem_map_of_mem hx) e.id (by simp))
    have hna' : ∀ it ∈ a.map itemOf, ¬ Item.answers cfg.eqv env.now k it = true := by
      intro it hit
      obtain ⟨x, hx, rfl⟩ := List.mem_map.1 hit
      rw [← (hfe1 x (by rw [hab]; simp [hx])).hit (cfg := cfg) env k incl, hna x hx]
      simp
    have hpe : Item.answers cfg.eqv env.now k (itemOf e) = true := by
      rw [← (hf e hem).hit (cfg := cfg) env k incl]; exact hhit
    rw [hab, List.map_append, List.map_cons, touch, List.find?_append, List.find?_eq_none.2 hna', List.find?_cons_of_pos hpe]
    simp only [Option.none_or]
    rw [List.eraseP_append_right _ hna', List.eraseP_cons_of_pos hpe]
    simp

theorem sim_expire {N : Nat} (hc : cfg.Ok) (hl : LruCfg cfg N) (w : WF1 cfg s) (w2 : WF2 cfg s) (hf : Flat s) {l : List (Item K V)}
    (hs : Sim s l) (k : K) :
    Flat (expire_ cfg env s k) ∧ ∃ l1, Sim (expire_ cfg env s k) l1 ∧ Swept env.now (without cfg.eqv k l) l1 := by
  obtain ⟨es, ho, rfl⟩ := hs
  have hms : cfg.maxSize.isSome = true := by simp [hl.size]
  have hfe : ∀ e ∈ es, FlatE e := fun e he => hf e (ho.perm.mem_iff.1 he)
  let p : Entry K V E → Bool := fun e => if cfg.eqv e.key k then e.isPending else !Hoard.stale env e
  have hb : (s.bucket (s.bucketFor (cfg.hash k))).Perm
      ((s.bucket (s.bucketFor (cfg.hash k))).filter p ++
        (expireWalk cfg env k (s.bucket (s.bucketFor (cfg.hash k)))).removed) := by
    rw [(expireWalk_eq hc env k _).2]
    refine (filter_append_not _ p).trans ?_
    apply List.Perm.append_left
    rw [show (fun e : Entry K V E => !p e) =
      (fun e => if cfg.eqv e.key k then !e.isPending else Hoard.stale env e) by
        funext e; simp only [p]; split <;> simp]
  obtain ⟨oth, h1, h2, h3⟩ := applyWalk_perm (cfg := cfg) hb (expireWalk_eq hc env k _).1
  have hq : (expire_ cfg env s k).bq =
      ((expireWalk cfg env k (s.bucket (s.bucketFor (cfg.hash k)))).removed.map (·.id)).foldl BQ.onUnlink s.bq := by
    obtain ⟨_, _, _, _, _, _, h⟩ := dispose_fields cfg (expireWalk cfg env k (s.bucket (s.bucketFor (cfg.hash k)))).removed
      (s.setBucket (s.bucketFor (cfg.hash k)) (expireWalk cfg env k (s.bucket (s.bucketFor (cfg.hash k)))).kept)
    rw [if_pos hms] at h
    exact h
  have hkid : ((s.bucket (s.bucketFor (cfg.hash k))).filter p).map (fun e => if cfg.eqv e.key k then e.upd .markExpired else e) =
      (s.bucket (s.bucketFor (cfg.hash k))).filter p := by
    conv => rhs; rw [← List.map_id ((s.bucket (s.bucketFor (cfg.hash k))).filter p)]
    apply List.map_congr_left
    intro e he
    have hm : e ∈ s.ents := h1.mem_iff.2 (by simp [List.mem_append, List.mem_filter] at he ⊢; simp [he])
    have hpe := (List.mem_filter.1 he).2
    simp only [p, (hf e hm).not_pending] at hpe
    split
    · rename_i hh; simp [hh] at hpe
    · rfl
  rw [hkid] at h2
  have ho2 := ho.unlink w hms h1 h2 hq
  have hne := expire_no_entry (env := env) hc w w2 hl.sync k
  refine ⟨Flat.of_perm hf h1 h2, _, ⟨_, ho2, rfl⟩, swept_without (List.filter_sublist.map _) ?_ ?_⟩
  · intro it hit
    obtain ⟨e, he, rfl⟩ := List.mem_map.1 hit
    exact hne e (ho2.perm.mem_iff.1 he)
  · rw [stay, without, List.filter_map, List.filter_map, List.filter_map, List.filter_filter, List.filter_filter]
    congr 1
    apply List.filter_congr
    intro e he
    have hes := ho.perm.mem_iff.1 he
    simp only [Function.comp]
    cases hlv : (itemOf e).live env.now with
    | false => simp
    | true =>
      simp only [Bool.true_and]
      by_cases hi : e.id ∈ (expireWalk cfg env k (s.bucket (s.bucketFor (cfg.hash k)))).removed.map (·.id)
      · obtain ⟨r, hr, hri⟩ := List.mem_map.1 hi
        have hre : r = e := eq_of_id w (h1.mem_iff.2 (List.mem_append_right _ hr)) hes hri
        subst hre
        rw [(expireWalk_eq hc env k _).2, List.mem_filter] at hr
        have hx := hr.2
        simp only [(hf r hes).not_pending, (hf r hes).stale, hlv] at hx
        have : cfg.eqv (itemOf r).1 k = true := by
          show cfg.eqv r.key k = true
          cases h : cfg.eqv r.key k <;> simp_all
        simp [hi, this]
      · have : e ∈ (expire_ cfg env s k).ents := ho2.perm.mem_iff.1 (List.mem_filter.2 ⟨he, by simpa using hi⟩)
        have h9 : cfg.eqv (itemOf e).1 k = false := hne e this
        simp [hi, h9]

theorem sim_clear (w : WF1 cfg s) (hms : cfg.maxSize.isSome = true) (hf : Flat s) {l : List (Item K V)} (_hs : Sim s l) :
    Flat (clear cfg s) ∧ Sim (clear cfg s) [] := by
  have he : (clear cfg s).ents = [] := by
    rw [clear_ents, List.filter_eq_nil_iff.2]
    · rfl
    · intro e he; simp [(hf e he).not_pending]
  refine ⟨fun e h => by rw [he] at h; simp at h, [], ⟨by rw [he], ?_⟩, rfl⟩
  have := ((clear_wf1 w).bq hms).2
  rw [he] at this
  exact this.eq_nil.symm

/-- Linking the result of a lookup or an insertion. -/
theorem sim_linked {N : Nat} (hl : LruCfg cfg N) (w : WF1 cfg s) (hf : Flat s) {l : List (Item K V)} (hs : Sim s l) (k : K) (m : Mapped V E)
    (hm : (∃ v, m = .value v) ∨ ∃ x, m = .error x) :
    Flat (link cfg env s (newEntry s k m)) ∧ ∃ l1, Swept env.now l l1 ∧
      Sim (link cfg env s (newEntry s k m)) (insertMid (match m with | .value v => fresh (cfg.maxAge.map (·, cfg.wall)) env.now k v | _ => (k, none)) l1) := by
  obtain ⟨es, ho, rfl⟩ := hs
  have hms : cfg.maxSize.isSome = true := by simp [hl.size]
  have hL : FlatE (linkUpd cfg env (newEntry s k m)) ∧
      itemOf (linkUpd cfg env (newEntry s k m)) = (match m with | .value v => fresh (cfg.maxAge.map (·, cfg.wall)) env.now k v | _ => (k, none)) := by
    rcases hm with ⟨v, rfl⟩ | ⟨x, rfl⟩
    · refine ⟨?_, ?_⟩
      · simp [linkUpd, newEntry, Entry.isPending, Mapped.isPending, assignTimes, hl.refresh, FlatE]
      · simp only [linkUpd, newEntry, Entry.isPending, Mapped.isPending, assignTimes, hl.refresh, itemOf, Mapped.holdsValue, ageTp, fresh]
        cases cfg.maxAge <;> simp [deadMin]
    · refine ⟨?_, ?_⟩
      · simp [linkUpd, newEntry, Entry.isPending, Mapped.isPending, assignTimes, hl.refresh, FlatE]
      · simp [linkUpd, newEntry, Entry.isPending, Mapped.isPending, assignTimes, hl.refresh, itemOf]
  obtain ⟨es1, o1, f1, _, sw⟩ := sim_link (env := env) (e := newEntry s k m) w hms ho hf rfl hL.1
  refine ⟨f1, _, sw, _, o1, ?_⟩
  rw [insertMid, ← hL.2]
  simp [List.map_take, List.map_drop]

/-- One call. -/
theorem lru_step {N : Nat} (hc : cfg.Ok) (hl : LruCfg cfg N) (w : WF1 cfg s) (w2 : WF2 cfg s) (hf : Flat s) {l : List (Item K V)}
    (hs : Sim s l) (o : MapOp K V E) :
    ∃ l', LruStep cfg.eqv N (cfg.maxAge.map (·, cfg.wall)) (decide (cfg.resolver = .sync)) env.now l o (visible (step cfg env s o.toOp).2) l' ∧
      Sim (step cfg env s o.toOp).1 l' ∧ Flat (step cfg env s o.toOp).1 := by
  have hms : cfg.maxSize.isSome = true := by simp [hl.size]
  have maint : ∀ {t : St K V E} {l : List (Item K V)}, WF1 cfg t → Flat t → Sim t l → Sim (maintenance cfg t) (trim N l) ∧ Flat (maintenance cfg t) := by
    rintro t _ wt ft ⟨es, ho, rfl⟩
    obtain ⟨es', h1, h2, h3⟩ := sim_maintenance wt hl.size ho ft hl.weak
    exact ⟨⟨es', h1, h3.symm⟩, h2⟩
  have wget : ∀ k incl, WF1 cfg (get_ cfg env s k incl).1 := by
    intro k incl
    rw [get__eq hc w.placed]
    cases hh : s.ents.find? (isHit cfg env k incl) with
    | none => exact walked_wf1 w env k incl
    | some e => exact onHit_wf1 env (walked_wf1 w env k incl) (hit_mem_walked hh)
  cases o with
  | getIfExists k =>
    refine ⟨l, ?_, hs, hf⟩
    have : visible (step cfg env s (MapOp.getIfExists k).toOp).2 = (found (look cfg.eqv env.now k l), false, []) := by
      obtain ⟨es, ho, rfl⟩ := hs
      have hfe : ∀ e ∈ es, FlatE e := fun e he => hf e (ho.perm.mem_iff.1 he)
      have hu := hit_unique (env := env) hc w w2 hf k false
      have hfind : es.find? (isHit cfg env k false) = s.ents.find? (isHit cfg env k false) :=
        find_perm_unique ho.perm (fun a ha b hb => hu a (ho.perm.mem_iff.1 ha) b (ho.perm.mem_iff.1 hb))
      rw [look_eq hfe env k false, hfind]
      simp only [MapOp.toOp, step]
      rw [getIfExists_eq hc w.placed]
      cases hh : s.ents.find? (isHit cfg env k false) with
      | none => rfl
      | some e =>
        obtain ⟨v, hv⟩ := hit_val (hf e (List.mem_of_find?_eq_some hh)) (List.find?_some hh)
        simp [hv, Mapped.get, Mapped.val?, visible, optRet, found]
    rw [this]
    exact .peek
  | erase k =>
    obtain ⟨h1, l1, h2, h3⟩ := sim_expire (env := env) hc hl w w2 hf hs k
    exact ⟨l1, .erase h3, h2, h1⟩
  | clear =>
    obtain ⟨h1, h2⟩ := sim_clear w hms hf hs
    exact ⟨[], .clear, h2, h1⟩
  | emplace k v =>
    obtain ⟨h1, l1, h2, h3⟩ := sim_expire (env := env) hc hl w w2 hf hs k
    have w1 := expire_wf1 hc w env k
    obtain ⟨h4, l2, h5, h6⟩ := sim_linked (env := env) hl w1 h1 h2 k (.value v) (.inl ⟨v, rfl⟩)
    have w3 := (link_spec env w1 (e := newEntry (expire_ cfg env s k) k (.value v)) rfl).1
    obtain ⟨h7, h8⟩ := maint w3 h4 h6
    exact ⟨_, .emplace (h3.trans h5), h7, h8⟩
  | get k r =>
    have hg := sim_get_ (env := env) hc hl w w2 hf hs k false
    have w1 := wget k false
    simp only [MapOp.toOp, step, get]
    revert hg w1
    generalize get_ cfg env s k false = q
    obtain ⟨s1, look1⟩ := q
    simp only
    rintro ⟨f1, ⟨v, l1, a1, rfl, a3, a4⟩ | ⟨a1, rfl, l1, a3, a4⟩⟩ w1
    · cases hres : cfg.resolver with
      | async => exact absurd hres hl.sync
      | none => exact ⟨_, .hit a1 a3, a4, f1⟩
      | sync => exact ⟨_, .hit a1 a3, a4, f1⟩
    · cases hres : cfg.resolver with
      | async => exact absurd hres hl.sync
      | none => exact ⟨_, .miss a1 (by simp) a4, a3, f1⟩
      | sync =>
        cases r with
        | ok v =>
          obtain ⟨h4, l2, h5, h6⟩ := sim_linked (env := env) hl w1 f1 a3 k (.value v) (.inl ⟨v, rfl⟩)
          exact ⟨_, .resolve a1 (by simp) (a4.trans h5), h6, h4⟩
        | err x =>
          obtain ⟨h4, l2, h5, h6⟩ := sim_linked (env := env) hl w1 f1 a3 k (.error x) (.inr ⟨x, rfl⟩)
          exact ⟨_, .fail a1 (by simp) (a4.trans h5), h6, h4⟩
  | getOrEmplace k v =>
    have hg := sim_get_ (env := env) hc hl w w2 hf hs k true
    have w1 := wget k true
    simp only [MapOp.toOp, step, getOrEmplace]
    revert hg w1
    generalize get_ cfg env s k true = q
    obtain ⟨s1, look1⟩ := q
    simp only
    rintro ⟨f1, ⟨u, l1, a1, rfl, a3, a4⟩ | ⟨a1, rfl, l1, a3, a4⟩⟩ w1
    · obtain ⟨h7, h8⟩ := maint w1 f1 a4
      exact ⟨_, .have_ a1 a3, h7, h8⟩
    · obtain ⟨h4, l2, h5, h6⟩ := sim_linked (env := env) hl w1 f1 a3 k (.value v) (.inl ⟨v, rfl⟩)
      have w3 := (link_spec env w1 (e := newEntry s1 k (.value v)) rfl).1
      obtain ⟨h7, h8⟩ := maint w3 h4 h6
      exact ⟨_, .make a1 (a4.trans h5), h7, h8⟩

/-! ### Consequences for the list -/

/-- No two items have equal keys. -/
def Distinct (eqv : K → K → Bool) (l : List (Item K V)) : Prop := l.Pairwise (fun a b => eqv a.1 b.1 = false ∧ eqv b.1 a.1 = false)

theorem Distinct.insert {eqv : K → K → Bool} (hs : ∀ a b, eqv a b = true → eqv b a = true) {l : List (Item K V)} (h : Distinct eqv l) {it : Item K V}
    (hn : ∀ x ∈ l, eqv x.1 it.1 = false) : Distinct eqv (insertMid it l) := by
  unfold Distinct insertMid
  refine (List.Perm.pairwise_iff (fun h => ⟨h.2, h.1⟩) (List.perm_middle (a := it))).2 ?_
  rw [List.take_append_drop, List.pairwise_cons]
  refine ⟨fun x hx => ⟨?_, hn x hx⟩, h⟩
  cases hh : eqv it.1 x.1 with
  | false => rfl
  | true => have := hs _ _ hh; rw [hn x hx] at this; cases this

theorem Distinct.trim {eqv : K → K → Bool} {l : List (Item K V)} (h : Distinct eqv l) (N : Nat) : Distinct eqv (trim N l) := by
  have hk : (Spec.trim N l).map (·.1) = l.map (·.1) := by
    unfold Spec.trim
    rw [List.map_append, List.map_map]
    conv => rhs; rw [← List.take_append_drop (l.length - excess N l.length) l, List.map_append]
    rfl
  have h1 : (l.map (·.1)).Pairwise (fun a b => eqv a b = false ∧ eqv b a = false) := by rw [List.pairwise_map]; exact h
  rw [← hk, List.pairwise_map] at h1
  exact h1

theorem Distinct.touch {eqv : K → K → Bool} {l : List (Item K V)} (h : Distinct eqv l) (now : Time) (k : K) : Distinct eqv (touch eqv now k l) := by
  unfold Spec.touch
  cases hf : l.find? (Item.answers eqv now k) with
  | none => exact h
  | some it =>
    obtain ⟨hp, a, b, rfl, hna⟩ := List.find?_eq_some_iff_append.1 hf
    simp only
    have hna' : ∀ x ∈ a, ¬ Item.answers eqv now k x = true := by intro x hx; have := hna x hx; simpa using this
    rw [List.eraseP_append_right _ hna', List.eraseP_cons_of_pos hp]
    exact (List.Perm.pairwise_iff (fun h => ⟨h.2, h.1⟩) (List.perm_middle (a := it) (l₁ := a) (l₂ := b))).1 h

theorem swept_keys {eqv : K → K → Bool} {now : Time} {l l1 : List (Item K V)} {k : K} (h : Swept now (without eqv k l) l1) :
    ∀ x ∈ l1, eqv x.1 k = false := by
  intro x hx
  have := (List.mem_filter.1 (h.1.subset hx)).2
  simpa using this

theorem Distinct.swept {eqv : K → K → Bool} {now : Time} {l l1 : List (Item K V)} (h : Distinct eqv l) (hs : Swept now l l1) : Distinct eqv l1 :=
  List.Pairwise.sublist hs.1 h
theorem Distinct.sweptW {eqv : K → K → Bool} {now : Time} {l l1 : List (Item K V)} {k : K} (h : Distinct eqv l) (hs : Swept now (without eqv k l) l1) :
    Distinct eqv l1 := List.Pairwise.sublist (hs.1.trans List.filter_sublist) h

theorem Spec.LruStep.distinct {eqv : K → K → Bool} (hs : ∀ a b, eqv a b = true → eqv b a = true) {N : Nat} {age : Option (Int × Bool)} {memo : Bool} {now : Time}
    {l l' : List (Item K V)} {o : MapOp K V E} {out} (h : LruStep eqv N age memo now l o out l') (hd : Distinct eqv l) : Distinct eqv l' := by
  cases h with
  | peek => exact hd
  | emplace h1 => exact ((hd.sweptW h1).insert hs (swept_keys h1)).trim N
  | hit h1 h2 => exact (hd.swept h2).touch _ _
  | miss h1 h2 h3 => exact hd.sweptW h3
  | resolve h1 h2 h3 => exact (hd.sweptW h3).insert hs (swept_keys h3)
  | fail h1 h2 h3 => exact (hd.sweptW h3).insert hs (swept_keys h3)
  | have_ h1 h2 => exact ((hd.swept h2).touch _ _).trim N
  | make h1 h2 => exact ((hd.sweptW h2).insert hs (swept_keys h2)).trim N
  | erase h1 => exact hd.sweptW h1
  | clear => exact List.Pairwise.nil

/-- The item sits at most `m` places from the front. -/
def Within (it : Item K V) (m : Nat) (l : List (Item K V)) : Prop := ∃ a b, l = a ++ it :: b ∧ a.length ≤ m

theorem Within.mono {it : Item K V} {m n : Nat} {l : List (Item K V)} (h : Within it m l) (hmn : m ≤ n) : Within it n l := by
  obtain ⟨a, b, h1, h2⟩ := h; exact ⟨a, b, h1, by omega⟩

theorem Within.swept {now : Time} {it : Item K V} {m : Nat} {l l1 : List (Item K V)} (h : Within it m l) (hl : it.live now = true) (hs : Swept now l l1) :
    Within it m l1 := by
  obtain ⟨a, b, rfl, hm⟩ := h
  obtain ⟨h1, h2⟩ := hs
  obtain ⟨x, y, rfl, hx, hy⟩ := List.sublist_append_iff.1 h1
  cases hy with
  | cons _ hy =>
    exfalso
    have e := congrArg List.length h2
    simp only [List.filter_append, List.filter_cons, hl, if_true, List.length_append, List.length_cons] at e
    have := (hx.filter (Item.live now)).length_le
    have := (hy.filter (Item.live now)).length_le
    omega
  | cons_cons _ hy => exact ⟨x, _, rfl, Nat.le_trans hx.length_le hm⟩

theorem Within.without {eqv : K → K → Bool} {it : Item K V} {m : Nat} {l : List (Item K V)} (h : Within it m l) {k : K} (hk : eqv it.1 k = false) :
    Within it m (without eqv k l) := by
  obtain ⟨a, b, rfl, hm⟩ := h
  refine ⟨a.filter (fun x => !eqv x.1 k), b.filter (fun x => !eqv x.1 k), ?_, Nat.le_trans (List.length_filter_le _ _) hm⟩
  simp [Spec.without, List.filter_append, List.filter_cons, hk]

theorem Within.touch {eqv : K → K → Bool} {now : Time} {it : Item K V} {m : Nat} {l : List (Item K V)} (h : Within it m l) {k : K} (hk : eqv it.1 k = false) :
    Within it (m + 1) (touch eqv now k l) := by
  obtain ⟨a, b, rfl, hm⟩ := h
  have hna : Item.answers eqv now k it = false := by simp [Item.answers, hk]
  unfold Spec.touch
  split
  · rename_i x hx
    rw [List.eraseP_append]
    split
    · refine ⟨x :: a.eraseP (Item.answers eqv now k), b, by simp, ?_⟩
      have := (List.eraseP_sublist (l := a) (p := Item.answers eqv now k)).length_le
      simp; omega
    · rw [List.eraseP_cons_of_neg (by simp [hna])]
      exact ⟨x :: a, b.eraseP (Item.answers eqv now k), by simp, by simp; omega⟩
  · exact ⟨a, b, rfl, by omega⟩

theorem Within.insert {it x : Item K V} {m : Nat} {l : List (Item K V)} (h : Within it m l) (hl : 2 * (m + 1) ≤ l.length + 1) : Within it m (insertMid x l) := by
  obtain ⟨a, b, rfl, hm⟩ := h
  unfold insertMid
  generalize hn : ((a ++ it :: b).length + 1) / 2 = n
  have hna : a.length < n := by omega
  refine ⟨a, b.take (n - a.length - 1) ++ x :: b.drop (n - a.length - 1), ?_, hm⟩
  rw [List.take_append, List.drop_append, List.take_of_length_le (by omega), List.drop_of_length_le (by omega)]
  obtain ⟨j, hj⟩ : ∃ j, n - a.length = j + 1 := ⟨n - a.length - 1, by omega⟩
  simp [hj]

theorem Within.trim {it : Item K V} {m N : Nat} {l : List (Item K V)} (h : Within it m l) (hl : 2 * (m + 1) ≤ l.length) : Within it m (trim N l) := by
  obtain ⟨a, b, rfl, hm⟩ := h
  unfold Spec.trim
  generalize hn : (a ++ it :: b).length - excess N (a ++ it :: b).length = n
  have hna : a.length < n := by unfold excess at hn; omega
  refine ⟨a, b.take (n - a.length - 1) ++ (b.drop (n - a.length - 1)).map (fun it => (it.1, none)), ?_, hm⟩
  rw [List.take_append, List.drop_append, List.take_of_length_le (by omega), List.drop_of_length_le (by omega)]
  obtain ⟨j, hj⟩ : ∃ j, n - a.length = j + 1 := ⟨n - a.length - 1, by omega⟩
  simp [hj]

theorem insertMid_length (it : Item K V) (l : List (Item K V)) : (insertMid it l).length = l.length + 1 := by simp [insertMid]; try omega
theorem trim_length (N : Nat) (l : List (Item K V)) : (trim N l).length = l.length := by simp [trim]

/-- A call about another key leaves the item near the front. -/
theorem Spec.LruStep.within {eqv : K → K → Bool} {N : Nat} {age : Option (Int × Bool)} {memo : Bool} {now : Time}
    {l l' : List (Item K V)} {o : MapOp K V E} {out} (h : LruStep eqv N age memo now l o out l') {it : Item K V} {m : Nat}
    (hw : Within it m l) (hl : it.live now = true) (ho : about eqv it.1 o = false)
    (hlen : 2 * (m + (if usesOld o out then 1 else 0) + 1) ≤ l'.length) : Within it (m + (if usesOld o out then 1 else 0)) l' := by
  cases h with
  | peek => exact hw
  | emplace h1 =>
    rw [trim_length, insertMid_length] at hlen
    exact (((hw.without ho).swept hl h1).insert hlen).trim (by rw [insertMid_length]; exact hlen)
  | hit h1 h2 => exact (hw.swept hl h2).touch ho
  | miss h1 h2 h3 => exact (hw.without ho).swept hl h3
  | resolve h1 h2 h3 =>
    rw [insertMid_length] at hlen
    exact ((hw.without ho).swept hl h3).insert hlen
  | fail h1 h2 h3 =>
    rw [insertMid_length] at hlen
    exact ((hw.without ho).swept hl h3).insert hlen
  | have_ h1 h2 =>
    rw [trim_length] at hlen
    exact ((hw.swept hl h2).touch ho).trim hlen
  | make h1 h2 =>
    rw [trim_length, insertMid_length] at hlen
    exact (((hw.without ho).swept hl h2).insert hlen).trim (by rw [insertMid_length]; exact hlen)
  | erase h1 => exact (hw.without ho).swept hl h1
  | clear => cases ho

/-- Among distinct keys a live item is found. -/
theorem look_within {eqv : K → K → Bool} {now : Time} {l : List (Item K V)} (hd : Distinct eqv l) (ht : ∀ a b c, eqv a b = true → eqv b c = true → eqv a c = true)
    (hs : ∀ a b, eqv a b = true → eqv b a = true) {k k0 : K}
    {v : V} {tp : Option (Int × Option Int)} {m : Nat} (hw : Within (k0, some (v, tp)) m l) (hl : Item.live now ((k0, some (v, tp)) : Item K V) = true) (hk : eqv k0 k = true) :
    look eqv now k l = some v := by
  obtain ⟨a, b, rfl, _⟩ := hw
  have hp : Item.answers eqv now k ((k0, some (v, tp)) : Item K V) = true := by simp [Item.answers, hl, hk]
  have hna : ∀ x ∈ a, ¬ Item.answers eqv now k x = true := by
    intro x hx hc
    unfold Distinct at hd
    rw [List.pairwise_append] at hd
    have h1 := (hd.2.2 x hx (k0, some (v, tp)) (by simp)).1
    simp only [Item.answers, Bool.and_eq_true] at hc
    have h2 : eqv x.1 k0 = true := ht _ _ _ hc.1 (hs _ _ hk)
    rw [h2] at h1; cases h1
  unfold look
  rw [List.find?_append, List.find?_eq_none.2 hna, List.find?_cons_of_pos hp]
  rfl

/-- What is found sits at the front afterwards. -/
theorem touch_within {eqv : K → K → Bool} {now : Time} {l l1 : List (Item K V)} {k : K} {v : V} (h : look eqv now k l = some v) (hs : Swept now l l1) :
    ∃ k0 tp, eqv k0 k = true ∧ Within (k0, some (v, tp)) 0 (touch eqv now k l1) := by
  have key : ∀ l : List (Item K V), l.find? (Item.answers eqv now k) = (l.filter (Item.live now)).find? (fun it => eqv it.1 k) := by
    intro l
    rw [List.find?_filter]
    congr 1
    funext it
    simp [Item.answers, Bool.and_comm]
  unfold look at h
  rw [key, ← hs.2, ← key] at h
  cases hf : l1.find? (Item.answers eqv now k) with
  | none => rw [hf] at h; cases h
  | some it =>
    rw [hf] at h
    obtain ⟨k0, o⟩ := it
    cases o with
    | none => cases h
    | some p =>
      obtain ⟨u, tp⟩ := p
      simp only [Option.bind_some, Option.map_some, Option.some.injEq] at h
      subst h
      refine ⟨k0, tp, ?_, [], l1.eraseP (Item.answers eqv now k), ?_, Nat.le_refl _⟩
      · have := List.find?_some hf
        simp only [Item.answers, Bool.and_eq_true] at this
        exact this.1
      · simp only [touch, hf, List.nil_append]

/-- No item has a deadline. -/
def Ageless (l : List (Item K V)) : Prop := ∀ x ∈ l, ∀ v tp, x.2 = some (v, tp) → tp = none

theorem Ageless.sub {l l1 : List (Item K V)} (h : Ageless l) (hs : l1.Sublist l) : Ageless l1 := fun x hx => h x (hs.subset hx)
theorem Ageless.insert {l : List (Item K V)} (h : Ageless l) {it : Item K V} (hi : ∀ v tp, it.2 = some (v, tp) → tp = none) : Ageless (insertMid it l) := by
  intro x hx
  rcases List.mem_append.1 hx with hx | hx
  · exact h x (List.mem_of_mem_take hx)
  · rcases List.mem_cons.1 hx with rfl | hx
    · exact hi
    · exact h x (List.mem_of_mem_drop hx)
theorem Ageless.trim {l : List (Item K V)} (h : Ageless l) (N : Nat) : Ageless (trim N l) := by
  intro x hx
  rcases List.mem_append.1 hx with hx | hx
  · exact h x (List.mem_of_mem_take hx)
  · obtain ⟨y, _, rfl⟩ := List.mem_map.1 hx
    intro v tp h; cases h
theorem Ageless.touch {l : List (Item K V)} (h : Ageless l) (eqv : K → K → Bool) (now : Time) (k : K) : Ageless (touch eqv now k l) := by
  unfold Spec.touch
  split
  · rename_i it hf
    intro x hx
    rcases List.mem_cons.1 hx with rfl | hx
    · exact h x (List.mem_of_find?_eq_some hf)
    · exact h x (List.mem_of_mem_eraseP hx)
  · exact h

theorem Spec.LruStep.ageless {eqv : K → K → Bool} {N : Nat} {memo : Bool} {now : Time}
    {l l' : List (Item K V)} {o : MapOp K V E} {out} (h : LruStep eqv N none memo now l o out l') (hd : Ageless l) : Ageless l' := by
  have hf : ∀ (k : K) (v : V), ∀ u tp, (fresh none now k v : Item K V).2 = some (u, tp) → tp = none := by
    intro k v u tp h; simp [fresh] at h; exact h.2.symm
  have hwo : ∀ {l1 : List (Item K V)} {k : K}, Swept now (without eqv k l) l1 → Ageless l1 := fun h => hd.sub (h.1.trans List.filter_sublist)
  cases h with
  | peek => exact hd
  | emplace h1 => exact ((hwo h1).insert (hf _ _)).trim N
  | hit h1 h2 => exact (hd.sub h2.1).touch _ _ _
  | miss h1 h2 h3 => exact hwo h3
  | resolve h1 h2 h3 => exact (hwo h3).insert (hf _ _)
  | fail h1 h2 h3 => exact (hwo h3).insert (by intro v tp h; cases h)
  | have_ h1 h2 => exact ((hd.sub h2.1).touch _ _ _).trim N
  | make h1 h2 => exact ((hwo h2).insert (hf _ _)).trim N
  | erase h1 => exact hwo h1
  | clear => intro x hx; cases hx

theorem lru_ageless {eqv : K → K → Bool} {N : Nat} {memo : Bool} {os : List (Time × MapOp K V E)} {outs} {l : List (Item K V)}
    (h : LruRun eqv N none memo os outs l) : Ageless l := by
  induction h with
  | nil => intro x hx; cases hx
  | snoc _ hs ih => exact hs.ageless ih

theorem uses_snoc : ∀ (os : List (MapOp K V E)) (outs : List (Ret V E × Bool × List K)) (o : MapOp K V E) (out : Ret V E × Bool × List K),
    os.length = outs.length → uses (os ++ [o]) (outs ++ [out]) = uses os outs + (if usesOld o out then 1 else 0)
  | [], [], o, out, _ => by simp [uses]
  | _ :: os, _ :: outs, o, out, h => by
    simp only [List.cons_append, uses]
    rw [uses_snoc os outs o out (by simpa using h)]
    omega
  | [], _ :: _, _, _, h => by simp at h
  | _ :: _, [], _, _, h => by simp at h

end Hoard
