import Verif.Cache
import Verif.Buckets
import Verif.QueueLemmas
/-! Helper lemmas about the state transformers of the cache model. -/
namespace Hoard
variable {K V E : Type}

/-- The hash and equality functions fit together, and durations make sense. -/
structure Cfg.Ok (cfg : Cfg K) : Prop where
  refl : ∀ a, cfg.eqv a a = true
  symm : ∀ a b, cfg.eqv a b = true → cfg.eqv b a = true
  trans : ∀ a b c, cfg.eqv a b = true → cfg.eqv b c = true → cfg.eqv a c = true
  hash : ∀ a b, cfg.eqv a b = true → cfg.hash a = cfg.hash b
  /-- the idle timer of the refresh policy is not negative -/
  idle : ∀ d i, cfg.refresh = some (d, i) → 0 ≤ i

/-- Apply `f` to the entry with id `i`. -/
def atId (i : Nat) (f : Entry K V E → Entry K V E) (e : Entry K V E) : Entry K V E := if e.id = i then f e else e

/-- `f` keeps id and key. -/
def IdKey (f : Entry K V E → Entry K V E) : Prop := ∀ e, (f e).id = e.id ∧ (f e).key = e.key

theorem IdKey.upd (g : Mapped V E → Mapped V E) : IdKey (K := K) (fun e => e.upd g) := fun _ => ⟨rfl, rfl⟩
theorem IdKey.atId {f : Entry K V E → Entry K V E} (h : IdKey f) (i : Nat) : IdKey (Hoard.atId i f) := by
  intro e; unfold Hoard.atId; split
  · exact h e
  · exact ⟨rfl, rfl⟩
theorem IdKey.comp {f g : Entry K V E → Entry K V E} (hf : IdKey f) (hg : IdKey g) : IdKey (f ∘ g) := by
  intro e; simp only [Function.comp]; exact ⟨(hf _).1.trans (hg _).1, (hf _).2.trans (hg _).2⟩
theorem IdKey.id : IdKey (K := K) (V := V) (E := E) id := fun _ => ⟨rfl, rfl⟩

theorem ents_modify (s : St K V E) (i : Nat) (f) : (s.modify i f).ents = s.ents.map (atId i f) := by
  simp only [St.ents, St.modify, List.map_flatten]; rfl

theorem limbo_modify (s : St K V E) (i : Nat) (f) : (s.modify i f).limbo = s.limbo.map (atId i f) := rfl

theorem dispose_nil (cfg : Cfg K) (s : St K V E) : dispose cfg s [] = s := rfl
theorem dispose_cons (cfg : Cfg K) (s : St K V E) (e es) :
    dispose cfg s (e :: es) = dispose cfg (disposeOne cfg s e) es := rfl

theorem dispose_fields (cfg : Cfg K) (es : List (Entry K V E)) : ∀ s : St K V E,
    (dispose cfg s es).tbl = s.tbl ∧ (dispose cfg s es).limbo = s.limbo ++ es.map (·.upd .cancel) ∧
    (dispose cfg s es).nextId = s.nextId ∧ (dispose cfg s es).opens = s.opens ∧
    (dispose cfg s es).destroyed = s.destroyed ∧
    (dispose cfg s es).delayQ = (es.map (·.id)).foldl List.erase s.delayQ ∧
    (dispose cfg s es).bq = if cfg.maxSize.isSome then (es.map (·.id)).foldl BQ.onUnlink s.bq else s.bq := by
  induction es with
  | nil => intro s; simp [dispose_nil]
  | cons e es ih =>
    intro s
    obtain ⟨h1, h2, h3, h4, h5, h6, h7⟩ := ih (disposeOne cfg s e)
    rw [dispose_cons]
    refine ⟨h1, ?_, h3, h4, h5, h6, ?_⟩
    · rw [h2]; simp [disposeOne]
    · rw [h7]; by_cases hm : cfg.maxSize.isSome <;> simp [disposeOne, hm]

theorem dispose_tbl (cfg : Cfg K) (s : St K V E) (es) : (dispose cfg s es).tbl = s.tbl := (dispose_fields cfg es s).1
theorem dispose_ents (cfg : Cfg K) (s : St K V E) (es) : (dispose cfg s es).ents = s.ents := by
  rw [St.ents, dispose_tbl]; rfl

/-! ### Buckets -/

/-- Entries are in the bucket of their hash. -/
def Placed (cfg : Cfg K) (tbl : List (List (Entry K V E))) : Prop :=
  Buckets.Placed (fun e => cfg.hash e.key) tbl

theorem flatten_set_perm {α} (tbl : List (List α)) (i : Nat) (b b' rem : List α) (h : tbl[i]? = some b)
    (hp : b.Perm (b' ++ rem)) : tbl.flatten.Perm ((tbl.set i b').flatten ++ rem) := by
  induction tbl generalizing i with
  | nil => simp at h
  | cons c cs ih =>
    cases i with
    | zero =>
      simp at h; subst h
      simp only [List.flatten_cons, List.set_cons_zero]
      exact (hp.append_right _).trans (by
        rw [List.append_assoc, List.append_assoc]
        exact List.Perm.append_left _ List.perm_append_comm)
    | succ i =>
      simp only [List.flatten_cons, List.set_cons_succ, List.append_assoc]
      exact List.Perm.append_left _ (ih i (by simpa using h))

theorem bucket_some {s : St K V E} {i : Nat} (h : i < s.tbl.length) : s.tbl[i]? = some (s.bucket i) := by
  simp [St.bucket, List.getElem?_eq_getElem h]

theorem bucket_empty {s : St K V E} {i : Nat} (h : s.tbl.length ≤ i) : s.bucket i = [] := by
  simp [St.bucket, List.getElem?_eq_none h]

theorem mem_ents_of_bucket {s : St K V E} {i : Nat} {e} (h : e ∈ s.bucket i) : e ∈ s.ents := by
  by_cases hi : i < s.tbl.length
  · exact List.mem_flatten.2 ⟨_, List.mem_of_getElem? (bucket_some hi), h⟩
  · rw [bucket_empty (by omega)] at h; simp at h

/-- An entry with the hash of `k` is in the bucket searched for `k`. -/
theorem mem_bucket_of_mem {cfg : Cfg K} {s : St K V E} (hp : Placed cfg s.tbl) {e : Entry K V E} {h : Nat}
    (he : e ∈ s.ents) (hh : cfg.hash e.key = h) : e ∈ s.bucket (s.bucketFor h) := by
  obtain ⟨b, hb, heb⟩ := List.mem_flatten.1 he
  obtain ⟨i, hi, rfl⟩ := List.mem_iff_getElem.1 hb
  have this : cfg.hash e.key % s.tbl.length = i := hp i _ (List.getElem?_eq_getElem hi) e heb
  rw [hh] at this
  have hne : s.tbl.length ≠ 0 := by omega
  simp only [St.bucketFor, hne, if_false, this, St.bucket, List.getElem?_eq_getElem hi, Option.getD_some]
  exact heb

/-! ### Walks -/

theorem getWalk_perm (cfg : Cfg K) (env : Env V) (k : K) (incl : Bool) (es : List (Entry K V E)) :
    es.Perm ((getWalk cfg env k incl es).kept ++ (getWalk cfg env k incl es).removed) := by
  have hd : ∀ (e : Entry K V E) (es) (w : Walk K V E), es.Perm (w.kept ++ w.removed) →
      (e :: es).Perm ((w.drop e).kept ++ (w.drop e).removed) := by
    intro e es w h
    exact (h.cons e).trans (List.perm_middle.symm)
  have hk : ∀ (e : Entry K V E) (es) (w : Walk K V E), es.Perm (w.kept ++ w.removed) →
      (e :: es).Perm ((w.keep e).kept ++ (w.keep e).removed) := fun e es w h => h.cons e
  induction es with
  | nil => exact List.Perm.refl _
  | cons e es ih =>
    rw [getWalk]
    split
    · split
      · exact hd _ _ _ ih
      · exact hk _ _ _ ih
    · split
      · split
        · exact hk _ _ _ ih
        · exact hd _ _ _ ih
      · split
        · exact hk _ _ _ ih
        · simp

theorem getWalk_removed (cfg : Cfg K) (env : Env V) (k : K) (incl : Bool) (es : List (Entry K V E)) :
    ∀ e ∈ (getWalk cfg env k incl es).removed, stale env e = true := by
  induction es with
  | nil => simp [getWalk]
  | cons e es ih =>
    rw [getWalk]
    split
    · split
      · intro x hx
        simp only [Walk.drop, List.mem_cons] at hx
        rcases hx with rfl | hx
        · assumption
        · exact ih x hx
      · exact ih
    · split
      · split
        · exact ih
        · intro x hx
          simp only [Walk.drop, List.mem_cons] at hx
          rcases hx with rfl | hx
          · simp_all [stale]
          · exact ih x hx
      · split
        · exact ih
        · simp

theorem getWalk_sublist (cfg : Cfg K) (env : Env V) (k : K) (incl : Bool) (es : List (Entry K V E)) :
    (getWalk cfg env k incl es).kept.Sublist es := by
  induction es with
  | nil => simp [getWalk]
  | cons e es ih =>
    rw [getWalk]
    split
    · split
      · exact ih.cons e
      · exact ih.cons_cons e
    · split
      · split
        · exact ih.cons_cons e
        · exact ih.cons e
      · split
        · exact ih.cons_cons e
        · simp

/-- The condition under which the walk of `get_` stops. -/
def isHit (cfg : Cfg K) (env : Env V) (k : K) (incl : Bool) (e : Entry K V E) : Bool :=
  cfg.eqv e.key k && !e.expired env &&
    (match e.mapped.get env incl with
     | .none => false
     | _ => true)

theorem getWalk_hit {cfg : Cfg K} (hc : cfg.Ok) (env : Env V) (k : K) (incl : Bool) (es : List (Entry K V E)) :
    (getWalk cfg env k incl es).hit = (es.find? (isHit cfg env k incl)).map (fun e => (e.id, e.mapped.get env incl)) := by
  induction es with
  | nil => simp [getWalk]
  | cons e es ih =>
    rw [getWalk]
    by_cases h1 : cfg.hash e.key ≠ cfg.hash k
    · have h2 : cfg.eqv e.key k = false := by
        cases h : cfg.eqv e.key k
        · rfl
        · exact absurd (hc.hash _ _ h) h1
      have h3 : isHit cfg env k incl e = false := by simp [isHit, h2]
      rw [if_pos h1, List.find?_cons_of_neg (by simp [h3]), ← ih]
      split <;> rfl
    · rw [if_neg h1]
      by_cases h2 : e.expired env = true
      · have h3 : isHit cfg env k incl e = false := by simp [isHit, h2]
        rw [if_pos h2, List.find?_cons_of_neg (by simp [h3]), ← ih]
        split <;> rfl
      · rw [if_neg h2]
        by_cases h3 : isHit cfg env k incl e = true
        · rw [List.find?_cons_of_pos h3]
          simp only [isHit, Bool.and_eq_true] at h3
          simp only [getIfMatching, h3.1.1, if_true]
          cases hg : e.mapped.get env incl <;> simp_all
        · rw [List.find?_cons_of_neg h3, ← ih]
          have : getIfMatching cfg env k incl e = .none := by
            simp only [isHit] at h3
            unfold getIfMatching
            split
            · cases hg : e.mapped.get env incl <;> simp_all
            · rfl
          rw [this]; rfl

/-- On a miss, all non-pending expired entries with the hash of `k` were removed. -/
theorem getWalk_miss {cfg : Cfg K} (env : Env V) (k : K) (incl : Bool) (es : List (Entry K V E))
    (h : (getWalk cfg env k incl es).hit = none) :
    ∀ e ∈ (getWalk cfg env k incl es).kept, stale env e = false := by
  induction es with
  | nil => simp [getWalk]
  | cons e es ih =>
    rw [getWalk] at h ⊢
    split
    · rename_i h1
      rw [if_pos h1] at h
      split
      · rename_i h2
        rw [if_pos h2] at h
        exact ih h
      · rename_i h2
        rw [if_neg h2] at h
        intro x hx
        simp only [Walk.keep, List.mem_cons] at hx
        rcases hx with rfl | hx
        · simpa using h2
        · exact ih h x hx
    · rename_i h1
      rw [if_neg h1] at h
      split
      · rename_i h2
        rw [if_pos h2] at h
        split
        · rename_i h3
          rw [if_pos h3] at h
          intro x hx
          simp only [Walk.keep, List.mem_cons] at hx
          rcases hx with rfl | hx
          · simp [stale, h3]
          · exact ih h x hx
        · rename_i h3
          rw [if_neg h3] at h
          exact ih h
      · rename_i h2
        rw [if_neg h2] at h
        split
        · rename_i h3
          rw [h3] at h
          intro x hx
          simp only [Walk.keep, List.mem_cons] at hx
          rcases hx with rfl | hx
          · simp [stale, h2]
          · exact ih h x hx
        · rename_i h3
          cases hg : getIfMatching cfg env k incl e <;> simp_all

theorem expireWalk_eq {cfg : Cfg K} (hc : cfg.Ok) (env : Env V) (k : K) (es : List (Entry K V E)) :
    (expireWalk cfg env k es).kept =
      (es.filter (fun e => if cfg.eqv e.key k then e.isPending else !stale env e)).map
        (fun e => if cfg.eqv e.key k then e.upd .markExpired else e) ∧
    (expireWalk cfg env k es).removed =
      es.filter (fun e => if cfg.eqv e.key k then !e.isPending else stale env e) := by
  induction es with
  | nil => simp [expireWalk]
  | cons e es ih =>
    rw [expireWalk]
    by_cases h1 : cfg.eqv e.key k = true
    · have h2 : cfg.hash e.key = cfg.hash k := hc.hash _ _ h1
      rw [if_pos ⟨h2, h1⟩]
      by_cases h3 : e.isPending = true
      · simp [h1, h3, Walk.keep, ih]
      · simp [h1, h3, Walk.drop, ih]
    · rw [if_neg (fun h => h1 h.2)]
      by_cases h3 : stale env e = true
      · simp [h1, h3, Walk.drop, ih]
      · simp [h1, h3, Walk.keep, ih]

theorem peekWalk_eq {cfg : Cfg K} (hc : cfg.Ok) (env : Env V) (k : K) (es : List (Entry K V E)) :
    peekWalk cfg env k es = ((es.find? (isHit cfg env k false)).map (fun e => e.mapped.get env false)).getD .none := by
  induction es with
  | nil => rfl
  | cons e es ih =>
    rw [peekWalk]
    by_cases h1 : cfg.hash e.key ≠ cfg.hash k
    · have h2 : cfg.eqv e.key k = false := by
        cases h : cfg.eqv e.key k
        · rfl
        · exact absurd (hc.hash _ _ h) h1
      have h3 : isHit cfg env k false e = false := by simp [isHit, h2]
      rw [if_pos h1, List.find?_cons_of_neg (by simp [h3]), ← ih]
    · rw [if_neg h1]
      by_cases h3 : isHit cfg env k false e = true
      · rw [List.find?_cons_of_pos h3]
        simp only [isHit, Bool.and_eq_true] at h3
        simp only [getIfMatching, h3.1.1, if_true]
        cases hg : e.mapped.get env false <;> simp_all
      · rw [List.find?_cons_of_neg h3, ← ih]
        simp only [isHit] at h3
        unfold getIfMatching
        by_cases h4 : cfg.eqv e.key k = true
        · simp only [h4, if_true]
          cases hg : e.mapped.get env false <;> simp_all
        · simp [h4]

end Hoard
