import Verif.Spec.Visits
import Verif.CompareLemmas
import Verif.GarbageLemmas
import Verif.Props.Load
/-! # Lemmas about the entries a call looks at -/
namespace Hoard.Visits
variable {K V E : Type} {cfg : Cfg K} {env : Env V}
open Compare (bucketOf answers upTo given looks)

theorem getWalk_fst (k : K) (incl : Bool) (es : List (Entry K V E)) : (getWalk cfg env k incl es).1 = Hoard.getWalk cfg env k incl es := by
  induction es with
  | nil => rfl
  | cons e es ih =>
    simp only [getWalk, Hoard.getWalk, ← ih]
    repeat' split
    all_goals simp_all

theorem expireWalk_fst (k : K) (es : List (Entry K V E)) : (expireWalk cfg env k es).1 = Hoard.expireWalk cfg env k es := by
  induction es with
  | nil => rfl
  | cons e es ih =>
    simp only [expireWalk, Hoard.expireWalk, ← ih]
    repeat' split
    all_goals simp_all

theorem peekWalk_fst (k : K) (es : List (Entry K V E)) : (peekWalk cfg env k es).1 = Hoard.peekWalk cfg env k es := by
  induction es with
  | nil => rfl
  | cons e es ih =>
    simp only [peekWalk, Hoard.peekWalk, ← ih]
    repeat' split
    all_goals simp_all

theorem purgeWalk_fst (es : List (Entry K V E)) : (purgeWalk env es).1 = Hoard.purgeWalk env es := by
  induction es with
  | nil => rfl
  | cons e es ih =>
    simp only [purgeWalk, ih]
    unfold Hoard.purgeWalk
    cases h : stale env e <;> simp [Walk.drop, Walk.keep, h]

theorem lruGo_fst (hot : Nat → Bool) : ∀ (l : List Nat) (c : Nat), (lruGo hot l c).1 = BQ.lruGo hot l c
  | [], _ => by simp [lruGo, BQ.lruGo]
  | _ :: _, 0 => by simp [lruGo, BQ.lruGo]
  | x :: xs, c + 1 => by
    simp only [lruGo, BQ.lruGo, lruGo_fst hot xs c]
    split <;> rfl

theorem getWalk_snd (hc : cfg.Ok) (k : K) (incl : Bool) (es : List (Entry K V E)) :
    (getWalk cfg env k incl es).2 = (upTo (answers cfg env k incl) es).map (·.id) := by
  induction es with
  | nil => rfl
  | cons e es ih =>
    by_cases h : cfg.hash e.key = cfg.hash k
    · simp only [getWalk, ne_eq, h, not_true, if_false]
      cases hx : e.expired env
      · simp only [Bool.false_eq_true, if_false]
        cases hq : cfg.eqv e.key k <;> cases hg : e.mapped.get env incl <;>
          simp [getIfMatching, hq, hg, upTo, answers, hx, ih]
      · have : answers cfg env k incl e = false := by simp [answers, hx]
        simp only [if_true]
        split <;> simp [upTo, this, ih]
    · have : answers cfg env k incl e = false := by
        cases hq : cfg.eqv e.key k
        · simp [answers, hq]
        · exact absurd (hc.hash _ _ hq) h
      simp only [getWalk, ne_eq, h, not_false_iff, if_true]
      split <;> simp [upTo, this, ih]

theorem peekWalk_snd (hc : cfg.Ok) (k : K) (es : List (Entry K V E)) :
    (peekWalk cfg env k es).2 = (upTo (answers cfg env k false) es).map (·.id) := by
  induction es with
  | nil => rfl
  | cons e es ih =>
    by_cases h : cfg.hash e.key = cfg.hash k
    · simp only [peekWalk, ne_eq, h, not_true, if_false]
      cases hx : e.expired env <;> cases hq : cfg.eqv e.key k <;> cases hg : e.mapped.get env false <;>
          simp [getIfMatching, hq, hg, upTo, answers, hx, ih]
    · have : answers cfg env k false e = false := by
        cases hq : cfg.eqv e.key k
        · simp [answers, hq]
        · exact absurd (hc.hash _ _ hq) h
      simp [peekWalk, h, upTo, this, ih]

theorem expireWalk_snd (k : K) (es : List (Entry K V E)) : (expireWalk cfg env k es).2 = es.map (·.id) := by
  induction es with
  | nil => rfl
  | cons e es ih =>
    simp only [expireWalk]
    repeat' split
    all_goals simp [ih]

theorem purgeWalk_snd (es : List (Entry K V E)) : (purgeWalk env es).2 = es.map (·.id) := by
  induction es with
  | nil => rfl
  | cons e es ih =>
    simp only [purgeWalk]
    split <;> simp [ih]

theorem pass_eq (s : St K V E) : pass cfg env s = if cfg.over (s.size + 1) s.tbl.length then s.ents.map (·.id) else [] := by
  unfold pass; rw [purgeWalk_snd]

theorem bucketOf_eq {s : St K V E} (hp : Placed cfg s.tbl) (k : K) : bucketOf cfg s k = sharing cfg s k := by
  unfold bucketOf sharing
  by_cases h0 : s.tbl.length = 0
  · have : s.tbl = [] := List.eq_nil_of_length_eq_zero h0
    simp [St.bucket, St.ents, this]
  · have hp' : Buckets.Placed (fun e : Entry K V E => cfg.hash e.key % s.tbl.length) s.tbl := by
      intro i b hb x hx
      rw [Nat.mod_mod]; exact hp i b hb x hx
    have h1 := Buckets.filter_bucket hp' (cfg.hash k % s.tbl.length)
    have hb : ((s.tbl[(cfg.hash k % s.tbl.length) % s.tbl.length]?).getD []) = s.bucket (s.bucketFor (cfg.hash k)) := by
      rw [Nat.mod_mod]
      unfold St.bucket St.bucketFor
      simp [h0]
    rw [hb] at h1
    refine Eq.trans ?_ h1.symm
    symm
    rw [List.filter_eq_self]
    intro e he
    have hlt : s.bucketFor (cfg.hash k) < s.tbl.length := by
      unfold St.bucketFor; rw [if_neg h0]; exact Nat.mod_lt _ (by omega)
    have := hp _ _ (bucket_some hlt) e he
    unfold St.bucketFor at this
    rw [if_neg h0] at this
    simpa using this

theorem expire_ids (hc : cfg.Ok) {s : St K V E} (h : WF1 cfg s) (k : K) : ∀ i ∈ (expire_ cfg env s k).ents.map (·.id), i ∈ s.ents.map (·.id) := by
  obtain ⟨kept, rem, p1, p2, _, _⟩ := expire_spec hc h env k
  intro i hi
  obtain ⟨e, he, rfl⟩ := List.mem_map.1 hi
  obtain ⟨x, hx, rfl⟩ := List.mem_map.1 (p2.mem_iff.1 he)
  exact List.mem_map.2 ⟨x, p1.mem_iff.2 (List.mem_append_left _ hx), (expUpd_idKey cfg k x).1.symm⟩

theorem miss_eq {s : St K V E} {k : K} {incl : Bool} (hm : (getWalk cfg env k incl (bucketOf cfg s k)).1.hit.isNone = true) :
    get_ cfg env s k incl = (walked cfg env s k incl, .none) := by
  rw [getWalk_fst, Option.isNone_iff_eq_none] at hm
  unfold get_
  show (match (Hoard.getWalk cfg env k incl (bucketOf cfg s k)).hit with
      | none => _
      | some (id, l) => _) = _
  rw [hm]
  rfl

/-- A pass is made over the table as it is after the entries of the bucket were looked at, or a refresh was taken from its queue. -/
theorem all_eq (hc : cfg.Ok) {s : St K V E} (h : WF1 cfg s) (o : Op K V E) (ho : sweeps o = false) :
    (seen cfg env s o).all = [] ∨ ∃ s1 : St K V E, Le2 s s1 ∧ (s1.ents.map (·.id)).Nodup ∧ (∀ i ∈ s1.ents.map (·.id), i ∈ s.ents.map (·.id)) ∧
      (seen cfg env s o).all = pass cfg env s1 := by
  have hg : ∀ k incl, (getWalk cfg env k incl (bucketOf cfg s k)).1.hit.isNone = true →
      Le2 s (get_ cfg env s k incl).1 ∧ ((get_ cfg env s k incl).1.ents.map (·.id)).Nodup ∧ (∀ i ∈ (get_ cfg env s k incl).1.ents.map (·.id), i ∈ s.ents.map (·.id)) := by
    intro k incl hm
    refine ⟨get__le2 k incl, ?_⟩
    rw [miss_eq hm]
    refine ⟨nodup_ents (walked_wf1 h env k incl), ?_⟩
    intro i hi
    obtain ⟨e, he, rfl⟩ := List.mem_map.1 hi
    exact List.mem_map.2 ⟨e, (walked_drops (cfg := cfg) s env k incl).mem he, rfl⟩
  have hi : ∀ (s1 : St K V E) k v f, (insertion cfg env s1 k v f).1 = [] ∨ (insertion cfg env s1 k v f).1 = pass cfg env s1 := by
    intro s1 k v f
    cases f <;> simp [insertion]
  cases o with
  | getIfExists k => exact .inl rfl
  | get k r =>
    simp only [seen]
    split
    · rename_i hm
      obtain ⟨a, b, c⟩ := hg k false hm.2
      exact .inr ⟨_, a, b, c, rfl⟩
    · exact .inl rfl
  | asyncGet k w b =>
    simp only [seen]
    split
    · rename_i hm
      obtain ⟨a, b, c⟩ := hg k true hm
      exact .inr ⟨_, a, b, c, rfl⟩
    · exact .inl rfl
  | emplace k v f =>
    simp only [seen]
    rcases hi (expire_ cfg env s k) k v f with q | q
    · exact .inl q
    · exact .inr ⟨_, expire__le2 hc h k, nodup_ents (expire_wf1 hc h env k), expire_ids hc h k, q⟩
  | getOrEmplace k v f =>
    simp only [seen]
    split
    · rename_i hm
      obtain ⟨a, b, c⟩ := hg k true hm
      rcases hi (get_ cfg env s k true).1 k v f with q | q
      · exact .inl q
      · exact .inr ⟨_, a, b, c, q⟩
    · exact .inl rfl
  | tick r b =>
    simp only [seen]
    split
    · exact .inl rfl
    · split
      · exact .inl rfl
      · simp only
        split
        · exact .inr ⟨_, ⟨rfl, Nat.le_refl _⟩, nodup_ents h, fun _ hi => hi, rfl⟩
        · exact .inl rfl
  | erase k => exact .inl rfl
  | complete tok r => exact .inl rfl
  | drop tok => exact .inl rfl
  | clear => cases ho
  | count => cases ho
  | destroy => cases ho

theorem maybeRehash_grown {s : St K V E} (ho : cfg.over (s.size + 1) s.tbl.length = true) (hn : needed env s = s.size) (hb : s.tbl.length < cfg.maxBuckets) :
    (maybeRehash cfg env s).tbl.length = grown cfg s.tbl.length := by
  have h1 : (beforeLink cfg env s).size = s.size := by
    unfold beforeLink; rw [if_pos ho]
    rw [← hn]
    simp only [St.size, purge_ents, needed]
  have hl : (beforeLink cfg env s).tbl.length = s.tbl.length := beforeLink_len
  have hm : mustGrow cfg (beforeLink cfg env s) = true := by
    unfold mustGrow
    rw [h1, hl, ho]
    simp [hb]
  unfold maybeRehash
  simp only
  rw [if_pos hm, (rehash_shape _ (grown_pos hm)).1, hl]

theorem maybeRehash_mono (s : St K V E) : s.tbl.length ≤ (maybeRehash cfg env s).tbl.length := by
  have hl : (beforeLink cfg env s).tbl.length = s.tbl.length := beforeLink_len
  unfold maybeRehash
  simp only
  split
  · rename_i hm
    rw [(rehash_shape _ (grown_pos hm)).1, hl]
    unfold mustGrow at hm
    simp only [Bool.or_eq_true, Bool.and_eq_true, decide_eq_true_eq, hl] at hm
    unfold grown
    split
    · omega
    · split <;> omega
  · rw [hl]; exact Nat.le_refl _

theorem getWalk_hit_ne {k : K} {incl : Bool} {es : List (Entry K V E)} {i : Nat} {l : Look V E} (h : (Hoard.getWalk cfg env k incl es).hit = some (i, l)) : l ≠ .none := by
  induction es with
  | nil => cases h
  | cons e es ih =>
    unfold Hoard.getWalk at h
    split at h
    · split at h <;> exact ih h
    · split at h
      · split at h <;> exact ih h
      · cases hg : getIfMatching cfg env k incl e <;> rw [hg] at h
        · exact ih h
        all_goals (cases h; intro h'; cases h')

theorem get__hit_ne {s : St K V E} {k : K} {incl : Bool} {x : Nat × Look V E} (h : (Hoard.getWalk cfg env k incl (bucketOf cfg s k)).hit = some x) :
    (get_ cfg env s k incl).2 ≠ .none := by
  obtain ⟨i, l⟩ := x
  have := getWalk_hit_ne h
  unfold get_
  show (match (Hoard.getWalk cfg env k incl (bucketOf cfg s k)).hit with
      | none => _
      | some (id, l) => _ : St K V E × Look V E).2 ≠ _
  rw [h]
  exact this

theorem lruGo_len (hot : Nat → Bool) : ∀ (l : List Nat) (c : Nat), (lruGo hot l c).2.length ≤ c ∧ (lruGo hot l c).2 <+: l
  | [], _ => by simp [lruGo]
  | _ :: _, 0 => by simp [lruGo]
  | x :: xs, c + 1 => by
    obtain ⟨h1, h2⟩ := lruGo_len hot xs c
    simp only [lruGo]
    split
    · exact ⟨by simp, xs, rfl⟩
    · exact ⟨by simp only [List.length_cons]; omega, List.cons_prefix_cons.2 ⟨rfl, h2⟩⟩

theorem tail_le {m : Nat} (hm : cfg.maxSize = some m) (s : St K V E) : (tail cfg s).length ≤ s.size - m := by
  unfold tail; rw [hm]; exact (lruGo_len _ _ _).1

theorem tail_ne {m : Nat} (hm : cfg.maxSize = some m) {s : St K V E} (h : WF1 cfg s) (hs : s.size > m) : tail cfg s ≠ [] := by
  have hq := (h.bq (by rw [hm]; rfl)).2.length_eq
  rw [List.length_map] at hq
  unfold tail
  rw [hm]
  simp only
  have hc : s.size - m = (s.size - m - 1) + 1 := by omega
  rw [hc]
  cases hr : s.bq.q.reverse with
  | nil =>
    have := congrArg List.length hr
    rw [List.length_reverse, hq] at this
    simp only [List.length_nil] at this
    unfold St.size at hs
    omega
  | cons x xs =>
    simp only [lruGo]
    split <;> simp

end Hoard.Visits
