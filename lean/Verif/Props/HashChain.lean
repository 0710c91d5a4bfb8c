import Verif.ChainLemmas
import Verif.Spec.ChainSpec
/-! C26 and C29: the chained hash table at pointer level. -/
namespace Hoard.Chain

/-- Execute a call on the pointer structure. -/
def exec (c : Tab) : COp → Option Tab
  | .link h e => c.link h e
  | .unlink e => (c.unlinkElem e).map (·.1)
  | .grow n => c.rehash n
  | .clear => c.clearDispose.map (·.1)
  | .clearSlow => (Tab.clearDisposeSlow c.size c).map (·.1)
  | .move own => some (c.move own).1

/-- Execute a sequence of calls; `none` is undefined behaviour. -/
def execAll (c : Tab) : List COp → Option Tab
  | [] => some c
  | o :: os => (exec c o).bind (fun c' => execAll c' os)

/-- A new table at address `own`, all elements unlinked, arbitrary hash
fields. -/
def fresh (own : Nat) (hash : Nat → Nat) : Tab := Tab.init own (fun _ => none) hash

/-- Invariant relating the pointer structure and the contents. -/
structure Inv (c : Tab) (a : Contents) (bs : List (List Nat)) : Prop where
  rep : Rep c bs
  nb : bs.length = a.nb
  size : c.size = bs.flatten.length
  nodup : (a.ents.map (·.1)).Nodup
  mem : ∀ e, e ∈ bs.flatten ↔ e ∈ a.ents.map (·.1)
  hash : ∀ p ∈ a.ents, c.hash p.1 = p.2
  order : ∀ h, bs.flatten.filter (fun e => c.hash e == h) = (a.ents.filter (fun p => p.2 == h)).map (·.1)
  free : ∀ e, e ∉ bs.flatten → c.next e = none

theorem Inv.empty {c : Tab} {n : Nat} (hr : Rep c (List.replicate n [])) (hs : c.size = 0)
    (hf : ∀ e, c.next e = none) : Inv c ⟨[], n⟩ (List.replicate n []) := by
  refine ⟨hr, by simp, by simp [hs], by simp, by simp, by simp, by simp, fun e _ => hf e⟩

theorem flatten_erase {bs : List (List Nat)} {e : Nat} (hn : bs.flatten.Nodup) :
    (bs.map (·.erase e)).flatten = bs.flatten.filter (· != e) := by
  induction bs with
  | nil => rfl
  | cons b bs ih =>
    rw [List.flatten_cons, List.nodup_append] at hn
    simp only [List.map_cons, List.flatten_cons, List.filter_append]
    rw [ih hn.2.1, List.Nodup.erase_eq_filter hn.1]

theorem distribute_order (f : Nat → Nat) (l : List Nat) (h n : Nat) (hn : 0 < n) :
    (distribute f n l).flatten.filter (fun e => f e == h) = l.filter (fun e => f e == h) := by
  have : ∀ m, m ≤ n → (((List.range m).map (fun j => l.filter (fun e => f e % n == j))).flatten.filter (fun e => f e == h)) =
      if h % n < m then l.filter (fun e => f e == h) else [] := by
    intro m
    induction m with
    | zero => intro _; simp
    | succ m ih =>
      intro hm
      rw [List.range_succ, List.map_append, List.flatten_append, List.filter_append, ih (by omega)]
      simp only [List.map_cons, List.map_nil, List.flatten_cons, List.flatten_nil, List.append_nil, List.filter_filter]
      by_cases h1 : h % n < m
      · have h2 : h % n < m + 1 := by omega
        simp only [h1, h2, if_true]
        have : l.filter (fun a => f a == h && f a % n == m) = [] := by
          rw [List.filter_eq_nil_iff]
          intro a _ ha
          simp at ha
          have := ha.2; rw [ha.1] at this; omega
        rw [this]; simp
      · by_cases h2 : h % n = m
        · have h3 : h % n < m + 1 := by omega
          simp only [h1, h3, if_true, if_false, List.nil_append]
          apply List.filter_congr
          intro a _
          by_cases ha : f a = h
          · simp [ha, h2]
          · simp [ha]
        · have h3 : ¬ h % n < m + 1 := by omega
          simp only [h1, h3, if_false, List.nil_append]
          rw [List.filter_eq_nil_iff]
          intro a _ ha
          simp at ha
          have := ha.2; rw [ha.1] at this; omega
  have := this n (Nat.le_refl n)
  rw [if_pos (Nat.mod_lt _ hn)] at this
  exact this

/-- Effect of one call on the buckets. -/
def bstep (c : Tab) (bs : List (List Nat)) : COp → List (List Nat)
  | .link h e => insB (h % bs.length) e bs
  | .unlink e => bs.map (·.erase e)
  | .grow n => distribute c.hash n bs.flatten
  | .clear => List.replicate bs.length []
  | .clearSlow => List.replicate bs.length []
  | .move _ => bs

theorem exec_inv {c : Tab} {a : Contents} {bs : List (List Nat)} (hi : Inv c a bs) (o : COp) (ho : o.ok a) :
    ∃ c', exec c o = some c' ∧ Inv c' (o.apply a) (bstep c bs o) := by
  cases o with
  | link h e =>
    obtain ⟨ho1, ho2⟩ := ho
    let c1 : Tab := { c with hash := fun x => if x = e then h else c.hash x }
    have he : e ∉ bs.flatten := fun hm => ho1 ((hi.mem e).1 hm)
    have hr1 : Rep c1 bs := by
      refine ⟨hi.rep.path, hi.rep.slots, hi.rep.nodup, ?_⟩
      intro i b hb x hx
      have : x ≠ e := by
        rintro rfl; exact he (List.mem_flatten.2 ⟨b, List.mem_of_getElem? hb, hx⟩)
      simp only [c1, this, if_false]
      exact hi.rep.hash i b hb x hx
    have hb : bs ≠ [] := by
      intro h'; have := hi.nb; rw [h'] at this; simp at this; omega
    have hpos : 0 < bs.length := List.length_pos_iff.2 hb
    have hhe : c1.hash e = h := by simp [c1]
    obtain ⟨c', h1, h2, h3, h4, h5, h6⟩ := rep_append' hr1 he hb
    rw [hhe] at h1 h2
    have hfl : ∃ pre post, bs.flatten = pre ++ post ∧ (insB (h % bs.length) e bs).flatten = pre ++ e :: post ∧
        ∀ x ∈ post, c.hash x ≠ h := by
      obtain ⟨as, b, cs, hsp, hl⟩ := split_at (Nat.mod_lt h hpos)
      refine ⟨as.flatten ++ b, cs.flatten, by rw [hsp]; simp, ?_, ?_⟩
      · rw [← hl]; subst hsp; rw [insB_split]; simp
      · intro x hx hxh
        obtain ⟨b', hb', hxb⟩ := List.mem_flatten.1 hx
        obtain ⟨k, hk⟩ := List.getElem?_of_mem hb'
        have hh := hi.rep.hash
        rw [show bs.length = bs.length from rfl] at hh
        have hg := (hash_split (h := c.hash) (as := as) (b := b) (cs := cs) (n := bs.length)).1 (by rw [← hsp]; exact hh)
        have := hg.2.2 k b' hk x hxb
        rw [hxh] at this; omega
    obtain ⟨pre, post, f1, f2, f3⟩ := hfl
    refine ⟨{ c' with size := c'.size + 1 }, ?_, ⟨⟨h2.path, h2.slots, h2.nodup, h2.hash⟩, ?_, ?_, ?_, ?_, ?_, ?_, ?_⟩⟩
    · show (c1.append (c1.bucketFor h) e).map _ = _
      rw [h1]; rfl
    · show (insB _ _ _).length = a.nb
      rw [insB_length, hi.nb]
    · show c'.size + 1 = (insB (h % bs.length) e bs).flatten.length
      rw [f2, h5]
      show c.size + 1 = _
      rw [hi.size, f1]; simp; omega
    · show ((a.ents ++ [(e, h)]).map (·.1)).Nodup
      have := hi.nodup
      simp only [List.map_append, List.map_cons, List.map_nil, List.nodup_append]
      refine ⟨this, by simp, ?_⟩
      intro x hx y hy
      obtain rfl : y = e := by simpa using hy
      rintro rfl; exact ho1 hx
    · intro x
      show x ∈ (insB (h % bs.length) e bs).flatten ↔ x ∈ (a.ents ++ [(e, h)]).map (·.1)
      rw [f2]
      have := hi.mem x
      rw [f1] at this
      simp only [List.map_append, List.mem_append, List.mem_cons, List.map_cons, List.map_nil, List.not_mem_nil, or_false] at this ⊢
      grind
    · intro p hp
      show c'.hash p.1 = p.2
      rw [h4]
      rcases List.mem_append.1 hp with hp | hp
      · have : p.1 ≠ e := by
          intro h'; exact ho1 (List.mem_map.2 ⟨p, hp, h'⟩)
        simp only [c1, this, if_false]; exact hi.hash p hp
      · obtain rfl : p = (e, h) := by simpa using hp
        simp [c1]
    · intro h'
      show (insB (h % bs.length) e bs).flatten.filter (fun x => c'.hash x == h') = ((a.ents ++ [(e, h)]).filter (fun p => p.2 == h')).map (·.1)
      rw [h4, f2]
      have hcongr : ∀ l : List Nat, e ∉ l → l.filter (fun x => c1.hash x == h') = l.filter (fun x => c.hash x == h') := by
        intro l hl
        apply List.filter_congr
        intro x hx
        have : x ≠ e := by rintro rfl; exact hl hx
        simp [c1, this]
      have hord := hi.order h'
      rw [f1] at hord he
      rw [List.filter_append, List.filter_cons, hcongr pre (fun hm => he (by simp [hm])), hcongr post (fun hm => he (by simp [hm])), hhe]
      rw [List.filter_append] at hord
      simp only [List.filter_append, List.map_append, ← hord]
      by_cases hh : h = h'
      · subst hh
        have : post.filter (fun x => c.hash x == h) = [] := by
          rw [List.filter_eq_nil_iff]; intro x hx hx'; exact f3 x hx (by simpa using hx')
        simp [this]
      · have : (h == h') = false := by simpa using hh
        simp [this]
    · intro x hx
      show c'.next x = none
      have hx' : x ∉ bs.flatten ∧ x ≠ e := by
        rw [show bstep c bs (COp.link h e) = insB (h % bs.length) e bs from rfl, f2] at hx
        rw [f1]; simp at hx ⊢; grind
      rw [h3 x hx'.1 hx'.2]; exact hi.free x hx'.1
  | unlink e =>
    have he : e ∈ bs.flatten := (hi.mem e).2 ho
    obtain ⟨c', h1, h2, h3, h4, h5, h6, h7⟩ := rep_unlinkElem hi.rep hi.size he
    have hfl := flatten_erase (e := e) hi.rep.nodup
    refine ⟨c', by simp [exec, h1], ⟨h2, ?_, ?_, ?_, ?_, ?_, ?_, ?_⟩⟩
    · simpa [bstep, COp.apply] using hi.nb
    · show c'.size = (bs.map (·.erase e)).flatten.length
      rw [h6, hi.size, hfl, ← List.Nodup.erase_eq_filter hi.rep.nodup, List.length_erase_of_mem he]
    · show ((a.ents.filter _).map (·.1)).Nodup
      exact hi.nodup.sublist ((List.filter_sublist).map _)
    · intro x
      show x ∈ (bs.map (·.erase e)).flatten ↔ x ∈ (a.ents.filter (fun p => p.1 != e)).map (·.1)
      rw [hfl, List.mem_filter, hi.mem]
      simp only [List.mem_map, List.mem_filter]
      constructor
      · rintro ⟨⟨p, hp, rfl⟩, hne⟩; exact ⟨p, ⟨hp, hne⟩, rfl⟩
      · rintro ⟨p, ⟨hp, hne⟩, rfl⟩; exact ⟨⟨p, hp, rfl⟩, hne⟩
    · intro p hp
      rw [h5]; exact hi.hash p (List.mem_filter.1 hp).1
    · intro h
      show (bs.map (·.erase e)).flatten.filter (fun x => c'.hash x == h) = ((a.ents.filter (fun p => p.1 != e)).filter (fun p => p.2 == h)).map (·.1)
      rw [h5, hfl, List.filter_filter, List.filter_filter]
      have := congrArg (List.filter (· != e)) (hi.order h)
      rw [List.filter_filter, List.filter_map, List.filter_filter] at this
      simp only [Bool.and_comm] at this ⊢
      simpa [Function.comp_def, Bool.and_comm] using this
    · intro x hx
      by_cases hxe : x = e
      · rw [hxe]; exact h3
      · have : x ∉ bs.flatten := by
          intro hm
          apply hx
          show x ∈ (bs.map (·.erase e)).flatten
          rw [hfl, List.mem_filter]; exact ⟨hm, by simpa using hxe⟩
        rw [h4 x this]; exact hi.free x this
  | grow n =>
    have hn : 0 < n := ho
    obtain ⟨c', h1, h2, h3, h4, h5, h6⟩ := rep_rehash hi.rep hi.size hn
    have hmem : ∀ x, x ∈ (distribute c.hash n bs.flatten).flatten ↔ x ∈ bs.flatten := fun x => distribute_mem hn
    have hperm : (distribute c.hash n bs.flatten).flatten.Perm bs.flatten := by
      rw [List.perm_iff_count]
      intro x
      rw [List.Nodup.count h2.nodup, List.Nodup.count hi.rep.nodup]
      simp only [hmem]
    refine ⟨c', h1, ⟨h2, distribute_length _ _ _, ?_, hi.nodup, ?_, ?_, ?_, ?_⟩⟩
    · rw [h4, hi.size]; exact hperm.length_eq.symm
    · intro x; exact (hmem x).trans (hi.mem x)
    · intro p hp; rw [h3]; exact hi.hash p hp
    · intro h
      show (distribute c.hash n bs.flatten).flatten.filter (fun x => c'.hash x == h) = _
      rw [h3, distribute_order _ _ _ _ hn]; exact hi.order h
    · intro x hx
      have : x ∉ bs.flatten := fun hm => hx ((hmem x).2 hm)
      rw [h6 x this]; exact hi.free x this
  | clear =>
    obtain ⟨c', h1, h2, h3, h4, h5, h6⟩ := rep_clearDispose hi.rep hi.size
    refine ⟨c', by simp [exec, h1], ?_⟩
    have := Inv.empty h2 h3 (by
      intro x; rw [h6]; split
      · rfl
      · rename_i hx; exact hi.free x hx)
    rw [hi.nb] at this
    simpa [COp.apply, bstep, hi.nb] using this
  | clearSlow =>
    obtain ⟨c', h1, h2, h3, h4, h5, h6⟩ := rep_clearSlow bs.flatten c.size c bs (by rw [hi.size]; exact Nat.le_refl _) rfl hi.rep
    refine ⟨c', by simp [exec, h1], ?_⟩
    have := Inv.empty h2 (by rw [h3, hi.size]; omega) (by
      intro x; rw [h6]; split
      · rfl
      · rename_i hx; exact hi.free x hx)
    rw [hi.nb] at this
    simpa [COp.apply, bstep, hi.nb] using this
  | move own =>
    refine ⟨_, rfl, ⟨(rep_move hi.rep own).1, hi.nb, hi.size, hi.nodup, hi.mem, hi.hash, hi.order, hi.free⟩⟩

theorem inv_fresh (own : Nat) (hash : Nat → Nat) : Inv (fresh own hash) ⟨[], 0⟩ [] :=
  Inv.empty (n := 0) (rep_empty _ 0 rfl rfl) rfl (fun _ => rfl)

theorem execAll_inv (os : List COp) : ∀ (c : Tab) (a : Contents) (bs : List (List Nat)), Inv c a bs → COk a os →
    ∃ c' bs', execAll c os = some c' ∧ Inv c' (os.foldl COp.apply a) bs' := by
  induction os with
  | nil => intro c a bs hi _; exact ⟨c, bs, rfl, hi⟩
  | cons o os ih =>
    intro c a bs hi hok
    obtain ⟨c1, h1, h2⟩ := exec_inv hi o hok.1
    obtain ⟨c2, bs2, h3, h4⟩ := ih c1 _ _ h2 hok.2
    exact ⟨c2, bs2, by simp [execAll, h1, h3], h4⟩

/-- C26. From a new table, any legal sequence of insertions, removals, bucket
count changes, clears and moves runs without undefined behaviour; afterwards
* the entry count is right,
* a full iteration visits every entry exactly once and nothing else,
* iterating the bucket selected for a hash value visits only entries of that
  bucket, and visits the entries with that very hash completely, once each and
  in insertion order. -/
theorem C26_table_exact (own : Nat) (hash0 : Nat → Nat) (os : List COp) (hok : COk ⟨[], 0⟩ os) :
    ∃ c, execAll (fresh own hash0) os = some c ∧
      c.size = (contents os).ents.length ∧
      c.slots.length = (contents os).nb ∧
      (∃ l, c.visitAll = some l ∧ l.Perm ((contents os).ents.map (·.1))) ∧
      (0 < (contents os).nb → ∀ h, ∃ b, c.visitBucket (c.bucketFor h) = some b ∧
        (∀ e ∈ b, ∃ h', (e, h') ∈ (contents os).ents ∧ h' % (contents os).nb = h % (contents os).nb) ∧
        b.filter (fun e => decide ((e, h) ∈ (contents os).ents)) =
          ((contents os).ents.filter (fun p => p.2 == h)).map (·.1)) := by
  obtain ⟨c, bs, h1, hi⟩ := execAll_inv os _ _ _ (inv_fresh own hash0) hok
  change Inv c (contents os) bs at hi
  have hperm : bs.flatten.Perm ((contents os).ents.map (·.1)) := by
    rw [List.perm_iff_count]
    intro x
    rw [List.Nodup.count hi.rep.nodup, List.Nodup.count hi.nodup]
    simp only [hi.mem]
  refine ⟨c, h1, ?_, ?_, ⟨bs.flatten, visitAll_spec hi.rep hi.size, hperm⟩, ?_⟩
  · rw [hi.size, hperm.length_eq]; simp
  · rw [hi.rep.length, hi.nb]
  · intro hpos h
    have hlen : 0 < bs.length := by rw [hi.nb]; exact hpos
    have hbf : c.bucketFor h = h % bs.length := by
      rw [Tab.bucketFor, hi.rep.length, if_neg (by omega)]
    obtain ⟨as, b, cs, hsp, hl⟩ := split_at (Nat.mod_lt h hlen)
    have hb : bs[h % bs.length]? = some b := by rw [← hl, hsp]; simp
    have hmemh : ∀ e ∈ bs.flatten, (e, c.hash e) ∈ (contents os).ents := by
      intro e he
      obtain ⟨p, hp, rfl⟩ := List.mem_map.1 ((hi.mem e).1 he)
      rw [hi.hash p hp]; exact hp
    have hbm : ∀ e ∈ b, e ∈ bs.flatten := fun e he =>
      List.mem_flatten.2 ⟨b, List.mem_of_getElem? hb, he⟩
    refine ⟨b, by rw [hbf]; exact visitBucket_spec hi.rep hi.size hb, ?_, ?_⟩
    · intro e he
      refine ⟨c.hash e, hmemh e (hbm e he), ?_⟩
      have := hi.rep.hash _ _ hb e he
      rw [hi.nb] at this; rw [this]
    · have hiff : ∀ e ∈ b, decide ((e, h) ∈ (contents os).ents) = (c.hash e == h) := by
        intro e he
        by_cases hh : c.hash e = h
        · subst hh; simp [hmemh e (hbm e he)]
        · have : (e, h) ∉ (contents os).ents := fun hm => hh (hi.hash _ hm)
          simp [this, hh]
      rw [List.filter_congr hiff]
      rw [← hi.order h]
      obtain ⟨g1, g2, g3⟩ := (hash_split (h := c.hash) (as := as) (b := b) (cs := cs) (n := bs.length)).1 (by rw [← hsp]; exact hi.rep.hash)
      conv => rhs; rw [hsp]
      rw [List.flatten_append, List.flatten_cons, List.filter_append, List.filter_append]
      have z1 : as.flatten.filter (fun e => c.hash e == h) = [] := by
        rw [List.filter_eq_nil_iff]
        intro x hx hxh
        obtain ⟨b', hb', hxb⟩ := List.mem_flatten.1 hx
        obtain ⟨k, hk⟩ := List.getElem?_of_mem hb'
        have h1 := g1 k b' hk x hxb
        have h2 : c.hash x = h := by simpa using hxh
        have := (List.getElem?_eq_some_iff.1 hk).1
        rw [h2] at h1; omega
      have z2 : cs.flatten.filter (fun e => c.hash e == h) = [] := by
        rw [List.filter_eq_nil_iff]
        intro x hx hxh
        obtain ⟨b', hb', hxb⟩ := List.mem_flatten.1 hx
        obtain ⟨k, hk⟩ := List.getElem?_of_mem hb'
        have h1 := g3 k b' hk x hxb
        have h2 : c.hash x = h := by simpa using hxh
        rw [h2] at h1; omega
      rw [z1, z2]; simp

/-- A legal history with growth, a collision, removal, move and re-insertion. -/
example : COk ⟨[], 0⟩ [.grow 4, .link 5 1, .link 9 2, .link 5 3, .move 77, .unlink 1, .grow 8, .link 2 1] := by
  simp [COk, COp.ok, COp.apply]

/-- C26, insertion: the entry goes to the end of its bucket and no other bucket
changes. -/
theorem C26_insert_appends (own : Nat) (hash0 : Nat → Nat) (os : List COp) (h e : Nat)
    (hok : COk ⟨[], 0⟩ os) (ho : (COp.link h e).ok (contents os)) :
    ∃ c c', execAll (fresh own hash0) os = some c ∧ c.link h e = some c' ∧
      ∀ i, i < (contents os).nb → ∃ b, c.visitBucket i = some b ∧
        c'.visitBucket i = some (if i = h % (contents os).nb then b ++ [e] else b) := by
  obtain ⟨c, bs, h1, hi⟩ := execAll_inv os _ _ _ (inv_fresh own hash0) hok
  change Inv c (contents os) bs at hi
  obtain ⟨c', h2, hi'⟩ := exec_inv hi (.link h e) ho
  refine ⟨c, c', h1, h2, fun i hlt => ?_⟩
  have hlt' : i < bs.length := by rw [hi.nb]; exact hlt
  refine ⟨bs[i], visitBucket_spec hi.rep hi.size (by simp), ?_⟩
  apply visitBucket_spec hi'.rep hi'.size
  simp only [bstep, insB, List.getElem?_modify, List.getElem?_eq_getElem hlt', hi.nb]
  by_cases hc : i = h % (contents os).nb
  · simp [hc]
  · simp [hc, Ne.symm hc]

/-- C26, removal: the entry disappears from its bucket and every bucket keeps
its other entries in order. -/
theorem C26_remove_exact (own : Nat) (hash0 : Nat → Nat) (os : List COp) (e : Nat)
    (hok : COk ⟨[], 0⟩ os) (ho : (COp.unlink e).ok (contents os)) :
    ∃ c c', execAll (fresh own hash0) os = some c ∧ c.unlinkElem e = some (c', e) ∧
      ∀ i, i < (contents os).nb → ∃ b, c.visitBucket i = some b ∧
        c'.visitBucket i = some (b.filter (· != e)) := by
  obtain ⟨c, bs, h1, hi⟩ := execAll_inv os _ _ _ (inv_fresh own hash0) hok
  change Inv c (contents os) bs at hi
  obtain ⟨c', h2, hi'⟩ := exec_inv hi (.unlink e) ho
  have he : e ∈ bs.flatten := (hi.mem e).2 ho
  obtain ⟨c2, g1, _⟩ := rep_unlinkElem hi.rep hi.size he
  have : c2 = c' := by simpa [exec, g1] using h2
  subst this
  refine ⟨c, c2, h1, g1, fun i hlt => ?_⟩
  have hlt' : i < bs.length := by rw [hi.nb]; exact hlt
  refine ⟨bs[i], visitBucket_spec hi.rep hi.size (by simp), ?_⟩
  apply visitBucket_spec hi'.rep hi'.size
  have hnd : bs[i].Nodup := by
    exact hi.rep.nodup.sublist (List.sublist_flatten_of_mem (List.getElem_mem hlt'))
  simp [bstep, hlt', List.Nodup.erase_eq_filter hnd]

/-- C26, where the table ends: the position before the end is the last entry of the iteration (the table itself if there is none), and going on from it
reaches the end. -/
theorem C26_before_end (own : Nat) (hash0 : Nat → Nat) (os : List COp) (hok : COk ⟨[], 0⟩ os) :
    ∃ c l, execAll (fresh own hash0) os = some c ∧ c.visitAll = some l ∧
      c.beforeEnd = some ((l.getLast?.map Slot.node).getD (.head c.own)) ∧ c.beforeEnd.bind c.incr = some none := by
  obtain ⟨c, bs, h1, hi⟩ := execAll_inv os _ _ _ (inv_fresh own hash0) hok
  change Inv c (contents os) bs at hi
  have hbe : c.beforeEnd = some (slotOf c.own bs.flatten) := by
    unfold Tab.beforeEnd
    by_cases h0 : bs = []
    · subst h0
      have : c.slots.length = 0 := by rw [hi.rep.length]; rfl
      simp [this, slotOf]
    · obtain ⟨as, b, hb⟩ : ∃ as b, bs = as ++ [b] := ⟨bs.dropLast, bs.getLast h0, (List.dropLast_concat_getLast h0).symm⟩
      have hr := hi.rep
      rw [hb] at hr ⊢
      have hl : c.slots.length = as.length + 1 := by rw [hr.length]; simp
      rw [hl, if_neg (by omega)]
      have := hr.slot_last (as := as) (b := b) (cs := [])
      simpa using this
  have hs : slotOf c.own bs.flatten = (bs.flatten.getLast?.map Slot.node).getD (.head c.own) := by
    unfold slotOf
    cases bs.flatten.getLast? <;> rfl
  refine ⟨c, bs.flatten, h1, visitAll_spec hi.rep hi.size, by rw [hbe, hs], ?_⟩
  rw [hbe]
  have hp : Path c.next c.head (bs.flatten ++ []) := by simpa using hi.rep.path
  obtain ⟨o, p1, p2⟩ := hp.rd_slot
  simp only [Option.bind_some, Tab.incr, p1]
  rw [show o = none from p2]; rfl

/-- C26, clearing: every entry is handed to the disposer exactly once, in
iteration order, by both variants of the loop. -/
theorem C26_clear_disposes_all (own : Nat) (hash0 : Nat → Nat) (os : List COp) (hok : COk ⟨[], 0⟩ os) :
    ∃ c c1 c2 l, execAll (fresh own hash0) os = some c ∧ c.visitAll = some l ∧
      c.clearDispose = some (c1, l) ∧ c1.visitAll = some [] ∧ c1.size = 0 ∧
      Tab.clearDisposeSlow c.size c = some (c2, l) ∧ c2.visitAll = some [] ∧ c2.size = 0 := by
  obtain ⟨c, bs, h1, hi⟩ := execAll_inv os _ _ _ (inv_fresh own hash0) hok
  change Inv c (contents os) bs at hi
  obtain ⟨c1, a1, a2, a3, _⟩ := rep_clearDispose hi.rep hi.size
  obtain ⟨c2, b1, b2, b3, _⟩ := rep_clearSlow bs.flatten c.size c bs (by rw [hi.size]; exact Nat.le_refl _) rfl hi.rep
  have b3' : c2.size = 0 := by rw [b3, hi.size]; omega
  refine ⟨c, c1, c2, bs.flatten, h1, visitAll_spec hi.rep hi.size, a1, ?_, a3, b1, ?_, b3'⟩
  · simpa using visitAll_spec a2 (by simp [a3])
  · simpa using visitAll_spec b2 (by simp [b3'])

theorem path_next_last {nx : Nat → Option Nat} : ∀ {l : List Nat} {o : Option Nat}, Path nx o l → l.Nodup →
    ∀ e ∈ l, (nx e).isSome = decide (l.getLast? ≠ some e)
  | [], _, _, _, _, h => by simp at h
  | [x], _, hp, _, e, he => by
    obtain rfl : e = x := by simpa using he
    have : nx e = none := hp.2
    simp [this]
  | x :: y :: l, _, hp, hn, e, he => by
    rw [List.getLast?_cons_cons]
    rcases List.mem_cons.1 he with rfl | he
    · have h1 : nx e = some y := hp.2.1
      have h2 : (y :: l).getLast? ≠ some e := by
        intro h; exact (List.nodup_cons.1 hn).1 (List.mem_of_getLast? h)
      simp [h1, h2]
    · exact path_next_last hp.2 (List.nodup_cons.1 hn).2 e he

/-- C29, what holds: an entry that is not in the table is reported unlinked, and
an entry in the table is reported linked unless it is the very last one in
iteration order.

The full claim (linked iff in the table) is false, see
`C29_last_reported_unlinked`. -/
theorem C29_linked_test_partial (own : Nat) (hash0 : Nat → Nat) (os : List COp) (hok : COk ⟨[], 0⟩ os) :
    ∃ c l, execAll (fresh own hash0) os = some c ∧ c.visitAll = some l ∧
      ∀ e, c.isLinked e = true ↔ e ∈ (contents os).ents.map (·.1) ∧ l.getLast? ≠ some e := by
  obtain ⟨c, bs, h1, hi⟩ := execAll_inv os _ _ _ (inv_fresh own hash0) hok
  change Inv c (contents os) bs at hi
  refine ⟨c, bs.flatten, h1, visitAll_spec hi.rep hi.size, fun e => ?_⟩
  rw [← hi.mem]
  by_cases he : e ∈ bs.flatten
  · simp [Tab.isLinked, path_next_last hi.rep.path hi.rep.nodup e he, he]
  · simp [Tab.isLinked, hi.free e he, he]

/-- C29 is false: in every non-empty table some entry is reported unlinked. -/
theorem C29_last_reported_unlinked (own : Nat) (hash0 : Nat → Nat) (os : List COp) (hok : COk ⟨[], 0⟩ os)
    (hne : (contents os).ents ≠ []) :
    ∃ c e, execAll (fresh own hash0) os = some c ∧ e ∈ (contents os).ents.map (·.1) ∧ c.isLinked e = false := by
  obtain ⟨c, bs, h1, hi⟩ := execAll_inv os _ _ _ (inv_fresh own hash0) hok
  change Inv c (contents os) bs at hi
  have hb : bs.flatten ≠ [] := by
    intro h
    obtain ⟨p, hp⟩ := List.exists_mem_of_ne_nil _ hne
    have := (hi.mem p.1).2 (List.mem_map.2 ⟨p, hp, rfl⟩)
    rw [h] at this; simp at this
  have hm := List.getLast_mem hb
  refine ⟨c, bs.flatten.getLast hb, h1, (hi.mem _).1 hm, ?_⟩
  have := path_next_last hi.rep.path hi.rep.nodup _ hm
  simp only [Tab.isLinked, this, List.getLast?_eq_some_getLast hb]
  simp

example : COk ⟨[], 0⟩ [.grow 4, .link 5 1, .link 9 2] ∧ (contents [.grow 4, .link 5 1, .link 9 2]).ents ≠ [] := by
  simp [COk, COp.ok, COp.apply, contents]

end Hoard.Chain
