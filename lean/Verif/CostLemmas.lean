import Verif.Cost
import Verif.Spec.Cost
import Verif.Props.HashChain
/-! Helper lemmas: the cost of changing the hash table, by buckets. -/
namespace Hoard.Chain

/-- Number of empty buckets at the front. -/
def emptyRun (cs : List (List Nat)) : Nat := (cs.takeWhile (·.isEmpty)).length

theorem emptyRun_nil : emptyRun [] = 0 := rfl
theorem emptyRun_cons_nil (cs : List (List Nat)) : emptyRun ([] :: cs) = emptyRun cs + 1 := by
  simp [emptyRun]
theorem emptyRun_cons_ne {b : List Nat} (cs : List (List Nat)) (h : b ≠ []) : emptyRun (b :: cs) = 0 := by
  cases b with
  | nil => exact absurd rfl h
  | cons => simp [emptyRun]

theorem emptyRun_le (cs : List (List Nat)) : emptyRun cs ≤ cs.length := by
  induction cs with
  | nil => simp [emptyRun]
  | cons b cs ih =>
    by_cases h : b = []
    · subst h; rw [emptyRun_cons_nil]; simpa using ih
    · rw [emptyRun_cons_ne cs h]; omega

theorem le_emptyRun {cs : List (List Nat)} : ∀ {k : Nat}, k ≤ cs.length →
    (k ≤ emptyRun cs ↔ ∀ m, m < k → cs[m]? = some []) := by
  induction cs with
  | nil => intro k hk; simp at hk; subst hk; simp
  | cons b cs ih =>
    intro k hk
    cases k with
    | zero => simp
    | succ k =>
      by_cases h : b = []
      · subst h
        rw [emptyRun_cons_nil]
        have := ih (k := k) (by simpa using hk)
        constructor
        · intro hl m hm
          cases m with
          | zero => rfl
          | succ m => simpa using (this.1 (by omega)) m (by omega)
        · intro H
          have := this.2 (fun m hm => by simpa using H (m + 1) (by omega))
          omega
      · rw [emptyRun_cons_ne cs h]
        constructor
        · intro hl; omega
        · intro H; have := H 0 (by omega); simp at this; exact absurd this h

theorem loops_slots (own : Nat) : ∀ (cs : List (List Nat)) (p : List Nat), (p ++ cs.flatten).Nodup →
    loops (slotOf own p) (slotsOf own p cs) = emptyRun cs
  | [], _, _ => rfl
  | b :: cs, p, hn => by
    by_cases hb : b = []
    · subst hb
      simp only [slotsOf, List.append_nil, loops, if_true]
      rw [loops_slots own cs p (by simpa using hn), emptyRun_cons_nil]
    · have hn' : (p ++ b).Nodup := by
        rw [List.flatten_cons, ← List.append_assoc] at hn
        exact (List.nodup_append.1 hn).1
      simp only [slotsOf, loops, if_neg (slotOf_ne hn' hb)]
      rw [emptyRun_cons_ne cs hb]

theorem drop_slots {c : Tab} {as cs : List (List Nat)} (hr : Rep c (as ++ cs)) :
    c.slots.drop as.length = slotsOf c.own as.flatten cs := by
  rw [hr.slots, slotsOf_append, List.drop_left' (by simp [slotsOf_length])]; simp

theorem appendCost_split {c : Tab} {as cs : List (List Nat)} {b : List Nat} (hr : Rep c (as ++ b :: cs)) :
    c.appendCost as.length = emptyRun cs + 1 := by
  have hn := hr.nodup
  have h2 : ((as.flatten ++ b) ++ cs.flatten).Nodup := by simpa using hn
  unfold Tab.appendCost
  rw [hr.slot_last, drop_slots hr]
  simp only [slotsOf, loops, if_true]
  rw [loops_slots _ _ _ h2]

theorem appendCost_eq {c : Tab} {bs : List (List Nat)} (hr : Rep c bs) {i : Nat} (hi : i < bs.length) :
    c.appendCost i = emptyRun (bs.drop (i + 1)) + 1 := by
  obtain ⟨as, b, cs, rfl, rfl⟩ := split_at hi
  rw [appendCost_split hr]
  congr 2
  rw [show as ++ b :: cs = (as ++ [b]) ++ cs by simp, List.drop_left' (by simp)]

/-- Counting an interval. -/
theorem count_interval (n i r : Nat) (h : i + r < n) (p : Nat → Bool)
    (hp : ∀ j, j < n → (p j = true ↔ i ≤ j ∧ j ≤ i + r)) : ((List.range n).filter p).length = r + 1 := by
  have h1 : n = i + ((r + 1) + (n - (i + r + 1))) := by omega
  have e : List.range n = List.range i ++ ((List.range (r + 1)).map (i + ·) ++ (List.range (n - (i + r + 1))).map (fun x => i + ((r + 1) + x))) := by
    conv => lhs; rw [h1]
    rw [List.range_add, List.range_add]
    simp
  rw [e, List.filter_append, List.filter_append, List.length_append, List.length_append]
  have a1 : (List.range i).filter p = [] := by
    rw [List.filter_eq_nil_iff]
    intro j hj hpj
    have hj' : j < i := by simpa using hj
    have := (hp j (by omega)).1 hpj; omega
  have a3 : ((List.range (n - (i + r + 1))).map (fun x => i + ((r + 1) + x))).filter p = [] := by
    rw [List.filter_eq_nil_iff]
    intro j hj hpj
    obtain ⟨x, hx, rfl⟩ := List.mem_map.1 hj
    have hx' : x < n - (i + r + 1) := by simpa using hx
    have := (hp _ (by omega)).1 hpj; omega
  have a2 : ((List.range (r + 1)).map (i + ·)).filter p = (List.range (r + 1)).map (i + ·) := by
    rw [List.filter_eq_self]
    intro j hj
    obtain ⟨x, hx, rfl⟩ := List.mem_map.1 hj
    have hx' : x < r + 1 := by simpa using hx
    exact (hp _ (by omega)).2 ⟨by omega, by omega⟩
  rw [a1, a2, a3]; simp

/-- The run of empty buckets is what the specification counts. -/
theorem span_eq {bs : List (List Nat)} {hash : Nat → Nat}
    (hh : ∀ i b, bs[i]? = some b → ∀ e ∈ b, hash e % bs.length = i) (hs : List Nat)
    (hm : ∀ x, x ∈ hs ↔ ∃ e ∈ bs.flatten, hash e = x) (h : Nat) (hpos : 0 < bs.length) :
    span bs.length hs h = emptyRun (bs.drop (h % bs.length + 1)) + 1 := by
  have hi : h % bs.length < bs.length := Nat.mod_lt _ hpos
  unfold span
  generalize hie : h % bs.length = i at hi ⊢
  have hrl : emptyRun (bs.drop (i + 1)) ≤ bs.length - (i + 1) := by
    have := emptyRun_le (bs.drop (i + 1)); simpa using this
  apply count_interval _ i _ (by omega)
  intro j hj
  simp only [Bool.and_eq_true, decide_eq_true_eq, List.all_eq_true, Bool.not_eq_true', Bool.and_eq_false_iff, decide_eq_false_iff_not]
  constructor
  · rintro ⟨hij, hall⟩
    refine ⟨hij, ?_⟩
    have : j - i ≤ emptyRun (bs.drop (i + 1)) := by
      rw [le_emptyRun (by simp; omega)]
      intro m hmj
      rw [List.getElem?_drop]
      have hlt : i + 1 + m < bs.length := by omega
      rw [List.getElem?_eq_getElem hlt]
      congr 1
      cases hb : bs[i + 1 + m] with
      | nil => rfl
      | cons e b =>
        have hg : bs[i + 1 + m]? = some (e :: b) := by rw [List.getElem?_eq_getElem hlt, hb]
        have hmod := hh _ _ hg e (by simp)
        have := hall (hash e) ((hm _).2 ⟨e, List.mem_flatten.2 ⟨_, List.mem_of_getElem? hg, by simp⟩, rfl⟩)
        omega
    omega
  · rintro ⟨hij, hj2⟩
    refine ⟨hij, ?_⟩
    intro x hx
    obtain ⟨e, he, rfl⟩ := (hm x).1 hx
    obtain ⟨b, hb, heb⟩ := List.mem_flatten.1 he
    obtain ⟨k, hk⟩ := List.getElem?_of_mem hb
    have hmod := hh k b hk e heb
    rw [hmod]
    by_cases hc : i < k ∧ k ≤ j
    · exfalso
      have := (le_emptyRun (cs := bs.drop (i + 1)) (k := j - i) (by simp; omega)).1 (by omega) (k - i - 1) (by omega)
      rw [List.getElem?_drop] at this
      have hk' : i + 1 + (k - i - 1) = k := by omega
      rw [hk', hk] at this
      have : b = [] := by simpa using this
      subst this; simp at heb
    · omega

theorem linkCost_eq {c : Tab} {bs : List (List Nat)} (hr : Rep c bs) (hpos : 0 < bs.length) (h : Nat) :
    c.linkCost h = emptyRun (bs.drop (h % bs.length + 1)) + 1 := by
  have hbf : c.bucketFor h = h % bs.length := by
    rw [Tab.bucketFor, hr.length, if_neg (by omega)]
  rw [Tab.linkCost, hbf, appendCost_eq hr (Nat.mod_lt _ hpos)]

/-- Cost of distributing `rest` after `done`. -/
def distCost (h : Nat → Nat) (n : Nat) : List Nat → List Nat → Nat
  | _, [] => 0
  | done, e :: rest => emptyRun ((distribute h n done).drop (h e % n + 1)) + 1 + distCost h n (done ++ [e]) rest

theorem rehashLoopCost_eq (n : Nat) (hn : 0 < n) : ∀ (fuel : Nat) (c : Tab) (done rest : List Nat) (p : Option Nat),
    rest.length ≤ fuel → Rep c (distribute c.hash n done) → Path c.next p rest →
    (done ++ rest).Nodup → Tab.rehashLoopCost fuel c p = distCost c.hash n done rest := by
  intro fuel
  induction fuel with
  | zero =>
    intro c done rest p hl hr hp _
    obtain rfl : rest = [] := by simpa using hl
    obtain rfl : p = none := hp
    rfl
  | succ fuel ih =>
    intro c done rest p hl hr hp hnd
    cases rest with
    | nil =>
      obtain rfl : p = none := hp
      rfl
    | cons e rest =>
      obtain ⟨rfl, hp⟩ := hp
      have hed : e ∉ done := by
        rw [List.nodup_append] at hnd
        intro hm; exact hnd.2.2 e hm e (by simp) rfl
      have hlen : (distribute c.hash n done).length = n := distribute_length c.hash n done
      have hne : distribute c.hash n done ≠ [] := by
        intro h; rw [h] at hlen; simp at hlen; omega
      obtain ⟨c1, h1, h2, h3, h4, h5, h6⟩ := rep_append' hr (e := e) (by rw [distribute_mem hn]; exact hed) hne
      rw [distribute_length, ← distribute_concat] at h2
      have hp' : Path c1.next (c.next e) rest := by
        apply hp.congr
        intro x hx
        apply h3
        · rw [distribute_mem hn]
          rw [List.nodup_append] at hnd
          intro hm; exact hnd.2.2 x hm x (by simp [hx]) rfl
        · rintro rfl
          rw [List.nodup_append, List.nodup_cons] at hnd
          exact hnd.2.1.1 hx
      rw [← h4] at h2
      have := ih c1 (done ++ [e]) rest (c.next e) (by simpa using hl) h2 hp' (by simpa using hnd)
      have hac : c.appendCost (c.bucketFor (c.hash e)) = emptyRun ((distribute c.hash n done).drop (c.hash e % n + 1)) + 1 := by
        have := linkCost_eq hr (by omega) (c.hash e)
        rw [hlen] at this; exact this
      simp only [Tab.rehashLoopCost, h1, this, hac, distCost, h4]

theorem rehashCost_eq {c : Tab} {bs : List (List Nat)} (hr : Rep c bs) (hsz : c.size = bs.flatten.length)
    {n : Nat} (hn : 0 < n) : c.rehashCost n = distCost c.hash n [] bs.flatten := by
  let c0 : Tab := { c with head := none, slots := List.replicate n (.head c.own) }
  have h0 : Rep c0 (distribute c0.hash n []) := by
    rw [distribute_nil]; exact rep_empty c0 n rfl rfl
  exact rehashLoopCost_eq n hn c.size c0 [] bs.flatten c.head (by omega) h0 hr.path (by simpa using hr.nodup)

theorem unlinkElemCost_split {c : Tab} {as cs : List (List Nat)} {b1 b2 : List Nat} {e : Nat}
    (hr : Rep c (as ++ (b1 ++ e :: b2) :: cs)) (hsz : c.size = (as ++ (b1 ++ e :: b2) :: cs).flatten.length) :
    c.unlinkElemCost e = if b2 = [] then emptyRun cs + 1 else 0 := by
  have hn := hr.nodup
  have hidx : c.bucketFor (c.hash e) = as.length := by
    rw [Tab.bucketFor, hr.length, if_neg (by simp)]
    exact (hash_split.1 hr.hash).2.1 e (by simp)
  have hb1 : e ∉ b1 := by
    intro hm
    simp only [List.flatten_append, List.flatten_cons, List.append_assoc] at hn
    simp only [List.nodup_append, List.cons_append] at hn
    exact hn.2.1.2.2 e hm e (by simp) rfl
  have hfp := findPred_spec (c := c) (e := e) b1 as.flatten (b2 ++ cs.flatten) c.size
    (by simpa using hr.path) hb1 (by rw [hsz]; simp; omega)
  have hp : Path c.next c.head ((as.flatten ++ b1) ++ (e :: (b2 ++ cs.flatten))) := by simpa using hr.path
  obtain ⟨o, ho, hpo⟩ := hp.rd_slot
  obtain ⟨rfl, _⟩ := hpo
  unfold Tab.unlinkElemCost
  rw [hidx, hr.slot_before]
  simp only [Option.bind_some, hfp, Tab.unlinkCost, ho, hidx, drop_slots hr, slotsOf, loops]
  by_cases hb : b2 = []
  · subst hb
    have e1 : slotOf c.own (as.flatten ++ (b1 ++ [e])) = .node e := by
      rw [← List.append_assoc, slotOf_concat]
    rw [e1, if_pos rfl, if_pos rfl]
    have := loops_slots c.own cs (as.flatten ++ (b1 ++ [e])) (by simpa using hn)
    rw [e1] at this; rw [this]
  · have hne : slotOf c.own (as.flatten ++ (b1 ++ e :: b2)) ≠ .node e := by
      have : as.flatten ++ (b1 ++ e :: b2) = (as.flatten ++ b1 ++ [e]) ++ b2 := by simp
      rw [this, slotOf_append_node _ _ _ hb]
      intro h
      have h' : b2.getLast hb = e := by simpa using h
      have hm := List.getLast_mem hb
      rw [h'] at hm
      simp only [List.flatten_append, List.flatten_cons, List.append_assoc] at hn
      simp only [List.nodup_append, List.cons_append, List.nodup_cons] at hn
      exact hn.2.1.2.1.1 (by simp [hm])
    rw [if_neg hne, if_neg hb]

theorem distribute_hash (h : Nat → Nat) (n : Nat) (l : List Nat) :
    ∀ i b, (distribute h n l)[i]? = some b → ∀ e ∈ b, h e % (distribute h n l).length = i := by
  intro i b hb e he
  rw [distribute_length]
  have hi : i < n := by
    have := (List.getElem?_eq_some_iff.1 hb).1; rwa [distribute_length] at this
  simp only [distribute, List.getElem?_map, List.getElem?_range hi, Option.map_some, Option.some.injEq] at hb
  subst hb
  simpa using (List.mem_filter.1 he).2

theorem distCost_step (h : Nat → Nat) (n : Nat) (hn : 0 < n) (done : List Nat) (x : Nat) :
    emptyRun ((distribute h n done).drop (x % n + 1)) + 1 = span n (done.map h) x := by
  have := span_eq (bs := distribute h n done) (hash := h) (distribute_hash h n done) (done.map h)
    (by intro y; simp only [distribute_mem hn, List.mem_map]) x (by rw [distribute_length]; exact hn)
  rw [distribute_length] at this
  exact this.symm

theorem distCost_spans (h : Nat → Nat) (n : Nat) (hn : 0 < n) : ∀ (rest done : List Nat),
    distCost h n done rest =
      ((List.range rest.length).map (fun i => span n ((done ++ rest.take i).map h) ((rest.map h).getD i 0))).sum
  | [], _ => rfl
  | e :: rest, done => by
    simp only [distCost, distCost_step h n hn, List.length_cons, List.range_succ_eq_map, List.map_cons, List.map_map,
      List.sum_cons]
    rw [distCost_spans h n hn rest (done ++ [e])]
    congr 1
    · simp
    · congr 1
      apply List.map_congr_left
      intro i _
      simp

theorem distCost_eq_spans (h : Nat → Nat) (n : Nat) (hn : 0 < n) (l : List Nat) :
    distCost h n [] l = spans n (l.map h) := by
  rw [distCost_spans h n hn]
  unfold spans
  simp only [List.length_map, List.nil_append, List.map_take]

theorem inv_hashes {c : Tab} {a : Contents} {bs : List (List Nat)} (hi : Inv c a bs) (x : Nat) :
    x ∈ a.ents.map (·.2) ↔ ∃ e ∈ bs.flatten, c.hash e = x := by
  constructor
  · intro hx
    obtain ⟨p, hp, rfl⟩ := List.mem_map.1 hx
    exact ⟨p.1, (hi.mem _).2 (List.mem_map.2 ⟨p, hp, rfl⟩), hi.hash p hp⟩
  · rintro ⟨e, he, rfl⟩
    obtain ⟨p, hp, rfl⟩ := List.mem_map.1 ((hi.mem e).1 he)
    rw [hi.hash p hp]
    exact List.mem_map.2 ⟨p, hp, rfl⟩

theorem inv_span {c : Tab} {a : Contents} {bs : List (List Nat)} (hi : Inv c a bs) (hpos : 0 < a.nb) (h : Nat) :
    emptyRun (bs.drop (h % a.nb + 1)) + 1 = span a.nb (a.ents.map (·.2)) h := by
  have := span_eq hi.rep.hash _ (inv_hashes hi) h (by rw [hi.nb]; exact hpos)
  rw [hi.nb] at this; exact this.symm

theorem inv_perm {c : Tab} {a : Contents} {bs : List (List Nat)} (hi : Inv c a bs) :
    (bs.flatten.map (fun e => (e, c.hash e))).Perm a.ents := by
  have hperm : bs.flatten.Perm (a.ents.map (·.1)) := by
    rw [List.perm_iff_count]
    intro x
    rw [List.Nodup.count hi.rep.nodup, List.Nodup.count hi.nodup]
    simp only [hi.mem]
  have h1 := hperm.map (fun e => (e, c.hash e))
  rw [List.map_map] at h1
  have h2 : a.ents.map ((fun e => (e, c.hash e)) ∘ fun p => p.1) = a.ents := by
    conv => rhs; rw [← List.map_id a.ents]
    apply List.map_congr_left
    intro p hp
    simp [hi.hash p hp]
  rw [h2] at h1; exact h1

theorem span_le (nb : Nat) (hs : List Nat) (h : Nat) : span nb hs h ≤ nb := by
  unfold span
  exact Nat.le_trans (List.length_filter_le _ _) (by simp)

theorem sum_le_mul (l : List Nat) (b : Nat) (h : ∀ x ∈ l, x ≤ b) : l.sum ≤ l.length * b := by
  induction l with
  | nil => simp
  | cons x l ih =>
    have h1 := h x (by simp)
    have h2 := ih (fun y hy => h y (by simp [hy]))
    simp only [List.sum_cons, List.length_cons, Nat.add_mul]; omega

theorem spans_le (nb : Nat) (hs : List Nat) : spans nb hs ≤ hs.length * nb := by
  have := sum_le_mul ((List.range hs.length).map (fun i => span nb (hs.take i) (hs.getD i 0))) nb (by
    intro x hx
    obtain ⟨i, _, rfl⟩ := List.mem_map.1 hx
    exact span_le _ _ _)
  simpa [spans] using this

end Hoard.Chain
