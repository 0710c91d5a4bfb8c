import Verif.Chain
/-! Helper lemmas: the pointer structure of `Verif.Chain` represents a list of
buckets. -/
namespace Hoard.Chain

/-- Following `next` from `o` gives exactly `l`, then null. -/
def Path (nx : Nat → Option Nat) : Option Nat → List Nat → Prop
  | o, [] => o = none
  | o, x :: l => o = some x ∧ Path nx (nx x) l

/-- Address of the link after the sequence `pre`. -/
def slotOf (own : Nat) (pre : List Nat) : Slot :=
  match pre.getLast? with
  | none => .head own
  | some x => .node x

/-- Bucket array contents for buckets `bs` preceded by the elements `pre`. -/
def slotsOf (own : Nat) : List Nat → List (List Nat) → List Slot
  | _, [] => []
  | pre, b :: bs => slotOf own (pre ++ b) :: slotsOf own (pre ++ b) bs

/-- `c` stores the buckets `bs`. -/
structure Rep (c : Tab) (bs : List (List Nat)) : Prop where
  path : Path c.next c.head bs.flatten
  slots : c.slots = slotsOf c.own [] bs
  nodup : bs.flatten.Nodup
  hash : ∀ i b, bs[i]? = some b → ∀ e ∈ b, c.hash e % bs.length = i

theorem Path.congr {nx nx' : Nat → Option Nat} : ∀ {l : List Nat} {o : Option Nat},
    Path nx o l → (∀ x ∈ l, nx' x = nx x) → Path nx' o l
  | [], _, h, _ => h
  | x :: l, _, h, hc => ⟨h.1, by
      rw [hc x (by simp)]
      exact h.2.congr (fun y hy => hc y (by simp [hy]))⟩

theorem slotOf_concat (own : Nat) (l : List Nat) (x : Nat) : slotOf own (l ++ [x]) = .node x := by
  simp [slotOf]

theorem slotOf_append (own : Nat) (p q l : List Nat) (hl : l ≠ []) :
    slotOf own (p ++ l) = slotOf own (q ++ l) := by
  have h := List.dropLast_concat_getLast hl
  rw [← h, ← List.append_assoc, ← List.append_assoc, slotOf_concat, slotOf_concat]

theorem slotOf_append_node (own : Nat) (p l : List Nat) (hl : l ≠ []) :
    slotOf own (p ++ l) = .node (l.getLast hl) := by
  have h := List.dropLast_concat_getLast hl
  conv => lhs; rw [← h]
  rw [← List.append_assoc, slotOf_concat]

theorem slotOf_node_mem {own : Nat} {l : List Nat} {x : Nat} (h : slotOf own l = .node x) : x ∈ l := by
  unfold slotOf at h
  split at h
  · simp at h
  · rename_i y hy
    obtain rfl : y = x := by simpa using h
    exact List.mem_of_getLast? hy

theorem slotsOf_congr (own : Nat) : ∀ (bs : List (List Nat)) (p q : List Nat),
    slotOf own p = slotOf own q → slotsOf own p bs = slotsOf own q bs
  | [], _, _, _ => rfl
  | b :: bs, p, q, h => by
    have h1 : slotOf own (p ++ b) = slotOf own (q ++ b) := by
      by_cases hb : b = []
      · simpa [hb] using h
      · exact slotOf_append own p q b hb
    simp only [slotsOf, h1, slotsOf_congr own bs _ _ h1]

theorem slotsOf_append (own : Nat) : ∀ (as bs : List (List Nat)) (p : List Nat),
    slotsOf own p (as ++ bs) = slotsOf own p as ++ slotsOf own (p ++ as.flatten) bs
  | [], bs, p => by simp [slotsOf]
  | a :: as, bs, p => by simp [slotsOf, slotsOf_append own as bs]

theorem slotsOf_length (own : Nat) : ∀ (bs : List (List Nat)) (p : List Nat),
    (slotsOf own p bs).length = bs.length
  | [], _ => rfl
  | b :: bs, p => by simp [slotsOf, slotsOf_length own bs]

theorem slotsOf_replicate (own : Nat) (p : List Nat) : ∀ n,
    slotsOf own p (List.replicate n []) = List.replicate n (slotOf own p)
  | 0 => rfl
  | n + 1 => by simp [List.replicate_succ, slotsOf, slotsOf_replicate own p n]

theorem Rep.length {c : Tab} {bs : List (List Nat)} (h : Rep c bs) : c.slots.length = bs.length := by
  rw [h.slots, slotsOf_length]

/-- Last elements differ when the second part is non-empty. -/
theorem slotOf_ne {own : Nat} {p l : List Nat} (hn : (p ++ l).Nodup) (hl : l ≠ []) :
    slotOf own (p ++ l) ≠ slotOf own p := by
  rw [slotOf_append_node own p l hl]
  intro h
  have := slotOf_node_mem h.symm
  rw [List.nodup_append] at hn
  exact hn.2.2 _ this _ (List.getLast_mem hl) rfl

theorem repoint_insert (own e : Nat) : ∀ (bs : List (List Nat)) (p : List Nat),
    (p ++ bs.flatten).Nodup →
    repoint (slotOf own p) (.node e) (slotsOf own p bs) = slotsOf own (p ++ [e]) bs
  | [], _, _ => rfl
  | b :: bs, p, hn => by
    by_cases hb : b = []
    · subst hb
      simp only [slotsOf, List.append_nil, repoint, if_true, slotOf_concat]
      rw [repoint_insert own e bs p (by simpa using hn)]
    · have hn' : (p ++ b).Nodup := by
        rw [List.flatten_cons, ← List.append_assoc] at hn
        exact (List.nodup_append.1 hn).1
      simp only [slotsOf, repoint, if_neg (slotOf_ne hn' hb)]
      have h1 := slotOf_append own p (p ++ [e]) b hb
      rw [h1, slotsOf_congr own bs _ _ h1]

theorem repoint_remove (own e : Nat) : ∀ (bs : List (List Nat)) (p : List Nat),
    (p ++ e :: bs.flatten).Nodup →
    repoint (.node e) (slotOf own p) (slotsOf own (p ++ [e]) bs) = slotsOf own p bs
  | [], _, _ => rfl
  | b :: bs, p, hn => by
    by_cases hb : b = []
    · subst hb
      simp only [slotsOf, List.append_nil, repoint, if_true, slotOf_concat]
      rw [repoint_remove own e bs p (by simpa using hn)]
    · have hne : slotOf own (p ++ [e] ++ b) ≠ .node e := by
        rw [slotOf_append_node _ _ _ hb]
        have hm := List.getLast_mem hb
        intro h
        have : b.getLast hb = e := by simpa using h
        rw [List.nodup_append, List.nodup_cons] at hn
        exact hn.2.1.1 (by simp; left; rwa [this] at hm)
      simp only [slotsOf, repoint, if_neg hne]
      have h1 := slotOf_append own (p ++ [e]) p b hb
      rw [h1, slotsOf_congr own bs _ _ h1]

theorem repoint_none {old new : Slot} {s : Slot} {ss : List Slot} (h : s ≠ old) :
    repoint old new (s :: ss) = s :: ss := by simp [repoint, h]

/-- Reading the link after `pre`. -/
theorem Path.rd_slot {c : Tab} : ∀ {pre post : List Nat}, Path c.next c.head (pre ++ post) →
    ∃ o, c.rd (slotOf c.own pre) = some o ∧ Path c.next o post := by
  intro pre post h
  suffices ∀ (pre : List Nat) (o : Option Nat), Path c.next o (pre ++ post) →
      ∀ x, pre.getLast? = some x → Path c.next (c.next x) post by
    unfold slotOf
    split
    · rename_i hn
      obtain rfl : pre = [] := by simpa using hn
      exact ⟨c.head, by simp [Tab.rd], by simpa using h⟩
    · rename_i x hx
      exact ⟨c.next x, rfl, this pre _ h x hx⟩
  intro pre
  induction pre with
  | nil => simp
  | cons y ys ih =>
    intro o ho x hx
    cases ys with
    | nil => simp at hx; subst hx; exact ho.2
    | cons z zs =>
      rw [List.getLast?_cons_cons] at hx
      exact ih _ ho.2 x hx

/-- Path after changing the link after `pre`. -/
theorem path_wr {nx nx' : Nat → Option Nat} {post : List Nat} :
    ∀ {pre post0 : List Nat} {o : Option Nat}, pre ≠ [] → Path nx o (pre ++ post0) → pre.Nodup →
      (∀ x ∈ pre.dropLast, nx' x = nx x) →
      (∀ x, pre.getLast? = some x → Path nx' (nx' x) post) → Path nx' o (pre ++ post)
  | [], _, _, h, _, _, _, _ => absurd rfl h
  | [x], _, _, _, hp, _, _, hl => ⟨hp.1, hl x rfl⟩
  | x :: y :: ys, post0, o, _, hp, hn, hc, hl => by
    refine ⟨hp.1, ?_⟩
    rw [hc x (by simp)]
    refine path_wr (pre := y :: ys) (by simp) hp.2 (List.nodup_cons.1 hn).2 ?_ ?_
    · intro z hz; exact hc z (by simp; right; exact hz)
    · intro z hz; exact hl z (by rw [List.getLast?_cons_cons]; exact hz)

theorem dropLast_ne_getLast {l : List Nat} (hn : l.Nodup) {x y : Nat} (hx : l.getLast? = some x)
    (hy : y ∈ l.dropLast) : y ≠ x := by
  have hl : l ≠ [] := by rintro rfl; simp at hx
  have h := List.dropLast_concat_getLast hl
  have hx' : l.getLast hl = x := by
    rw [List.getLast?_eq_some_getLast hl] at hx; simpa using hx
  rw [hx'] at h
  rw [← h, List.nodup_append] at hn
  rintro rfl
  exact hn.2.2 y hy y (by simp) rfl

/-- What a write to the link after `pre` leaves unchanged and achieves. -/
theorem wr_slot {c : Tab} {pre post post' : List Nat} {v : Option Nat}
    (hp : Path c.next c.head (pre ++ post)) (hn : pre.Nodup)
    (hv : Path c.next v post') (hdis : ∀ x ∈ post', x ∉ pre) :
    ∃ c', c.wr (slotOf c.own pre) v = some c' ∧ Path c'.next c'.head (pre ++ post') ∧
      (∀ x, x ∉ pre → c'.next x = c.next x) ∧ c'.hash = c.hash ∧ c'.slots = c.slots ∧
      c'.size = c.size ∧ c'.own = c.own := by
  unfold slotOf
  split
  · rename_i h
    obtain rfl : pre = [] := by simpa using h
    refine ⟨{ c with head := v }, by simp [Tab.wr], by simpa using hv, by simp, rfl, rfl, rfl, rfl⟩
  · rename_i x hx
    refine ⟨_, rfl, ?_, ?_, rfl, rfl, rfl, rfl⟩
    · have hne : pre ≠ [] := by rintro rfl; simp at hx
      refine path_wr (nx := c.next) hne hp hn ?_ ?_
      · intro y hy
        simp [dropLast_ne_getLast hn hx hy]
      · intro y hy
        obtain rfl : x = y := by rw [hx] at hy; simpa using hy
        simp only [if_true]
        apply hv.congr
        intro z hz
        have : z ≠ x := by
          rintro rfl; exact hdis z hz (List.mem_of_getLast? hx)
        simp [this]
    · intro y hy
      have : y ≠ x := by rintro rfl; exact hy (List.mem_of_getLast? hx)
      simp [this]

/-- Splitting at bucket `i`. -/
theorem split_at {bs : List (List Nat)} {i : Nat} (hi : i < bs.length) :
    ∃ as b cs, bs = as ++ b :: cs ∧ as.length = i := by
  refine ⟨bs.take i, bs[i], bs.drop (i + 1), ?_, by simp; omega⟩
  simp

theorem append_spec {c : Tab} {as cs : List (List Nat)} {b : List Nat} {e : Nat}
    (hp : Path c.next c.head (as ++ b :: cs).flatten)
    (hs : c.slots = slotsOf c.own [] (as ++ b :: cs)) (hn : (as ++ b :: cs).flatten.Nodup)
    (he : e ∉ (as ++ b :: cs).flatten) :
    ∃ c', c.append as.length e = some c' ∧
      Path c'.next c'.head (as ++ (b ++ [e]) :: cs).flatten ∧
      c'.slots = slotsOf c'.own [] (as ++ (b ++ [e]) :: cs) ∧
      (∀ x, x ∉ (as ++ b :: cs).flatten → x ≠ e → c'.next x = c.next x) ∧
      c'.hash = c.hash ∧ c'.size = c.size ∧ c'.own = c.own := by
  have hfl : (as ++ b :: cs).flatten = (as.flatten ++ b) ++ cs.flatten := by simp
  rw [hfl] at hp hn he ⊢
  have hslot : c.slots[as.length]? = some (slotOf c.own (as.flatten ++ b)) := by
    rw [hs, slotsOf_append, List.getElem?_append_right (by simp [slotsOf_length])]
    simp [slotsOf_length, slotsOf]
  obtain ⟨o, ho, hpo⟩ := hp.rd_slot
  rw [List.nodup_append] at hn
  -- first write: e.successor
  let c1 : Tab := { c with next := fun x => if x = e then o else c.next x }
  have hp1 : Path c1.next c1.head ((as.flatten ++ b) ++ cs.flatten) := by
    apply hp.congr
    intro x hx
    have : x ≠ e := by rintro rfl; exact he hx
    simp [c1, this]
  have hv : Path c1.next (some e) (e :: cs.flatten) := by
    refine ⟨rfl, ?_⟩
    simp only [c1, if_true]
    apply hpo.congr
    intro x hx
    have : x ≠ e := by rintro rfl; exact he (List.mem_append_right _ hx)
    simp [this]
  obtain ⟨c2, hw, hp2, hnx, hh, hsl, hsz, hown⟩ := wr_slot (c := c1) hp1 hn.1 hv (by
    intro x hx hm
    rcases List.mem_cons.1 hx with rfl | hx
    · exact he (List.mem_append_left _ hm)
    · exact hn.2.2 _ hm _ hx rfl)
  have hw' : c1.wr (slotOf c.own (as.flatten ++ b)) (some e) = some c2 := hw
  refine ⟨{ c2 with slots := repointFrom as.length (slotOf c.own (as.flatten ++ b)) (.node e) c2.slots }, ?_, ?_, ?_, ?_, hh, hsz, hown⟩
  · simp only [Tab.append, hslot, ho]
    have : c.wr (.node e) o = some c1 := rfl
    simp [this, hw']
  · simpa using hp2
  · have hownc : c2.own = c.own := hown
    simp only [hsl, hownc]
    show repointFrom as.length _ _ c.slots = _
    rw [hs, slotsOf_append, slotsOf_append, repointFrom]
    rw [List.take_left' (by simp [slotsOf_length]), List.drop_left' (by simp [slotsOf_length])]
    congr 1
    have hri := repoint_insert c.own e cs (as.flatten ++ b) (by rw [List.nodup_append]; exact hn)
    simp only [slotsOf, List.nil_append, repoint, if_true, hri, ← List.append_assoc, slotOf_concat]
  · intro x hx hxe
    rw [show ({ c2 with slots := _ } : Tab).next x = c2.next x from rfl]
    rw [hnx x (fun hm => hx (List.mem_append_left _ hm))]
    simp [c1, hxe]

theorem hash_split {h : Nat → Nat} {as cs : List (List Nat)} {b : List Nat} {n : Nat} :
    (∀ i b', (as ++ b :: cs)[i]? = some b' → ∀ e ∈ b', h e % n = i) ↔
    ((∀ i b', as[i]? = some b' → ∀ e ∈ b', h e % n = i) ∧ (∀ e ∈ b, h e % n = as.length) ∧
     (∀ i b', cs[i]? = some b' → ∀ e ∈ b', h e % n = as.length + 1 + i)) := by
  constructor
  · intro H
    refine ⟨?_, ?_, ?_⟩
    · intro i b' hb; exact H i b' (by
        have : i < as.length := by
          rcases List.getElem?_eq_some_iff.1 hb with ⟨h, _⟩; exact h
        rw [List.getElem?_append_left this]; exact hb)
    · exact H as.length b (by simp)
    · intro i b' hb; exact H (as.length + 1 + i) b' (by
        rw [List.getElem?_append_right (by omega)]
        have : as.length + 1 + i - as.length = i + 1 := by omega
        rw [this]; simpa using hb)
  · rintro ⟨h1, h2, h3⟩ i b' hb
    by_cases hi : i < as.length
    · rw [List.getElem?_append_left hi] at hb; exact h1 i b' hb
    · rw [List.getElem?_append_right (by omega)] at hb
      cases hk : i - as.length with
      | zero =>
        rw [hk] at hb; simp at hb; subst hb
        have : i = as.length := by omega
        rw [this]; exact h2
      | succ k =>
        rw [hk] at hb
        have : i = as.length + 1 + k := by omega
        rw [this]; exact h3 k b' (by simpa using hb)

/-- Appending to the right bucket keeps the representation. -/
theorem rep_append {c : Tab} {as cs : List (List Nat)} {b : List Nat} {e : Nat}
    (hr : Rep c (as ++ b :: cs)) (he : e ∉ (as ++ b :: cs).flatten)
    (hi : c.hash e % (as ++ b :: cs).length = as.length) :
    ∃ c', c.append as.length e = some c' ∧ Rep c' (as ++ (b ++ [e]) :: cs) ∧
      (∀ x, x ∉ (as ++ b :: cs).flatten → x ≠ e → c'.next x = c.next x) ∧
      c'.hash = c.hash ∧ c'.size = c.size ∧ c'.own = c.own := by
  obtain ⟨c', h1, h2, h3, h4, h5, h6, h7⟩ := append_spec hr.path hr.slots hr.nodup he
  refine ⟨c', h1, ⟨h2, h3, ?_, ?_⟩, h4, h5, h6, h7⟩
  · have := hr.nodup
    simp only [List.flatten_append, List.flatten_cons, List.append_assoc] at this he ⊢
    simp only [List.nodup_append, List.mem_append, List.cons_append, List.nil_append, List.nodup_cons, List.mem_cons] at this he ⊢
    grind
  · rw [h5]
    have hl : (as ++ (b ++ [e]) :: cs).length = (as ++ b :: cs).length := by simp
    rw [hl]
    obtain ⟨g1, g2, g3⟩ := hash_split.1 hr.hash
    refine hash_split.2 ⟨g1, ?_, g3⟩
    intro x hx
    rcases List.mem_append.1 hx with hx | hx
    · exact g2 x hx
    · obtain rfl : x = e := by simpa using hx
      exact hi

theorem repointFrom_remove {own : Nat} {as cs : List (List Nat)} {b1 b2 : List Nat} {e : Nat}
    (hn : (as ++ (b1 ++ e :: b2) :: cs).flatten.Nodup) :
    repointFrom as.length (.node e) (slotOf own (as.flatten ++ b1)) (slotsOf own [] (as ++ (b1 ++ e :: b2) :: cs)) =
      slotsOf own [] (as ++ (b1 ++ b2) :: cs) := by
  rw [slotsOf_append, slotsOf_append, repointFrom]
  rw [List.take_left' (by simp [slotsOf_length]), List.drop_left' (by simp [slotsOf_length])]
  congr 1
  simp only [slotsOf, List.nil_append]
  by_cases hb : b2 = []
  · subst hb
    have hrr := repoint_remove own e cs (as.flatten ++ b1) (by simpa using hn)
    rw [← List.append_assoc] 
    simp only [slotOf_concat, repoint, if_true, List.append_nil, hrr]
  · have h1 : slotOf own (as.flatten ++ (b1 ++ e :: b2)) = slotOf own (as.flatten ++ (b1 ++ b2)) := by
      have : as.flatten ++ (b1 ++ e :: b2) = (as.flatten ++ b1 ++ [e]) ++ b2 := by simp
      rw [this, slotOf_append own _ (as.flatten ++ b1) b2 hb]; simp
    have hne : slotOf own (as.flatten ++ (b1 ++ e :: b2)) ≠ .node e := by
      have : as.flatten ++ (b1 ++ e :: b2) = (as.flatten ++ b1 ++ [e]) ++ b2 := by simp
      rw [this, slotOf_append_node _ _ _ hb]
      intro h
      have h' : b2.getLast hb = e := by simpa using h
      have hm := List.getLast_mem hb
      rw [h'] at hm
      simp only [List.flatten_append, List.flatten_cons, List.append_assoc] at hn
      simp only [List.nodup_append, List.cons_append, List.nodup_cons] at hn
      exact hn.2.1.2.1.1 (by simp [hm])
    rw [repoint_none hne, h1, slotsOf_congr own cs _ _ h1]

theorem rep_unlink {c : Tab} {as cs : List (List Nat)} {b1 b2 : List Nat} {e : Nat}
    (hr : Rep c (as ++ (b1 ++ e :: b2) :: cs)) :
    ∃ c', c.unlink (slotOf c.own (as.flatten ++ b1)) = some (c', e) ∧
      Rep c' (as ++ (b1 ++ b2) :: cs) ∧ c'.next e = none ∧
      (∀ x, x ∉ (as ++ (b1 ++ e :: b2) :: cs).flatten → c'.next x = c.next x) ∧
      c'.hash = c.hash ∧ c'.size = c.size - 1 ∧ c'.own = c.own := by
  have hfl : (as ++ (b1 ++ e :: b2) :: cs).flatten = (as.flatten ++ b1) ++ e :: (b2 ++ cs.flatten) := by simp
  have hp := hr.path
  have hn := hr.nodup
  rw [hfl] at hp hn
  obtain ⟨o, ho, hpo⟩ := hp.rd_slot
  obtain ⟨rfl, hpost⟩ := hpo
  rw [List.nodup_append, List.nodup_cons] at hn
  let c1 : Tab := { c with next := fun x => if x = e then none else c.next x }
  -- the part after e is unaffected by the first write
  have hv : Path c1.next (c.next e) (b2 ++ cs.flatten) := by
    apply hpost.congr
    intro x hx
    have : x ≠ e := by rintro rfl; exact hn.2.1.1 hx
    simp [c1, this]
  -- c1 still has `pre` linked up to its last link
  have hpre : ∀ x ∈ as.flatten ++ b1, c1.next x = c.next x := by
    intro x hx
    have : x ≠ e := by rintro rfl; exact hn.2.2 _ hx _ (by simp) rfl
    simp [c1, this]
  have hp1 : Path c1.next c1.head ((as.flatten ++ b1) ++ [e]) := by
    have : ∀ (l : List Nat) (o : Option Nat), Path c.next o (l ++ e :: (b2 ++ cs.flatten)) →
        (∀ x ∈ l, c1.next x = c.next x) → Path c1.next o (l ++ [e]) := by
      intro l
      induction l with
      | nil => intro o h _; exact ⟨h.1, by simp [c1, Path]⟩
      | cons y ys ih =>
        intro o h hc
        refine ⟨h.1, ?_⟩
        rw [hc y (by simp)]
        exact ih _ h.2 (fun x hx => hc x (by simp [hx]))
    exact this _ _ hp hpre
  obtain ⟨c2, hw, hp2, hnx, hh, hsl, hsz, hown⟩ := wr_slot (c := c1) hp1 hn.1 hv (by
    intro x hx hm
    exact hn.2.2 _ hm _ (by simp; right; simpa using hx) rfl)
  have hw' : c1.wr (slotOf c.own (as.flatten ++ b1)) (c.next e) = some c2 := hw
  have hlen : (as ++ (b1 ++ e :: b2) :: cs).length ≠ 0 := by simp
  have hidx : c.bucketFor (c.hash e) = as.length := by
    rw [Tab.bucketFor, hr.length, if_neg hlen]
    exact (hash_split.1 hr.hash).2.1 e (by simp)
  refine ⟨{ c2 with slots := repointFrom as.length (.node e) (slotOf c.own (as.flatten ++ b1)) c2.slots, size := c2.size - 1 },
    ?_, ⟨?_, ?_, ?_, ?_⟩, ?_, ?_, hh, ?_, hown⟩
  · simp only [Tab.unlink, ho, hidx]
    have : c.wr (.node e) none = some c1 := rfl
    simp [this, hw']
  · simpa using hp2
  · show repointFrom as.length _ _ c2.slots = slotsOf c2.own _ _
    have hownc : c2.own = c.own := hown
    rw [hsl, hownc]
    show repointFrom as.length _ _ c.slots = _
    rw [hr.slots]
    exact repointFrom_remove hr.nodup
  · have := hr.nodup
    simp only [List.flatten_append, List.flatten_cons, List.append_assoc] at this ⊢
    simp only [List.nodup_append, List.mem_append, List.cons_append, List.nodup_cons, List.mem_cons] at this ⊢
    grind
  · show ∀ i b, (as ++ (b1 ++ b2) :: cs)[i]? = some b → ∀ e ∈ b, c2.hash e % (as ++ (b1 ++ b2) :: cs).length = i
    rw [hh]
    have hl : (as ++ (b1 ++ b2) :: cs).length = (as ++ (b1 ++ e :: b2) :: cs).length := by simp
    rw [hl]
    obtain ⟨g1, g2, g3⟩ := hash_split.1 hr.hash
    refine hash_split.2 ⟨g1, ?_, g3⟩
    intro x hx
    exact g2 x (by simp at hx ⊢; grind)
  · show c2.next e = none
    rw [hnx e (fun hm => hn.2.2 _ hm _ (by simp) rfl)]; simp [c1]
  · intro x hx
    show c2.next x = _
    rw [hfl] at hx
    rw [hnx x (fun hm => hx (List.mem_append_left _ hm))]
    have : x ≠ e := by rintro rfl; exact hx (by simp)
    simp [c1, this]
  · show c2.size - 1 = _
    rw [hsz]

/-- Bucket insertion on the abstract level. -/
def insB (i : Nat) (e : Nat) (bs : List (List Nat)) : List (List Nat) := bs.modify i (· ++ [e])

theorem insB_split (as cs : List (List Nat)) (b : List Nat) (e : Nat) :
    insB as.length e (as ++ b :: cs) = as ++ (b ++ [e]) :: cs := by
  induction as with
  | nil => rfl
  | cons a as ih => simpa [insB] using ih

theorem insB_length (i e : Nat) (bs : List (List Nat)) : (insB i e bs).length = bs.length := by
  simp [insB]

theorem insB_flatten_mem {i e x : Nat} {bs : List (List Nat)} (hi : i < bs.length) :
    x ∈ (insB i e bs).flatten ↔ x = e ∨ x ∈ bs.flatten := by
  obtain ⟨as, b, cs, rfl, rfl⟩ := split_at hi
  rw [insB_split]; simp; grind

/-- The buckets of `l` for `n` buckets. -/
def distribute (h : Nat → Nat) (n : Nat) (l : List Nat) : List (List Nat) :=
  (List.range n).map (fun j => l.filter (fun e => h e % n == j))

theorem distribute_nil (h : Nat → Nat) (n : Nat) : distribute h n [] = List.replicate n [] := by
  simp [distribute, List.map_const']

theorem distribute_length (h : Nat → Nat) (n : Nat) (l : List Nat) : (distribute h n l).length = n := by
  simp [distribute]

theorem distribute_concat (h : Nat → Nat) (n : Nat) (l : List Nat) (e : Nat) :
    distribute h n (l ++ [e]) = insB (h e % n) e (distribute h n l) := by
  apply List.ext_getElem?
  intro j
  simp only [distribute, insB, List.getElem?_modify, List.getElem?_map]
  by_cases hj : j < n
  · rw [List.getElem?_range hj]
    by_cases he : h e % n = j
    · simp [List.filter_append, he]
    · simp [List.filter_append, he]
  · simp [Nat.le_of_not_lt hj]

theorem distribute_mem {h : Nat → Nat} {n : Nat} (hn : 0 < n) {l : List Nat} {x : Nat} :
    x ∈ (distribute h n l).flatten ↔ x ∈ l := by
  simp only [distribute, List.mem_flatten, List.mem_map, List.mem_range]
  constructor
  · rintro ⟨b, ⟨j, _, rfl⟩, hx⟩; exact (List.mem_filter.1 hx).1
  · intro hx
    exact ⟨_, ⟨h x % n, Nat.mod_lt _ hn, rfl⟩, by simp [hx]⟩

theorem rep_append' {c : Tab} {bs : List (List Nat)} {e : Nat} (hr : Rep c bs) (he : e ∉ bs.flatten)
    (hb : bs ≠ []) :
    ∃ c', c.append (c.bucketFor (c.hash e)) e = some c' ∧ Rep c' (insB (c.hash e % bs.length) e bs) ∧
      (∀ x, x ∉ bs.flatten → x ≠ e → c'.next x = c.next x) ∧
      c'.hash = c.hash ∧ c'.size = c.size ∧ c'.own = c.own := by
  have hpos : 0 < bs.length := List.length_pos_iff.2 hb
  have hbf : c.bucketFor (c.hash e) = c.hash e % bs.length := by
    rw [Tab.bucketFor, hr.length, if_neg (by omega)]
  rw [hbf]
  obtain ⟨as, b, cs, h1, h2⟩ := split_at (Nat.mod_lt (c.hash e) hpos)
  rw [← h2]
  subst h1
  rw [insB_split]
  exact rep_append hr he h2.symm

theorem rehashLoop_spec (n : Nat) (hn : 0 < n) : ∀ (fuel : Nat) (c : Tab) (done rest : List Nat) (p : Option Nat),
    rest.length ≤ fuel → Rep c (distribute c.hash n done) → Path c.next p rest →
    (done ++ rest).Nodup →
    ∃ c', Tab.rehashLoop fuel c p = some c' ∧ Rep c' (distribute c.hash n (done ++ rest)) ∧
      c'.hash = c.hash ∧ c'.size = c.size ∧ c'.own = c.own ∧
      (∀ x, x ∉ done ++ rest → c'.next x = c.next x) := by
  intro fuel
  induction fuel with
  | zero =>
    intro c done rest p hl hr hp _
    obtain rfl : rest = [] := by simpa using hl
    obtain rfl : p = none := hp
    exact ⟨c, rfl, by simpa using hr, rfl, rfl, rfl, fun _ _ => rfl⟩
  | succ fuel ih =>
    intro c done rest p hl hr hp hnd
    cases rest with
    | nil =>
      obtain rfl : p = none := hp
      exact ⟨c, rfl, by simpa using hr, rfl, rfl, rfl, fun _ _ => rfl⟩
    | cons e rest =>
      obtain ⟨rfl, hp⟩ := hp
      have hed : e ∉ done := by
        rw [List.nodup_append] at hnd
        intro hm; exact hnd.2.2 e hm e (by simp) rfl
      have hne : distribute c.hash n done ≠ [] := by
        intro h
        have := distribute_length c.hash n done
        rw [h] at this; simp at this; omega
      obtain ⟨c1, h1, h2, h3, h4, h5, h6⟩ := rep_append' hr (e := e) (by rw [distribute_mem hn]; exact hed) hne
      rw [distribute_length, ← distribute_concat] at h2
      have hp' : Path c1.next (c.next e) rest := by
        apply hp.congr
        intro x hx
        apply h3
        · rw [distribute_mem hn]
          rw [List.nodup_append] at hnd
          intro hm; exact hnd.2.2 x hm x (by simp [hx]) rfl
        · rintro rfl
          rw [List.nodup_append, List.nodup_cons] at hnd
          exact hnd.2.1.1 hx
      rw [← h4] at h2
      obtain ⟨c2, g1, g2, g3, g4, g5, g6⟩ := ih c1 (done ++ [e]) rest (c.next e) (by simpa using hl) h2 hp' (by simpa using hnd)
      refine ⟨c2, ?_, ?_, by rw [g3, h4], by rw [g4, h5], by rw [g5, h6], ?_⟩
      · simp only [Tab.rehashLoop, h1]; exact g1
      · rw [← h4]; simpa using g2
      · intro x hx
        rw [g6 x (by simpa using hx)]
        apply h3
        · rw [distribute_mem hn]; intro hm; exact hx (by simp [hm])
        · rintro rfl; exact hx (by simp)

theorem rep_empty (c : Tab) (n : Nat) (hh : c.head = none) (hs : c.slots = List.replicate n (.head c.own)) :
    Rep c (List.replicate n []) := by
  have hf : (List.replicate n ([] : List Nat)).flatten = [] := by simp
  refine ⟨?_, ?_, ?_, ?_⟩
  · rw [hf]; exact hh
  · rw [slotsOf_replicate, hs]; rfl
  · rw [hf]; simp
  · intro i b hb e he
    have := List.mem_of_getElem? hb
    simp at this
    rw [this.2] at he; simp at he

theorem rep_rehash {c : Tab} {bs : List (List Nat)} (hr : Rep c bs) (hsz : c.size = bs.flatten.length)
    {n : Nat} (hn : 0 < n) :
    ∃ c', c.rehash n = some c' ∧ Rep c' (distribute c.hash n bs.flatten) ∧
      c'.hash = c.hash ∧ c'.size = c.size ∧ c'.own = c.own ∧
      (∀ x, x ∉ bs.flatten → c'.next x = c.next x) := by
  let c0 : Tab := { c with head := none, slots := List.replicate n (.head c.own) }
  have h0 : Rep c0 (distribute c0.hash n []) := by
    rw [distribute_nil]; exact rep_empty c0 n rfl rfl
  obtain ⟨c', h1, h2, h3, h4, h5, h6⟩ := rehashLoop_spec n hn c.size c0 [] bs.flatten c.head (by omega) h0 hr.path
    (by simpa using hr.nodup)
  exact ⟨c', h1, by simpa using h2, h3, h4, h5, fun x hx => h6 x (by simpa using hx)⟩

theorem rep_clear {c : Tab} {bs : List (List Nat)} (hr : Rep c bs) :
    Rep c.clear (List.replicate bs.length []) :=
  rep_empty _ _ rfl (by simp [Tab.clear, hr.length])

theorem disposeLoop_spec : ∀ (l : List Nat) (fuel : Nat) (c : Tab), l.length ≤ fuel → Path c.next c.head l → l.Nodup →
    ∃ c', Tab.disposeLoop fuel c = some (c', l) ∧ c'.slots = c.slots ∧ c'.own = c.own ∧ c'.hash = c.hash ∧
      (∀ x, c'.next x = if x ∈ l then none else c.next x) := by
  intro l
  induction l with
  | nil =>
    intro fuel c _ hp _
    have : c.head = none := hp
    refine ⟨c, ?_, rfl, rfl, rfl, by simp⟩
    unfold Tab.disposeLoop; rw [this]
  | cons e l ih =>
    intro fuel c hl hp hn
    cases fuel with
    | zero => simp at hl
    | succ fuel =>
      obtain ⟨hh, hp⟩ := hp
      let c1 : Tab := { c with head := c.next e, next := fun x => if x = e then none else c.next x }
      obtain ⟨c', h1, h2, h3, h4, h5⟩ := ih fuel c1 (by simpa using hl) (by
        apply hp.congr
        intro x hx
        have : x ≠ e := by rintro rfl; exact (List.nodup_cons.1 hn).1 hx
        simp [c1, this]) (List.nodup_cons.1 hn).2
      refine ⟨c', ?_, h2, h3, h4, ?_⟩
      · unfold Tab.disposeLoop; rw [hh]; simp only
        show (Tab.disposeLoop fuel c1).map _ = _
        rw [h1]; rfl
      · intro x; rw [h5]; by_cases hx : x = e
        · subst hx; simp [c1]
        · simp [c1, hx]

theorem rep_clearDispose {c : Tab} {bs : List (List Nat)} (hr : Rep c bs) (hsz : c.size = bs.flatten.length) :
    ∃ c', c.clearDispose = some (c', bs.flatten) ∧ Rep c' (List.replicate bs.length []) ∧
      c'.size = 0 ∧ c'.own = c.own ∧ c'.hash = c.hash ∧
      (∀ x, c'.next x = if x ∈ bs.flatten then none else c.next x) := by
  obtain ⟨c', h1, h2, h3, h4, h5⟩ := disposeLoop_spec bs.flatten c.size c (by omega) hr.path hr.nodup
  refine ⟨c'.clear, by simp [Tab.clearDispose, h1], ?_, rfl, h3, h4, h5⟩
  exact rep_empty _ _ rfl (by simp [Tab.clear, h2, hr.length])

theorem rep_clearSlow : ∀ (l : List Nat) (fuel : Nat) (c : Tab) (bs : List (List Nat)), l.length ≤ fuel →
    bs.flatten = l → Rep c bs →
    ∃ c', Tab.clearDisposeSlow fuel c = some (c', l) ∧ Rep c' (List.replicate bs.length []) ∧
      c'.size = c.size - l.length ∧ c'.own = c.own ∧ c'.hash = c.hash ∧
      (∀ x, c'.next x = if x ∈ l then none else c.next x) := by
  intro l
  induction l with
  | nil =>
    intro fuel c bs _ hf hr
    have hh : c.head = none := by have := hr.path; rw [hf] at this; exact this
    have hbs : bs = List.replicate bs.length [] := by
      rw [List.eq_replicate_iff]; refine ⟨rfl, fun b hb => ?_⟩
      exact (List.flatten_eq_nil_iff.1 hf) b hb
    refine ⟨c, ?_, hbs ▸ hr, by simp, rfl, rfl, by simp⟩
    unfold Tab.clearDisposeSlow; rw [hh]
  | cons e l ih =>
    intro fuel c bs hl hf hr
    cases fuel with
    | zero => simp at hl
    | succ fuel =>
      -- e is the first element of some bucket, all earlier buckets empty
      have : ∃ as b2 cs, bs = as ++ ([] ++ e :: b2) :: cs ∧ as.flatten = [] := by
        clear ih hl hr
        induction bs with
        | nil => simp at hf
        | cons b bs ihb =>
          cases b with
          | nil =>
            obtain ⟨as, b2, cs, h1, h2⟩ := ihb (by simpa using hf)
            exact ⟨[] :: as, b2, cs, by simp [h1], by simp [h2]⟩
          | cons y ys =>
            simp only [List.flatten_cons, List.cons_append, List.cons.injEq] at hf
            exact ⟨[], ys, bs, by simp [hf.1], rfl⟩
      obtain ⟨as, b2, cs, rfl, has⟩ := this
      have hh : c.head = some e := by
        have := hr.path; rw [hf] at this; exact this.1
      obtain ⟨c1, u1, u2, u3, u4, u5, u6, u7⟩ := rep_unlink hr
      rw [has] at u1
      have hfl : (as ++ ([] ++ b2) :: cs).flatten = l := by
        simp [has] at hf ⊢; exact hf
      have hle : e ∉ l := by
        have := hr.nodup; rw [hf] at this; exact (List.nodup_cons.1 this).1
      obtain ⟨c2, v1, v2, v3, v4, v5, v6⟩ := ih fuel c1 _ (by simpa using hl) hfl u2
      refine ⟨c2, ?_, by simpa using v2, by rw [v3, u6]; simp; omega, by rw [v4, u7], by rw [v5, u5], ?_⟩
      · unfold Tab.clearDisposeSlow; rw [hh]; simp only
        rw [show c.unlink (.head c.own) = some (c1, e) from u1]; simp only [v1]; rfl
      · intro x; rw [v6]
        by_cases hx : x = e
        · subst hx; simp [hle, u3]
        · by_cases hxl : x ∈ l
          · simp [hxl]
          · simp only [hxl, if_false, List.mem_cons, hx, false_or]
            apply u4; rw [hf]; simp [hx, hxl]

theorem slotOf_map (own own' : Nat) (pre : List Nat) :
    (fun s => if s = Slot.head own then Slot.head own' else s) (slotOf own pre) = slotOf own' pre := by
  unfold slotOf; cases pre.getLast? <;> simp

theorem slotsOf_map (own own' : Nat) : ∀ (bs : List (List Nat)) (pre : List Nat),
    (slotsOf own pre bs).map (fun s => if s = Slot.head own then Slot.head own' else s) = slotsOf own' pre bs
  | [], _ => rfl
  | b :: bs, pre => by
    simp only [slotsOf, List.map_cons, slotsOf_map own own' bs]
    congr 1
    exact slotOf_map own own' _

theorem rep_move {c : Tab} {bs : List (List Nat)} (hr : Rep c bs) (own' : Nat) :
    Rep (c.move own').1 bs ∧ Rep (c.move own').2 [] :=
  ⟨⟨hr.path, by simp only [Tab.move]; rw [hr.slots, slotsOf_map], hr.nodup, hr.hash⟩,
   ⟨rfl, rfl, by simp, by simp⟩⟩

/-- Iteration from the link after `pre` over `mid`, up to the element after it. -/
theorem visit_spec {c : Tab} : ∀ (mid : List Nat) (post : List Nat) (fuel : Nat) (o : Option Nat), mid.length ≤ fuel →
    Path c.next o (mid ++ post) → (mid ++ post).Nodup →
    c.visit fuel (o.map .node) (post.head?.map .node) = some mid := by
  intro mid
  induction mid with
  | nil =>
    intro post fuel o _ hp _
    have : o = post.head? := by
      cases post with
      | nil => exact hp
      | cons x xs => exact hp.1
    unfold Tab.visit; simp [this]
  | cons x mid ih =>
    intro post fuel o hl hp hn
    cases fuel with
    | zero => simp at hl
    | succ fuel =>
      obtain ⟨rfl, hp⟩ := hp
      have hne : ¬ (Option.map Slot.node (some x) = post.head?.map .node) := by
        intro h
        cases post with
        | nil => simp at h
        | cons y ys =>
          simp at h; subst h
          exact (List.nodup_cons.1 hn).1 (by simp)
      unfold Tab.visit
      rw [if_neg hne]
      simp only [Option.map_some, Tab.incr, Tab.rd]
      have := ih post fuel (c.next x) (by simpa using hl) hp (List.nodup_cons.1 hn).2
      rw [this]; rfl

theorem visitAll_spec {c : Tab} {bs : List (List Nat)} (hr : Rep c bs) (hsz : c.size = bs.flatten.length) :
    c.visitAll = some bs.flatten := by
  simp only [Tab.visitAll, Tab.incr, Tab.beforeBegin, Tab.rd, if_true, Option.map_some, Option.bind_some]
  have := visit_spec (c := c) bs.flatten [] c.size c.head (by omega) (by simpa using hr.path) (by simpa using hr.nodup)
  simpa using this

theorem Rep.slot_before {c : Tab} {as cs : List (List Nat)} (hr : Rep c (as ++ cs)) :
    c.beforeBeginB as.length = some (slotOf c.own as.flatten) := by
  unfold Tab.beforeBeginB
  split
  · rename_i h
    obtain rfl : as = [] := by simpa using h
    rfl
  · rename_i h
    have hne : as ≠ [] := by rintro rfl; simp at h
    have hd := List.dropLast_concat_getLast hne
    rw [hr.slots, ← hd, List.append_assoc, slotsOf_append]
    rw [List.getElem?_append_right (by simp [slotsOf_length])]
    simp [slotsOf_length, slotsOf]

theorem Rep.slot_last {c : Tab} {as cs : List (List Nat)} {b : List Nat} (hr : Rep c (as ++ b :: cs)) :
    c.slots[as.length]? = some (slotOf c.own (as.flatten ++ b)) := by
  rw [hr.slots, slotsOf_append, List.getElem?_append_right (by simp [slotsOf_length])]
  simp [slotsOf_length, slotsOf]

theorem path_head {nx : Nat → Option Nat} {o : Option Nat} {l : List Nat} (h : Path nx o l) : o = l.head? := by
  cases l with
  | nil => exact h
  | cons x l => exact h.1

theorem visitBucket_spec {c : Tab} {bs : List (List Nat)} (hr : Rep c bs) (hsz : c.size = bs.flatten.length)
    {i : Nat} {b : List Nat} (hb : bs[i]? = some b) : c.visitBucket i = some b := by
  have hi : i < bs.length := (List.getElem?_eq_some_iff.1 hb).1
  obtain ⟨as, b', cs, rfl, rfl⟩ := split_at hi
  obtain rfl : b' = b := by simpa using hb
  have hp : Path c.next c.head (as.flatten ++ (b' ++ cs.flatten)) := by simpa using hr.path
  obtain ⟨o1, r1, p1⟩ := hp.rd_slot
  have hp2 : Path c.next c.head ((as.flatten ++ b') ++ cs.flatten) := by simpa using hr.path
  obtain ⟨o2, r2, p2⟩ := hp2.rd_slot
  have e1 : (c.beforeBeginB as.length).bind c.incr = some (o1.map .node) := by
    rw [hr.slot_before]; simp [Tab.incr, r1]
  have e2 : (c.beforeEndB as.length).bind c.incr = some (o2.map .node) := by
    have : ¬ c.slots.length = 0 := by rw [hr.length]; simp
    simp [Tab.beforeEndB, this, hr.slot_last, Tab.incr, r2]
  unfold Tab.visitBucket
  rw [e1, e2]
  simp only
  rw [path_head p2]
  apply visit_spec
  · rw [hsz]; simp; omega
  · exact p1
  · have := hr.nodup
    rw [show (as ++ b' :: cs).flatten = as.flatten ++ (b' ++ cs.flatten) by simp] at this
    exact (List.nodup_append.1 this).2.1

theorem findPred_spec {c : Tab} {e : Nat} : ∀ (mid : List Nat) (pre post : List Nat) (fuel : Nat),
    Path c.next c.head (pre ++ (mid ++ e :: post)) → e ∉ mid → mid.length ≤ fuel →
    Tab.findPred fuel c (slotOf c.own pre) e = some (slotOf c.own (pre ++ mid)) := by
  intro mid
  induction mid with
  | nil =>
    intro pre post fuel hp _ _
    obtain ⟨o, r, p⟩ := hp.rd_slot
    obtain ⟨rfl, _⟩ := p
    unfold Tab.findPred; simp [r]
  | cons x mid ih =>
    intro pre post fuel hp hm hl
    cases fuel with
    | zero => simp at hl
    | succ fuel =>
      obtain ⟨o, r, p⟩ := hp.rd_slot
      obtain ⟨rfl, _⟩ := p
      have hx : x ≠ e := by rintro rfl; exact hm (by simp)
      have := ih (pre ++ [x]) post fuel (by simpa using hp) (fun h => hm (by simp [h])) (by simpa using hl)
      unfold Tab.findPred; simp only [r, hx, if_false]
      rw [slotOf_concat] at this
      simpa using this

theorem rep_unlinkElem {c : Tab} {bs : List (List Nat)} (hr : Rep c bs) (hsz : c.size = bs.flatten.length)
    {e : Nat} (he : e ∈ bs.flatten) :
    ∃ c', c.unlinkElem e = some (c', e) ∧ Rep c' (bs.map (·.erase e)) ∧ c'.next e = none ∧
      (∀ x, x ∉ bs.flatten → c'.next x = c.next x) ∧
      c'.hash = c.hash ∧ c'.size = c.size - 1 ∧ c'.own = c.own := by
  obtain ⟨b, hb, heb⟩ := List.mem_flatten.1 he
  obtain ⟨as, cs, rfl⟩ := List.append_of_mem hb
  obtain ⟨b1, b2, rfl, hb1⟩ := List.mem_iff_append.1 heb |> fun ⟨s, t, h⟩ => (by
    have hn := hr.nodup
    rw [h] at hn
    simp only [List.flatten_append, List.flatten_cons, List.append_assoc] at hn
    simp only [List.nodup_append, List.cons_append] at hn
    exact ⟨s, t, h, fun hm => hn.2.1.2.2 e hm e (by simp) rfl⟩ : ∃ b1 b2, b = b1 ++ e :: b2 ∧ e ∉ b1)
  obtain ⟨c', h1, h2, h3, h4, h5, h6, h7⟩ := rep_unlink hr
  have hidx : c.bucketFor (c.hash e) = as.length := by
    rw [Tab.bucketFor, hr.length, if_neg (by simp)]
    exact (hash_split.1 hr.hash).2.1 e (by simp)
  have hfp := findPred_spec (c := c) (e := e) b1 as.flatten (b2 ++ cs.flatten) c.size
    (by simpa using hr.path) hb1 (by rw [hsz]; simp; omega)
  refine ⟨c', ?_, ?_, h3, h4, h5, h6, h7⟩
  · rw [Tab.unlinkElem, hidx, hr.slot_before]
    simp [hfp, h1]
  · have hn := hr.nodup
    have hmap : ∀ bs : List (List Nat), e ∉ bs.flatten → bs.map (·.erase e) = bs := by
      intro bs h
      conv => rhs; rw [← List.map_id bs]
      apply List.map_congr_left
      intro b hb
      exact List.erase_of_not_mem (fun hm => h (List.mem_flatten.2 ⟨b, hb, hm⟩))
    simp only [List.flatten_append, List.flatten_cons, List.append_assoc] at hn
    simp only [List.nodup_append, List.cons_append, List.nodup_cons] at hn
    have ha : e ∉ as.flatten := fun hm => hn.2.2 e hm e (by simp) rfl
    have hc : e ∉ cs.flatten := fun hm => hn.2.1.2.1.1 (by simp; right; simpa using hm)
    rw [List.map_append, List.map_cons, hmap as ha, hmap cs hc, List.erase_append_right _ hb1, List.erase_cons_head]
    exact h2

end Hoard.Chain
