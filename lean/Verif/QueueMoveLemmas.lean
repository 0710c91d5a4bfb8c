import Verif.Spec.QueueMove
import Verif.QueueCheckLemmas
/-! Lemmas on queues that are moved around. -/
namespace Hoard.QMove
open DL

/-- Sequences of which only that of `h` is not empty. -/
def only (h : Nat) (l : List Nat) : Seqs := fun x => if x = h then l else []

theorem only_set (h : Nat) (l l' : List Nat) : (only h l).set h l' = only h l' := by
  funext x; simp only [only, Seqs.set]; split <;> rfl

/-- The list at `h` holds `l`, and the other lists are empty. -/
def Rep (hs : List Nat) (h : Nat) (H : Heap) (l : List Nat) : Prop := h ∈ hs ∧ Good hs H (only h l)

theorem only_self (h : Nat) (l : List Nat) : only h l h = l := by simp [only]

theorem Rep.represents {hs : List Nat} {h : Nat} {H : Heap} {l : List Nat} (r : Rep hs h H l) : Represents H h l := by
  have := r.2.rep h r.1
  rwa [only_self] at this

theorem Rep.not_head {hs : List Nat} {h : Nat} {H : Heap} {l : List Nat} (r : Rep hs h H l) {x : Nat} (hx : x ∈ l) : x ∉ hs := by
  intro hm
  by_cases e : x = h
  · subst e; exact (List.nodup_cons.1 r.represents.2).1 hx
  · exact r.2.disj h r.1 x hm (Ne.symm e) x (by simp [only_self, hx]) (by simp)

theorem Rep.ptrs {hs : List Nat} {h : Nat} {H : Heap} {l1 l2 : List Nat} (r : Rep hs h H (l1 ++ l2)) :
    H.succ (lastOf h l1) = some (firstOf l2 h) ∧ H.pred (firstOf l2 h) = some (lastOf h l1) :=
  r.represents.1.succ_last

theorem Rep.insert {hs : List Nat} {h : Nat} {H : Heap} {l1 l2 : List Nat} {e : Nat} (r : Rep hs h H (l1 ++ l2))
    (he : e ∉ l1 ++ l2) (hh : e ∉ hs) : Rep hs h (link H (lastOf h l1) e (firstOf l2 h)) (l1 ++ e :: l2) := by
  have hf : Free hs (only h (l1 ++ l2)) e := by
    refine ⟨hh, fun x _ hm => ?_⟩
    simp only [only] at hm
    split at hm
    · exact he hm
    · simp at hm
  have := good_insert r.2 r.1 hf (only_self _ _)
  rw [only_set] at this
  exact ⟨r.1, this⟩

theorem Rep.cut {hs : List Nat} {h : Nat} {H : Heap} {l1 l2 : List Nat} {e : Nat} (r : Rep hs h H (l1 ++ e :: l2)) :
    ∃ H', DL.unlink H e = some (H', firstOf l2 h) ∧ Rep hs h H' (l1 ++ l2) := by
  refine ⟨_, (represents_cut r.represents).1, r.1, ?_⟩
  have := good_unlink r.2 r.1 (only_self _ _)
  rwa [only_set] at this

theorem Rep.front {hs : List Nat} {h : Nat} {H : Heap} {l : List Nat} {e : Nat} (r : Rep hs h H l) (he : e ∉ l) (hh : e ∉ hs) :
    ∃ H', linkFront H h e = some H' ∧ Rep hs h H' (e :: l) := by
  have := r.ptrs (l1 := [])
  refine ⟨_, ?_, r.insert (l1 := []) he hh⟩
  simp only [linkFront]
  rw [show H.succ h = _ from this.1]; rfl

theorem Rep.nodup {hs : List Nat} {h : Nat} {H : Heap} {l : List Nat} (r : Rep hs h H l) : l.Nodup :=
  (List.nodup_cons.1 r.represents.2).2

/-- A move of a list that is not empty. -/
theorem Rep.move {hs : List Nat} {h to : Nat} {H : Heap} {l : List Nat} (r : Rep hs h H l) (hl : l ≠ []) (ht : to ∉ hs)
    (htl : to ∉ l) : ∃ H', DL.moveCtor H to h = some H' ∧ Rep (to :: hs) to H' l := by
  have hth : to ≠ h := fun e => ht (e ▸ r.1)
  obtain ⟨H', h1, h2, h3⟩ := C28_move_partial H h to l hl r.represents (by simp [hth, htl])
  have hfr : ∀ x, x ∉ to :: h :: l → H'.succ x = H.succ x ∧ H'.pred x = H.pred x := by
    intro x hx
    simp only [List.mem_cons, not_or] at hx
    have e1 := (r.ptrs (l1 := [])).1
    have e2 := (by simpa using r.represents.1 : Seg H h (l ++ []) h).succ_last.2
    have e1' : H.succ h = some (firstOf l h) := e1
    have e2' : H.pred h = some (lastOf h l) := e2
    have hx1 : x ≠ firstOf l h := by
      rintro rfl
      have := firstOf_mem l h
      simp at this; grind
    have hx2 : x ≠ lastOf h l := by
      rintro rfl
      have := lastOf_mem h l
      simp at this; grind
    simp only [DL.moveCtor, e1', e2', Option.some.injEq] at h1
    subst h1
    simp [Heap.setPred, Heap.setSucc, hx.1, hx.2.1, hx1, hx2]
  refine ⟨H', h1, by simp, ?_, ?_, ?_⟩
  · intro a ha
    by_cases e : a = to
    · subst e; rw [only_self]; exact h2
    · have ha' : a ∈ hs := by simpa [e] using ha
      simp only [only, if_neg e]
      by_cases e' : a = h
      · subst e'; exact h3
      · have := r.2.rep a ha'
        simp only [only, if_neg e'] at this
        refine this.frame ?_
        intro x hx
        have hxa : x = a := by simpa using hx
        subst hxa
        refine hfr x ?_
        simp only [List.mem_cons, not_or]
        exact ⟨e, e', fun hm => r.not_head hm ha'⟩
  · intro a ha b hb hab x hx hx2
    by_cases ea : a = to
    · subst ea
      have eb : ¬ b = a := fun e => hab e.symm
      have hb' : b ∈ hs := by simpa [eb] using hb
      simp only [only, if_true, if_neg eb, List.mem_cons, List.not_mem_nil, or_false] at hx hx2
      subst hx2
      rcases hx with e | hx
      · exact eb e
      · exact r.not_head hx hb'
    · have ha' : a ∈ hs := by simpa [ea] using ha
      simp only [only, if_neg ea, List.mem_cons, List.not_mem_nil, or_false] at hx
      subst hx
      by_cases eb : b = to
      · subst eb
        simp only [only, if_true, List.mem_cons] at hx2
        rcases hx2 with e | hx2
        · exact ea e
        · exact r.not_head hx2 ha'
      · simp only [only, if_neg eb, List.mem_cons, List.not_mem_nil, or_false] at hx2
        exact hab hx2
  · intro e he
    have he1 : e ≠ to := by rintro rfl; exact he.1 (by simp)
    have he2 : e ∉ hs := fun hm => he.1 (by simp [hm])
    have he3 : e ∉ l := by
      intro hm; exact he.2 to (by simp) (by rw [only_self]; exact hm)
    have he4 : e ≠ h := fun e' => he2 (e' ▸ r.1)
    rw [(hfr e (by simp [he1, he3, he4])).1]
    refine r.2.free e ⟨he2, fun x _ hm => ?_⟩
    simp only [only] at hm
    split at hm
    · exact he3 hm
    · simp at hm

/-- The queue with its memory and the queue on lists describe the same queue. -/
structure Rel (M : Mem) (q : Q) (b : BQ) : Prop where
  links : Rep M.heads q.head M.links b.q
  mid : q.mid = b.mid.getD q.head
  hot : M.hot = b.hot
  odd : q.odd = b.odd

theorem rel_create {M : Mem} {q : Q} {b : BQ} (hr : Rel M q b) (hi : b.Inv) {e : Nat} (hn : e ∉ b.q) (hh : e ∉ M.heads) :
    ∃ M' q', onCreate M q e = some (M', q') ∧ Rel M' q' (b.onCreate e).1 ∧ M'.heads = M.heads ∧ q'.head = q.head := by
  obtain ⟨hs, cs, h⟩ := hi
  have hlk := hr.links
  rw [h.q] at hlk hn
  have hnd := h.nodup
  rw [h.q] at hnd
  simp only [BQ.onCreate, onCreate, hr.odd]
  rcases h.lens with ⟨ho, hl⟩ | ⟨ho, hl⟩
  · obtain ⟨m, cs', rfl⟩ : ∃ m cs', cs = m :: cs' := by
      cases cs with
      | nil => simp at hl
      | cons m cs' => exact ⟨m, cs', rfl⟩
    have hmid : b.mid = some m := by simp [h.mid]
    have hmn : m ∉ hs := by
      rw [List.nodup_append] at hnd
      intro hm; exact hnd.2.2 m hm m (by simp) rfl
    have hmh : m ∉ M.heads := hlk.not_head (by simp)
    have h' : Rep M.heads q.head M.links ((hs ++ [m]) ++ cs') := by simpa using hlk
    have hp := h'.ptrs
    have hins := h'.insert (e := e) (by simpa using hn) hh
    rw [lastOf_snoc] at hp hins
    have hqm : q.mid = m := by rw [hr.mid, hmid]; rfl
    simp only [ho, hmid, hqm, setHotAt, linkAfter, if_true, hmh, if_false, Option.bind_eq_bind, Option.bind_some]
    rw [hp.1]
    refine ⟨_, _, rfl, ⟨?_, rfl, ?_, rfl⟩, rfl, rfl⟩
    · show Rep _ _ _ (insAfter m e b.q)
      rw [h.q, insAfter_append hmn]
      simpa using hins
    · simp [hr.hot]
  · have hp := hlk.ptrs
    have hins := hlk.insert hn hh
    have hqm : q.mid = firstOf cs q.head := by rw [hr.mid, h.mid]; rfl
    simp only [ho, linkBefore, hqm]
    rw [hp.2]
    refine ⟨_, _, rfl, ⟨?_, rfl, by simp [hr.hot], rfl⟩, rfl, rfl⟩
    show Rep _ _ _ (insBeforePos b.mid e b.q)
    rw [h.q, h.mid]
    cases cs with
    | nil => simpa [insBeforePos] using hins
    | cons m cs' =>
      have hmn : m ∉ hs := by
        rw [List.nodup_append] at hnd
        intro hm; exact hnd.2.2 m hm m (by simp) rfl
      simp only [List.head?_cons, insBeforePos]
      rw [insBefore_append hmn]; exact hins

/-- What `cutOut` does. -/
theorem rel_cutOut {M : Mem} {q : Q} {b : BQ} (hr : Rel M q b) {e : Nat} (hm : e ∈ b.q) :
    ∃ H, cutOut M q e = some ({ M with links := H },
        { q with mid := (if b.mid = some e then nextOf e b.q else b.mid).getD q.head }) ∧
      Rep M.heads q.head H (b.q.erase e) := by
  obtain ⟨l1, l2, hq, hn⟩ := split_first hm
  have hlk := hr.links
  have heh : e ∉ M.heads := hlk.not_head hm
  rw [hq] at hlk
  obtain ⟨H', e1, e2⟩ := hlk.cut
  refine ⟨H', ?_, ?_⟩
  · simp only [cutOut, e1, Option.bind_eq_bind, Option.bind_some]
    have : q.mid = e ↔ b.mid = some e := by
      rw [hr.mid]
      cases b.mid with
      | none => simp; exact fun e' => heh (e' ▸ hlk.1)
      | some x => simp
    simp only [this]
    split
    · rw [hq, nextOf_append hn]; rfl
    · rw [← hr.mid]
  · rw [hq, erase_mid hn]; exact e2

theorem midBack_spec {M : Mem} {q : Q} {hs cs : List Nat} (hl : Rep M.heads q.head M.links (hs ++ cs))
    (hm : q.mid = cs.head?.getD q.head) (hne : hs ≠ []) :
    ∃ x, prevOf cs.head? (hs ++ cs) = some x ∧
      midBack M q = some ({ M with hot := setHot M.hot x false }, { q with mid := x }) := by
  obtain ⟨hs', x, rfl⟩ := last_of_ne hne
  refine ⟨x, ?_, ?_⟩
  · rw [prevOf_append hl.nodup]; simp
  · have := hl.ptrs.2
    rw [lastOf_snoc] at this
    have hx : x ∉ M.heads := hl.not_head (by simp)
    have hm' : q.mid = firstOf cs q.head := hm
    simp [midBack, hm', this, setHotAt, hx]

theorem rel_hit {M : Mem} {q : Q} {b : BQ} (hr : Rel M q b) (hi : b.Inv) {e : Nat} (hm : e ∈ b.q) :
    ∃ M' q', onHit M q e = some (M', q') ∧ Rel M' q' (b.onHit e) ∧ M'.heads = M.heads ∧ q'.head = q.head := by
  obtain ⟨hs, cs, h⟩ := hi
  obtain ⟨H1, e1, l1⟩ := rel_cutOut hr hm
  obtain ⟨H, e2, l2⟩ := l1.front (h.nodup.not_mem_erase) (hr.links.not_head hm)
  simp only [onHit, e1, Option.bind_eq_bind, Option.bind_some, e2]
  have hm' := hm
  rw [h.q, List.mem_append] at hm'
  by_cases hh : b.hot e = true
  · simp only [hr.hot, hh, BQ.onHit, if_true]
    exact ⟨_, _, rfl, ⟨l2, rfl, rfl, hr.odd⟩, rfl, rfl⟩
  · have hc : e ∈ cs := by
      rcases hm' with hm' | hm'
      · exact absurd (h.hot e hm') hh
      · exact hm'
    obtain ⟨r1, r2⟩ := BQ.remove_cold h hc
    rw [r2] at l2
    simp only [hr.hot, hh, BQ.onHit, r1, r2]
    obtain ⟨x, x1, x2⟩ := midBack_spec (M := ⟨H, setHot b.hot e true, M.heads⟩)
      (q := ⟨q.head, (cs.erase e).head?.getD q.head, q.odd⟩) (hs := e :: hs) (cs := cs.erase e) l2 rfl (by simp)
    rw [List.cons_append] at x1
    rw [x1]
    exact ⟨⟨H, setHot (setHot b.hot e true) x false, M.heads⟩, ⟨q.head, x, q.odd⟩, by rw [if_neg (by simp)]; exact x2,
      ⟨l2, rfl, rfl, hr.odd⟩, rfl, rfl⟩

theorem rel_unlink {M : Mem} {q : Q} {b : BQ} (hr : Rel M q b) (hi : b.Inv) {e : Nat} (hm : e ∈ b.q) :
    ∃ M' q', onUnlink M q e = some (M', q') ∧ Rel M' q' (b.onUnlink e) ∧ M'.heads = M.heads ∧ q'.head = q.head := by
  obtain ⟨hs, cs, h⟩ := hi
  obtain ⟨H1, e1, l1⟩ := rel_cutOut hr hm
  simp only [onUnlink, e1, Option.bind_eq_bind, Option.bind_some]
  have hm' := hm
  rw [h.q, List.mem_append] at hm'
  by_cases hh : b.hot e = true
  · have hc : e ∈ hs := by
      rcases hm' with hm' | hm'
      · exact hm'
      · rw [h.cold e hm'] at hh; simp at hh
    obtain ⟨r1, r2⟩ := BQ.remove_hot h hc
    rw [r2] at l1
    simp only [hr.hot, hr.odd, hh, if_true, BQ.onUnlink, r1, r2]
    rcases h.lens with ⟨ho, hl⟩ | ⟨ho, hl⟩
    · obtain ⟨m, cs', rfl⟩ : ∃ m cs', cs = m :: cs' := by
        cases cs with
        | nil => simp at hl
        | cons m cs' => exact ⟨m, cs', rfl⟩
      have h' : Rep M.heads q.head H1 ((hs.erase e ++ [m]) ++ cs') := by simpa using l1
      have hp := h'.ptrs.1
      rw [lastOf_snoc] at hp
      have hmh : m ∉ M.heads := l1.not_head (by simp)
      have hmn : m ∉ hs.erase e := by
        intro hx
        have := h.nodup
        rw [h.q, List.nodup_append] at this
        exact this.2.2 m (List.mem_of_mem_erase hx) m (by simp) rfl
      simp only [ho, List.head?_cons, Option.getD_some, setHotAt, hmh, if_false, if_true, Option.bind_some, hp]
      refine ⟨_, _, rfl, ⟨l1, ?_, rfl, by simp⟩, rfl, rfl⟩
      show firstOf cs' q.head = (nextOf m (hs.erase e ++ m :: cs')).getD q.head
      rw [nextOf_append hmn]; rfl
    · simp only [ho]
      exact ⟨_, _, rfl, ⟨l1, rfl, rfl, rfl⟩, rfl, rfl⟩
  · have hc : e ∈ cs := by
      rcases hm' with hm' | hm'
      · exact absurd (h.hot e hm') hh
      · exact hm'
    obtain ⟨r1, r2⟩ := BQ.remove_cold h hc
    rw [r2] at l1
    simp only [hr.hot, hr.odd, hh, BQ.onUnlink, r1, r2]
    rcases h.lens with ⟨ho, hl⟩ | ⟨ho, hl⟩
    · simp only [ho]
      exact ⟨_, _, rfl, ⟨l1, rfl, rfl, rfl⟩, rfl, rfl⟩
    · have hne : hs ≠ [] := by
        rintro rfl
        have := List.length_pos_of_mem hc
        simp at hl; simp [hl] at this
      obtain ⟨x, x1, x2⟩ := midBack_spec (M := ⟨H1, b.hot, M.heads⟩)
        (q := ⟨q.head, (cs.erase e).head?.getD q.head, b.odd⟩) l1 rfl hne
      rw [x1]
      simp only [ho] at x2 ⊢
      refine ⟨⟨H1, setHot b.hot x false, M.heads⟩, ⟨q.head, x, true⟩,
        by rw [if_neg (by simp), if_neg (by simp), x2]; rfl, ⟨l1, rfl, rfl, rfl⟩, rfl, rfl⟩

theorem rel_move {M : Mem} {q : Q} {b : BQ} (hr : Rel M q b) (hi : b.Inv) (hne : b.q ≠ []) {to : Nat} (ht : to ∉ M.heads)
    (htl : to ∉ b.q) :
    ∃ M' q', moveCtor M q to = some (M', q') ∧ Rel M' q' b ∧ M'.heads = to :: M.heads ∧ q' = { q with head := to } := by
  obtain ⟨H, h1, h2⟩ := hr.links.move hne ht htl
  refine ⟨⟨H, M.hot, to :: M.heads⟩, ⟨to, q.mid, q.odd⟩, by simp only [moveCtor, h1]; rfl, ⟨h2, ?_, hr.hot, hr.odd⟩, rfl, rfl⟩
  obtain ⟨hs, cs, h⟩ := hi
  have hcs : cs ≠ [] := by
    rintro rfl
    rcases h.lens with ⟨_, hl⟩ | ⟨_, hl⟩
    · simp at hl
    · apply hne; rw [h.q]; simpa using hl.symm
  obtain ⟨m, cs', rfl⟩ := List.exists_cons_of_ne_nil hcs
  show q.mid = b.mid.getD to
  rw [hr.mid, h.mid]; rfl

/-- One legal call. -/
theorem call_holds {M : Mem} {q : Q} {b : BQ} {l : List Nat} (hr : Rel M q b) (hh : PQ.Holds b l) (c : Call)
    (hc : c.ok M.heads l) (hne : ∀ to, c = .move to → l ≠ []) :
    ∃ M' q' b', call M q c = some (M', q') ∧ Rel M' q' b' ∧ PQ.Holds b' (c.apply l) ∧ M'.heads = c.places M.heads := by
  have hs := hh.split
  match c, hc, hne with
  | .event (.create e), hc, _ =>
    have hi : e ∉ b.q := by rw [hh.q]; exact hc.1
    obtain ⟨M', q', h1, h2, h3, _⟩ := rel_create hr hh.shape hi hc.2
    obtain ⟨hs', cs', h4, h5, _⟩ := BQ.shape_onCreate hs hi
    refine ⟨M', q', _, h1, h2, ⟨?_, ⟨_, _, h4⟩⟩, h3⟩
    have hlen := h4.len
    rw [h4.q] at hlen
    rw [List.take_append_drop] at h5
    have hll := congrArg List.length h5
    obtain ⟨e1, e2⟩ := PQ.split_unique h5 (n := (l.length + 1) / 2) (by simp at hlen hll ⊢; omega)
    rw [h4.q, e1, e2]; rfl
  | .event (.hit e), hc, _ =>
    have hi : e ∈ b.q := by rw [hh.q]; exact hc
    obtain ⟨M', q', h1, h2, h3, _⟩ := rel_hit hr hh.shape hi
    obtain ⟨hs', cs', h4, h5⟩ := BQ.shape_onHit hs hi
    refine ⟨M', q', _, h1, h2, ⟨?_, ⟨_, _, h4⟩⟩, h3⟩
    rw [h4.q, h5, List.take_append_drop]; rfl
  | .event (.unlink e), hc, _ =>
    have hi : e ∈ b.q := by rw [hh.q]; exact hc
    obtain ⟨M', q', h1, h2, h3, _⟩ := rel_unlink hr hh.shape hi
    obtain ⟨hs', cs', h4, h5⟩ := BQ.shape_onUnlink hs hi
    refine ⟨M', q', _, h1, h2, ⟨?_, ⟨_, _, h4⟩⟩, h3⟩
    rw [h4.q, h5, List.take_append_drop]; rfl
  | .move to, hc, hne =>
    obtain ⟨M', q', h1, h2, h3, _⟩ := rel_move hr hh.shape (by rw [hh.q]; exact hne to rfl) hc.1 (by rw [hh.q]; exact hc.2)
    exact ⟨M', q', b, h1, h2, hh, h3⟩

theorem calls_holds : ∀ (cs : List Call) {M : Mem} {q : Q} {b : BQ} {l : List Nat}, Rel M q b → PQ.Holds b l →
    CallsOk M.heads l cs →
    ∃ M' q' b', calls M q cs = some (M', q') ∧ Rel M' q' b' ∧ PQ.Holds b' (cs.foldl Call.apply l) ∧
      M'.heads = cs.foldl Call.places M.heads
  | [], M, q, b, l, hr, hh, _ => ⟨M, q, b, rfl, hr, hh, rfl⟩
  | c :: cs, M, q, b, l, hr, hh, ho => by
    obtain ⟨M1, q1, b1, h1, h2, h3, h3'⟩ := call_holds hr hh c ho.1 ho.2.1
    obtain ⟨M2, q2, b2, h4, h5, h6, h7⟩ := calls_holds cs h2 h3 (by rw [h3']; exact ho.2.2)
    exact ⟨M2, q2, b2, by simp [calls, h1, h4], h5, h6, by rw [h7, h3']; rfl⟩

/-- No object has been made.  The members `hot_` have any value. -/
def noObjects (hot : Nat → Bool) : Mem := ⟨⟨fun _ => none, fun _ => none⟩, hot, []⟩

theorem rel_new (hot : Nat → Bool) (h : Nat) :
    Rel (new (noObjects hot) h).1 (new (noObjects hot) h).2 { BQ.init with hot } := by
  refine ⟨⟨by simp [new], ?_, ?_, ?_⟩, rfl, rfl, rfl⟩
  · intro a ha
    obtain rfl : a = h := by simpa [new, noObjects] using ha
    have : only (new (noObjects hot) a).2.head ({ BQ.init with hot } : BQ).q a = [] := by
      simp [only, BQ.init]
    rw [this]
    exact ⟨⟨by simp [new, ctor, Heap.setPred, Heap.setSucc], by simp [new, ctor, Heap.setPred, Heap.setSucc]⟩, by simp⟩
  · intro a ha b hb hab
    simp [new, noObjects] at ha hb; omega
  · intro e he
    have : e ≠ h := fun e' => he.1 (by simp [new, e'])
    simp [new, noObjects, ctor, Heap.setPred, Heap.setSucc, this]

theorem calls_order (hot : Nat → Bool) (h : Nat) (cs : List Call) (ho : CallsOk [h] [] cs) :
    ∃ M q b, calls (new (noObjects hot) h).1 (new (noObjects hot) h).2 cs = some (M, q) ∧ Rel M q b ∧
      PQ.Holds b (order cs) ∧ M.heads = cs.foldl Call.places [h] :=
  calls_holds cs (rel_new hot h) ⟨rfl, PQ.inv_initHot hot⟩ ho

theorem allHot_spec {M : Mem} : ∀ {l : List Nat}, (∀ x ∈ l, x ∉ M.heads) → allHot M l = some (l.all M.hot)
  | [], _ => rfl
  | x :: l, h => by
    have ih := allHot_spec (M := M) (l := l) (fun y hy => h y (by simp [hy]))
    simp only [allHot, hotAt, h x (by simp), if_false, List.all_cons]
    cases hx : M.hot x <;> simp [ih]

theorem noneHot_spec {M : Mem} : ∀ {l : List Nat}, (∀ x ∈ l, x ∉ M.heads) → noneHot M l = some (l.all (fun x => !M.hot x))
  | [], _ => rfl
  | x :: l, h => by
    have ih := noneHot_spec (M := M) (l := l) (fun y hy => h y (by simp [hy]))
    simp only [noneHot, hotAt, h x (by simp), if_false, List.all_cons]
    cases hx : M.hot x <;> simp [ih]

theorem invariant_spec {M : Mem} {q : Q} {l1 l2 : List Nat} (hr : Rep M.heads q.head M.links (l1 ++ l2))
    (hm : q.mid = firstOf l2 q.head) {fuel : Nat} (hf : (l1 ++ l2).length ≤ fuel) :
    invariant M q fuel = some (l1.all M.hot && l2.all (fun x => !M.hot x) &&
      (((l1 ++ l2).length % 2 == 1) == q.odd) && (l1.length == (l1 ++ l2).length / 2)) := by
  have hb : begin_ M.links q.head = some (firstOf (l1 ++ l2) q.head) := (hr.represents.1.succ_last (l1 := [])).1
  have h1 := forward_mid (l1 := []) hr.represents (fuel := fuel) (by simp at hf ⊢; omega)
  have h2 := forward_mid (l1 := l1) (l2 := l2) (l3 := []) (by simpa using hr.represents) (fuel := fuel) (by simp at hf ⊢; omega)
  rw [List.append_nil] at h2
  have h2' : forward M.links fuel (firstOf l2 q.head) (end_ q.head) = some l2 := h2
  have a1 := allHot_spec (M := M) (l := l1) (fun x hx => hr.not_head (by simp [hx]))
  have a2 := noneHot_spec (M := M) (l := l2) (fun x hx => hr.not_head (by simp [hx]))
  unfold invariant
  simp only [hb, hm, h1, h2', a1, a2, Option.bind_eq_bind, Option.bind_some, List.length_append]

theorem invariant_of_holds {M : Mem} {q : Q} {b : BQ} {l : List Nat} (h2 : Rel M q b) (h3 : PQ.Holds b l) {fuel : Nat}
    (hf : l.length ≤ fuel) : invariant M q fuel = some true := by
  have hr : Rep M.heads q.head M.links l := h3.q ▸ h2.links
  have hs := h3.split
  rw [← List.take_append_drop (l.length / 2) l] at hr
  rw [invariant_spec hr (by rw [h2.mid, hs.mid]; rfl) (by simpa using hf), h2.hot, h2.odd, hs.odd, h3.q,
    List.take_append_drop]
  have a1 : (l.take (l.length / 2)).all b.hot = true := List.all_eq_true.2 hs.hot
  have a2 : (l.drop (l.length / 2)).all (fun x => !b.hot x) = true :=
    List.all_eq_true.2 (fun x hx => by simp [hs.cold x hx])
  rw [a1, a2]
  by_cases hp : l.length % 2 = 1
  · simp [hp]; omega
  · simp [hp]; omega

end Hoard.QMove
