import Verif.QueueMoveLemmas
import Verif.Props.QueueCheck
/-! C116: moving the recency queue. -/
namespace Hoard.QMove
open DL

/-- C116. Entries are added to a queue, hit and removed in any legal order, and in between the queue is moved to
other places, as often as one likes but never while it is empty. No undefined behaviour happens. The queue that
was made last has the entries in the order of the specification, which does not depend on the moves; iterating
meets them forward and backward. The first half of them, rounded down, is hot and the others are not,
`invariant()` returns true, and every queue that was moved from is an empty list.

The full claim ("moving any queue") fails for an empty one, see `C116_moving_an_empty_queue`. -/
theorem C116_moving_keeps_the_queue_partial (hot : Nat → Bool) (h : Nat) (cs : List Call) (ho : CallsOk [h] [] cs) :
    ∃ M q, calls (new (noObjects hot) h).1 (new (noObjects hot) h).2 cs = some (M, q) ∧
      (∀ fuel, (order cs).length ≤ fuel →
        (∃ b, begin_ M.links q.head = some b ∧ forward M.links fuel b (end_ q.head) = some (order cs) ∧
          backward M.links fuel (end_ q.head) b = some (order cs).reverse) ∧
        invariant M q fuel = some true) ∧
      (∀ i ∈ (order cs).take ((order cs).length / 2), M.hot i = true) ∧
      (∀ i ∈ (order cs).drop ((order cs).length / 2), M.hot i = false) ∧
      (∀ p ∈ cs.foldl Call.places [h], p ≠ q.head → DL.empty M.links p = true) := by
  obtain ⟨M, q, b, h1, h2, h3, h4⟩ := calls_order hot h cs ho
  have hl : Rep M.heads q.head M.links (order cs) := h3.q ▸ h2.links
  have hs := h3.split
  refine ⟨M, q, h1, fun fuel hf => ⟨?_, invariant_of_holds h2 h3 hf⟩, ?_, ?_, ?_⟩
  · exact C28_iteration_whole _ _ _ hl.represents fuel hf
  · intro i hi; rw [h2.hot]; exact hs.hot i hi
  · intro i hi; rw [h2.hot]; exact hs.cold i hi
  · intro p hp hne
    have := hl.2.rep p (h4 ▸ hp)
    simp only [only, if_neg hne] at this
    simp [DL.empty, this.1.1]

/-- C116, the place. The queue is where it was moved to last. -/
theorem C116_where_the_queue_is (hot : Nat → Bool) (h to : Nat) (cs : List Call) (ho : CallsOk [h] [] (cs ++ [.move to])) :
    ∃ M q, calls (new (noObjects hot) h).1 (new (noObjects hot) h).2 (cs ++ [.move to]) = some (M, q) ∧ q.head = to := by
  obtain ⟨M, q, _, h1, _⟩ := calls_order hot h _ ho
  refine ⟨M, q, h1, ?_⟩
  have key : ∀ (cs : List Call) (M0 : Mem) (q0 : Q), calls M0 q0 (cs ++ [.move to]) = some (M, q) → q.head = to := by
    intro cs
    induction cs with
    | nil =>
      intro M0 q0 e
      simp only [List.nil_append, calls, call, moveCtor] at e
      cases hm : DL.moveCtor M0.links to q0.head with
      | none => simp [hm] at e
      | some H => simp [hm] at e; rw [← e.2]
    | cons c cs ih =>
      intro M0 q0 e
      simp only [List.cons_append, calls] at e
      cases hc : call M0 q0 c with
      | none => simp [hc] at e
      | some r => rw [hc] at e; exact ih _ _ e
  exact key cs _ _ h1

theorem callsOk_append : ∀ {cs ds : List Call} {hs l : List Nat}, CallsOk hs l (cs ++ ds) → CallsOk hs l cs ∧
    CallsOk (cs.foldl Call.places hs) (cs.foldl Call.apply l) ds
  | [], _, _, _, h => ⟨trivial, h⟩
  | _ :: _, _, _, _, h => ⟨⟨h.1, h.2.1, (callsOk_append h.2.2).1⟩, (callsOk_append h.2.2).2⟩

/-- `on_create_` does not look at the head of the list. -/
theorem onCreate_head (M : Mem) (q : Q) (e h : Nat) :
    onCreate M { q with head := h } e = (onCreate M q e).map (fun r => (r.1, { r.2 with head := h })) := by
  simp only [onCreate]
  split
  · cases setHotAt { M with hot := setHot M.hot e false } q.mid true with
    | none => rfl
    | some M1 =>
      simp only [Option.bind_eq_bind, Option.bind_some]
      cases linkAfter M1.links q.mid e <;> rfl
  · cases linkBefore M.links q.mid e <;> rfl

/-- C116, what is left of the old queue. A queue `q` with entries has been moved to `to`. Then the old queue is an
empty list, but its midpoint is still in the new one. `invariant()` of the old queue does not end. An entry `e`
that is added to the old queue comes into the new one, in the middle; the old one stays empty; and then
`invariant()` of the new queue returns false. -/
theorem C116_old_queue_reaches_the_new_one (hot : Nat → Bool) (h to : Nat) (cs : List Call)
    (ho : CallsOk [h] [] (cs ++ [.move to])) :
    ∃ M q M' q', calls (new (noObjects hot) h).1 (new (noObjects hot) h).2 cs = some (M, q) ∧
      moveCtor M q to = some (M', q') ∧
      DL.empty M'.links q.head = true ∧ q.mid ∈ order cs ∧
      (∀ fuel, invariant M' q fuel = none) ∧
      ∀ e, e ∉ order cs → e ∉ to :: cs.foldl Call.places [h] →
        ∃ M2 q2, onCreate M' q e = some (M2, q2) ∧ Represents M2.links to ((PQ.Event.create e).apply (order cs)) ∧
          DL.empty M2.links q.head = true ∧
          ∀ fuel, (order cs).length + 1 ≤ fuel → invariant M2 q' fuel = some false := by
  obtain ⟨hc, hm⟩ := callsOk_append ho
  obtain ⟨M, q, b, h1, h2, h3, h4⟩ := calls_order hot h cs hc
  have hne : order cs ≠ [] := hm.2.1 to rfl
  have ht : to ∉ M.heads := h4 ▸ hm.1.1
  have htl : to ∉ b.q := by rw [h3.q]; exact hm.1.2
  obtain ⟨M', q', m1, m2, m3, m4⟩ := rel_move h2 h3.shape (by rw [h3.q]; exact hne) ht htl
  have hq' : q'.head = to := by rw [m4]
  have hqh : q.head ≠ to := fun e => ht (e ▸ h2.links.1)
  have hl' : Rep M'.heads to M'.links (order cs) := hq' ▸ h3.q ▸ m2.links
  have hold : ∀ {H : Heap} {l : List Nat}, Rep M'.heads to H l → H.succ q.head = some q.head := by
    intro H l hr
    have := hr.2.rep q.head (by rw [m3]; simp [h2.links.1])
    simp only [only, if_neg hqh] at this
    exact this.1.1
  have hs := h3.split
  have hmid : q.mid ∈ (order cs).drop ((order cs).length / 2) := by
    have hd : (order cs).drop ((order cs).length / 2) ≠ [] := by
      intro e
      have := congrArg List.length e
      have hp := List.length_pos_iff.2 hne
      simp at this; omega
    obtain ⟨m, r, e⟩ := List.exists_cons_of_ne_nil hd
    rw [h2.mid, hs.mid, e]; simp
  have hmo : q.mid ∈ order cs := List.mem_of_mem_drop hmid
  refine ⟨M, q, M', q', h1, m1, by simp [DL.empty, hold hl'], hmo, ?_, ?_⟩
  · intro fuel
    have hne : ¬ q.head = q.mid := by
      intro e
      exact (h3.q ▸ h2.links : Rep M.heads q.head M.links (order cs)).not_head hmo (e ▸ h2.links.1)
    have hf : ∀ fuel, forward M'.links fuel q.head q.mid = none := by
      intro fuel
      induction fuel with
      | zero => rw [forward.eq_def]; simp [hne]
      | succ n ih => rw [forward.eq_def]; simp [hne, inc, hold hl', ih]
    simp [invariant, begin_, hold hl', hf]
  · intro e he heh
    have heh' : e ∉ M'.heads := by rw [m3, h4]; exact heh
    have hi : e ∉ b.q := by rw [h3.q]; exact he
    obtain ⟨M2, q2, c1, c2, c3, c4⟩ := rel_create m2 h3.shape hi heh'
    obtain ⟨M2', q2', b', d1, d2, d3, d4⟩ := call_holds m2 h3 (.event (.create e)) ⟨he, heh'⟩ (by intro to h; cases h)
    have hMM : (M2', q2') = (M2, q2) := Option.some.inj (d1.symm.trans c1)
    obtain ⟨rfl, rfl⟩ := Prod.mk.inj hMM
    have hcr : onCreate M' q e = some (M2', { q2' with head := q.head }) := by
      have := onCreate_head M' q' e q.head
      rw [c1] at this
      rw [m4] at this
      exact this
    have hl2 : Rep M2'.heads to M2'.links ((PQ.Event.create e).apply (order cs)) := by
      have hh : q2'.head = to := by rw [c4, hq']
      have := d2.links
      rw [d3.q, hh] at this
      exact this
    have hl2' : Rep M'.heads to M2'.links ((PQ.Event.create e).apply (order cs)) := c3 ▸ hl2
    refine ⟨M2', _, hcr, hl2.represents, by simp [DL.empty, hold hl2'], ?_⟩
    intro fuel hf
    have hq := hs.q
    rw [h3.q] at hq
    obtain ⟨hs', cs', x1, x2, _⟩ := BQ.shape_onCreate hs hi
    have hlen := hs.len
    have hodd := hs.odd
    rw [h3.q] at hlen hodd
    have hrep : Rep M2'.heads q'.head M2'.links ((order cs).take (((order cs).length + 1) / 2) ++ e :: (order cs).drop (((order cs).length + 1) / 2)) := by
      rw [hq']; exact hl2
    have hhot : M2'.hot = (b.onCreate e).1.hot := c2.hot
    have hqm : q'.mid = q.mid := by rw [m4]
    by_cases hp : (order cs).length % 2 = 1
    · have hlt : (order cs).length / 2 < (order cs).length := by omega
      have e1 : ((order cs).length + 1) / 2 = (order cs).length / 2 + 1 := by omega
      have hsp : (order cs).take (((order cs).length + 1) / 2) ++ e :: (order cs).drop (((order cs).length + 1) / 2) =
          (order cs).take ((order cs).length / 2) ++ (order cs)[(order cs).length / 2] :: e :: (order cs).drop ((order cs).length / 2 + 1) := by
        rw [e1, List.take_succ_eq_append_getElem hlt, List.append_assoc]; rfl
      have hdr : (order cs).drop ((order cs).length / 2) = (order cs)[(order cs).length / 2] :: (order cs).drop ((order cs).length / 2 + 1) :=
        List.drop_eq_getElem_cons hlt
      have hm' : q.mid = (order cs)[(order cs).length / 2] := by
        rw [h2.mid, hs.mid, hdr]; rfl
      rw [hsp] at hrep
      rw [invariant_spec hrep (by rw [hqm, hm']; rfl) (by simp; omega)]
      have hht : M2'.hot ((order cs)[(order cs).length / 2]) = true := by
        rw [hhot]
        have hbm : b.mid = some ((order cs)[(order cs).length / 2]) := by rw [hs.mid, hdr]; rfl
        have hbo : b.odd = true := by rw [hodd]; simp [hp]
        simp [BQ.onCreate, hbo, hbm, setHot]
      simp [hht]
    · have e1 : ((order cs).length + 1) / 2 = (order cs).length / 2 := by omega
      rw [e1] at hrep
      have hrep' : Rep M2'.heads q'.head M2'.links (((order cs).take ((order cs).length / 2) ++ [e]) ++ (order cs).drop ((order cs).length / 2)) := by
        simpa using hrep
      have hd : ∃ m r, (order cs).drop ((order cs).length / 2) = m :: r :=
        List.exists_cons_of_ne_nil (List.ne_nil_of_mem hmid)
      obtain ⟨m, r, hdr⟩ := hd
      rw [invariant_spec hrep' (by rw [hqm, h2.mid, hs.mid, hdr]; rfl) (by simp; omega)]
      have hht : M2'.hot e = false := by
        rw [hhot]
        have hbo : b.odd = false := by rw [hodd]; simp [hp]
        simp [BQ.onCreate, hbo, setHot]
      simp [hht]

/-- C116 is false for an empty queue. Moving it makes a queue whose list is not empty: it meets the head of the old
queue as if it were an entry. `invariant()` of the new queue is undefined behaviour, as it reads a flag that the
head does not have. An entry that is added comes before that head. -/
theorem C116_moving_an_empty_queue (hot : Nat → Bool) (h to : Nat) (cs : List Call) (ho : CallsOk [h] [] cs)
    (hempty : order cs = []) (ht : to ∉ cs.foldl Call.places [h]) :
    ∃ M q M' q', calls (new (noObjects hot) h).1 (new (noObjects hot) h).2 cs = some (M, q) ∧
      moveCtor M q to = some (M', q') ∧ q'.head = to ∧
      DL.empty M'.links to = false ∧ (∀ fuel, invariant M' q' fuel = none) ∧
      ∀ e, e ∉ to :: cs.foldl Call.places [h] →
        ∃ M2 q2, onCreate M' q' e = some (M2, q2) ∧ Represents M2.links to [e, q.head] := by
  obtain ⟨M, q, b, h1, h2, h3, h4⟩ := calls_order hot h cs ho
  have hbq : b.q = [] := by rw [h3.q, hempty]
  have ht' : to ∉ M.heads := by rw [h4]; exact ht
  have hth : to ≠ q.head := fun e => ht' (e ▸ h2.links.1)
  have hrep := h2.links.represents
  rw [hbq] at hrep
  obtain ⟨H', e1, e2, _, e3, e4⟩ := C28_move_empty_corrupts M.links q.head to hrep hth
  have hs := h3.split
  have hbm : b.mid = none := by rw [hs.mid, hempty]; rfl
  have hbo : b.odd = false := by rw [hs.odd, hbq]; rfl
  have hqm : q.mid = q.head := by rw [h2.mid, hbm]; rfl
  refine ⟨M, q, ⟨H', M.hot, to :: M.heads⟩, ⟨to, q.mid, q.odd⟩, h1, by simp only [moveCtor, e1]; rfl, rfl, e2, ?_, ?_⟩
  · intro fuel
    have hb : H'.succ to = some q.head := e3.1.1
    have hb2 : H'.succ q.head = some to := e3.1.2.2.1
    cases fuel with
    | zero => simp [invariant, begin_, hb, hqm, end_, forward, Ne.symm hth]
    | succ n =>
      have : forward H' (n + 1) q.head to = some [q.head] := by
        rw [forward.eq_def]; simp [Ne.symm hth, inc, hb2, forward_self]
      simp [invariant, begin_, hb, hqm, forward_self, end_, this, allHot, noneHot, hotAt, h2.links.1]
  · intro e he
    have he1 : e ≠ to := by rintro rfl; exact he (by simp)
    have he2 : e ≠ q.head := by
      rintro rfl; exact he (by rw [← h4]; simp [h2.links.1])
    have hp : H'.pred q.head = some to := e3.1.2.1
    refine ⟨_, _, by simp only [onCreate, h2.odd, hbo, hqm, linkBefore, hp]; rfl, ?_⟩
    exact represents_link (l1 := []) (l2 := [q.head]) e3 (by simp [he1, he2])

/-- Calls with two moves, one of an even and one of an odd number of entries, and more calls in between. -/
def someMoves : List Call :=
  [.event (.create 1), .event (.create 2), .move 101, .event (.hit 1), .event (.create 3), .move 102, .event (.unlink 2),
   .event (.create 4)]

/-- The hypotheses of `C116_moving_keeps_the_queue_partial` are met. -/
example : CallsOk [100] [] someMoves ∧ order someMoves = [1, 4, 3] := by
  refine ⟨?_, by decide⟩
  simp [someMoves, CallsOk, Call.ok, Call.places, Call.apply, PQ.Event.ok, PQ.Event.apply]

/-- The code on these calls. -/
example : ((calls (new (noObjects fun _ => true) 100).1 (new (noObjects fun _ => true) 100).2 someMoves).bind
    fun r => invariant r.1 r.2 3) = some true := by decide +kernel

/-- The hypotheses of `C116_old_queue_reaches_the_new_one` and `C116_where_the_queue_is`, and a new entry. -/
example : CallsOk [100] [] (someMoves ++ [.move 103]) ∧ 5 ∉ order someMoves ∧ 5 ∉ 103 :: someMoves.foldl Call.places [100] := by
  refine ⟨?_, by decide, by decide⟩
  simp [someMoves, CallsOk, Call.ok, Call.places, Call.apply, PQ.Event.ok, PQ.Event.apply]

/-- The hypotheses of `C116_moving_an_empty_queue`: a queue that was filled, moved and emptied. -/
example : CallsOk [100] [] [.event (.create 1), .move 101, .event (.unlink 1)] ∧
    order [.event (.create 1), .move 101, .event (.unlink 1)] = [] ∧
    (102 : Nat) ∉ [Call.event (.create 1), .move 101, .event (.unlink 1)].foldl Call.places [100] := by
  refine ⟨?_, by decide, by decide⟩
  simp [CallsOk, Call.ok, Call.places, Call.apply, PQ.Event.ok, PQ.Event.apply]

end Hoard.QMove
