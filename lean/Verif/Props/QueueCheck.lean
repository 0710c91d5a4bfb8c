import Verif.QueueCheckLemmas
import Verif.Props.Memory
/-! C28 on iterators, and C99: order and self-check of the recency queue. -/
namespace Hoard.DL

/-- C28, iteration. In a list that holds `l1`, then `l2`, then `l3`, going forward
from the first element of `l2` to the position after it meets exactly the elements
of `l2` in order, also with the postfix operator, and going backward meets them in
reverse order.  No null pointer is followed and the loops end after as many rounds
as `l2` has elements. -/
theorem C28_iteration (H : Heap) (h : Nat) (l1 l2 l3 : List Nat) (hr : Represents H h (l1 ++ l2 ++ l3))
    (fuel : Nat) (hf : l2.length ≤ fuel) :
    let start := ((l2 ++ l3).head?).getD (end_ h)
    let stop := (l3.head?).getD (end_ h)
    forward H fuel start stop = some l2 ∧ forwardPost H fuel start stop = some l2 ∧
      backward H fuel stop start = some l2.reverse := by
  have e : ∀ l : List Nat, (l.head?).getD (end_ h) = firstOf l h := by intro l; cases l <;> rfl
  simp only [e]
  rw [List.append_assoc] at hr
  exact ⟨forward_mid hr hf, by rw [forwardPost_eq]; exact forward_mid hr hf, backward_mid hr hf⟩

/-- C28, iteration over the whole list, from `begin()` to `end()` and back. -/
theorem C28_iteration_whole (H : Heap) (h : Nat) (l : List Nat) (hr : Represents H h l) (fuel : Nat)
    (hf : l.length ≤ fuel) :
    ∃ b, begin_ H h = some b ∧ forward H fuel b (end_ h) = some l ∧ backward H fuel (end_ h) b = some l.reverse := by
  have h1 := forward_mid (l1 := []) (l2 := l) (l3 := []) (by simpa using hr) hf
  have h2 := backward_mid (l1 := []) (l2 := l) (l3 := []) (by simpa using hr) hf
  rw [List.append_nil] at h1 h2
  exact ⟨firstOf l h, (hr.1.succ_last (l1 := [])).1, h1, h2⟩

/-- C28, the postfix operators. At an element `x`, both operators return the position
they were applied to; `x++` goes to the next element, or to `end()`, and `--`
applied there goes back to `x`. -/
theorem C28_postfix (H : Heap) (h : Nat) (l1 l2 : List Nat) (x : Nat) (hr : Represents H h (l1 ++ x :: l2)) :
    let next := (l2.head?).getD (end_ h)
    postInc H x = some (x, next) ∧ postDec H next = some (next, x) := by
  have hs : Seg H x l2 h := (Seg.append.1 hr.1).2
  cases l2 with
  | nil => exact ⟨by simp [postInc, inc, hs.1, end_], by simp [postDec, dec, hs.2, end_]⟩
  | cons y l2 => exact ⟨by simp [postInc, inc, hs.1], by simp [postDec, dec, hs.2.1]⟩

/-- A list of three elements, its middle one in focus. -/
example : ∃ H, Represents H 100 ([1] ++ [2] ++ [3]) ∧ ([2] : List Nat).length ≤ 1 := by
  refine ⟨link (link (link (ctor ⟨fun _ => none, fun _ => none⟩ 100) 100 1 100) 1 2 100) 2 3 100,
    ⟨⟨rfl, rfl, rfl, rfl, rfl, rfl, rfl, rfl⟩, by simp⟩, by simp⟩

/-- The same list from `begin()` to `end()`. -/
example : (do
    let H ← execAll (ctor ⟨fun _ => none, fun _ => none⟩ 100) [.front 100 1, .back 100 3, .after 100 1 2]
    let b ← begin_ H 100
    let f ← forward H 3 b (end_ 100)
    let r ← backward H 3 (end_ 100) b
    some (f, r)) = some ([1, 2, 3], [3, 2, 1]) := by decide

/-- C28, copies of elements. Copying or moving an element that is in a list to
a new object (not in a list, not a list head) gives an object that is in no list and
points to nothing, and
assigning to an element changes nothing: every list keeps its sequence. -/
theorem C28_copied_element (hs : List Nat) (H : Heap) (A : Seqs) (hg : ∀ h ∈ hs, Represents H h (A h)) (e : Nat)
    (he : Free hs A e) (x y : Nat) :
    isLinked (linkCopyCtor H e) e = false ∧ (linkCopyCtor H e).pred e = none ∧ (∀ h ∈ hs, Represents (linkCopyCtor H e) h (A h)) ∧
      (∀ h ∈ hs, Represents (linkAssign H x y) h (A h)) := by
  refine ⟨by simp [isLinked, linkCopyCtor, Heap.setPred, Heap.setSucc], by simp [linkCopyCtor, Heap.setPred], ?_, hg⟩
  intro h hh
  refine (hg h hh).frame ?_
  intro z hz
  have : z ≠ e := by
    rintro rfl
    rcases List.mem_cons.1 hz with rfl | hz
    · exact he.1 hh
    · exact he.2 h hh hz
  simp [linkCopyCtor, Heap.setPred, Heap.setSucc, this]

/-- A list with one element, and an object that is in no list. -/
example : ∃ H, (∀ h ∈ [100], Represents H h ((fun _ => [1] : Seqs) h)) ∧ Free [100] (fun _ => [1]) 7 := by
  refine ⟨link (ctor ⟨fun _ => none, fun _ => none⟩ 100) 100 1 100, ?_, ?_⟩
  · intro h hh
    obtain rfl : h = 100 := by simpa using hh
    exact ⟨⟨rfl, rfl, rfl, rfl⟩, by simp⟩
  · simp [Free]

end Hoard.DL

namespace Hoard.PQ

/-- C99. After any legal events no undefined behaviour has happened.  Iterating
over the queue meets the entries in the order of the specification, forward and
backward.  The first half of them, rounded down, is marked hot and the others are
not. -/
theorem C99_queue_order (hot : Nat → Bool) (es : List Event) (ho : EventsOk [] es) :
    ∃ p, (PQ.init hot).events es = some p ∧
      (∀ fuel, (order es).length ≤ fuel → ∃ b, DL.begin_ p.heap 0 = some b ∧
        DL.forward p.heap fuel b (DL.end_ 0) = some ((order es).map (· + 1)) ∧
        DL.backward p.heap fuel (DL.end_ 0) b = some ((order es).map (· + 1)).reverse) ∧
      (∀ i ∈ (order es).take ((order es).length / 2), p.hot i = true) ∧
      (∀ i ∈ (order es).drop ((order es).length / 2), p.hot i = false) ∧
      (∀ i, DL.isLinked p.heap (i + 1) = true ↔ i ∈ order es) := by
  obtain ⟨p, b, h1, h2, h3⟩ := run_order hot es ho
  have hl : LinkRep p.heap (order es) := h3.q ▸ h2.links
  have hs := h3.split
  refine ⟨p, h1, fun fuel hf => DL.C28_iteration_whole _ _ _ hl.1 fuel (by simpa using hf), ?_, ?_, ?_⟩
  · intro i hi; rw [h2.hot]; exact hs.hot i hi
  · intro i hi; rw [h2.hot]; exact hs.cold i hi
  · intro i; rw [linkRep_isLinked hl i]; simp

/-- C99, the self-check. After any legal events `invariant()` returns true. -/
theorem C99_self_check_passes (hot : Nat → Bool) (es : List Event) (ho : EventsOk [] es) :
    ∃ p, (PQ.init hot).events es = some p ∧ ∀ fuel, (order es).length ≤ fuel → p.invariant fuel = some true := by
  obtain ⟨p, b, h1, h2, h3⟩ := run_order hot es ho
  exact ⟨p, h1, fun fuel hf => invariant_of_holds h2 h3 hf⟩

/-- C99, what the self-check tells. For any queue whose links are sound and whose
midpoint is a position of the list, `invariant()` ends without undefined behaviour,
and it returns true exactly if the entries before the midpoint are hot, those from
the midpoint on are not, the parity flag is that of the length, and the midpoint is
at half the length rounded down. -/
theorem C99_self_check_exact (p : PQ) (l1 l2 : List Nat) (hr : DL.Represents p.heap 0 ((l1 ++ l2).map (· + 1)))
    (hm : p.mid = addr l2.head?) (fuel : Nat) (hf : (l1 ++ l2).length ≤ fuel) :
    ∃ r, p.invariant fuel = some r ∧
      (r = true ↔ (∀ i ∈ l1, p.hot i = true) ∧ (∀ i ∈ l2, p.hot i = false) ∧
        (p.odd = true ↔ (l1 ++ l2).length % 2 = 1) ∧ l1.length = (l1 ++ l2).length / 2) := by
  refine ⟨_, invariant_spec hr hm hf, ?_⟩
  simp only [Bool.and_eq_true, List.all_eq_true, beq_iff_eq, Bool.not_eq_true']
  constructor
  · rintro ⟨⟨⟨a, b⟩, c⟩, d⟩
    exact ⟨a, b, by rw [← c]; simp, d⟩
  · rintro ⟨a, b, c, d⟩
    refine ⟨⟨⟨a, b⟩, ?_⟩, d⟩
    cases ho : p.odd <;> simp [ho] at c ⊢ <;> omega

/-- C99, what the self-check does not look at: it follows links forward only, so
its result is the same whatever the backward links are. -/
theorem C99_self_check_ignores_backward_links (p : PQ) (pred' : Nat → Option Nat) (fuel : Nat) :
    ({ p with heap := { p.heap with pred := pred' } } : PQ).invariant fuel = p.invariant fuel := by
  have hf : ∀ (fuel a b : Nat), DL.forward { p.heap with pred := pred' } fuel a b = DL.forward p.heap fuel a b := by
    intro fuel
    induction fuel with
    | zero => intro a b; rw [DL.forward.eq_def, DL.forward.eq_def (H := p.heap)]
    | succ f ih =>
      intro a b
      rw [DL.forward.eq_def, DL.forward.eq_def (H := p.heap)]
      simp only [DL.inc, ih]
  have ha : ∀ l, ({ p with heap := { p.heap with pred := pred' } } : PQ).allHot l = p.allHot l := by
    intro l
    induction l with
    | nil => rfl
    | cons a l ih => simp only [allHot, ih]; cases a <;> rfl
  have hn : ∀ l, ({ p with heap := { p.heap with pred := pred' } } : PQ).noneHot l = p.noneHot l := by
    intro l
    induction l with
    | nil => rfl
    | cons a l ih => simp only [noneHot, ih]; cases a <;> rfl
  simp only [invariant, hf, ha, hn]
  rfl

/-- C99, the entries chosen to go. After any legal events, a request to expire
`count` entries picks entries from the end of the queue, as many as asked for but
never one of the hot half. -/
theorem C99_chosen_from_the_end (hot : Nat → Bool) (es : List Event) (ho : EventsOk [] es) (count : Nat) :
    ∃ p, (PQ.init hot).events es = some p ∧ ∀ fuel, (order es).length ≤ fuel →
      p.victims fuel count = some (((order es).drop ((order es).length / 2)).reverse.take count) := by
  obtain ⟨p, b, h1, h2, h3⟩ := run_order hot es ho
  have hs := h3.split
  refine ⟨p, h1, fun fuel hf => ?_⟩
  rw [PQ.rel_victims h2 fuel count (by rw [h3.q]; exact hf), BQ.victims, hs.q, List.reverse_append,
    lruGo_cold b.hot _ _ count]
  · intro x hx; exact hs.cold x (by simpa using hx)
  · intro x hx; exact hs.hot x (by simpa using hx)

/-- Events that move entries between the halves, for the theorems of C99:
`C99_queue_order`, `C99_self_check_passes`, `C99_chosen_from_the_end`. -/
def someQueueEvents : List Event :=
  [.create 1, .create 2, .create 3, .hit 2, .unlink 1, .create 4]

instance instDecidableEventOk (l : List Nat) : (e : Event) → Decidable (e.ok l)
  | .create i => inferInstanceAs (Decidable (i ∉ l))
  | .hit i => inferInstanceAs (Decidable (i ∈ l))
  | .unlink i => inferInstanceAs (Decidable (i ∈ l))

instance instDecidableEventsOk : (l : List Nat) → (es : List Event) → Decidable (EventsOk l es)
  | _, [] => inferInstanceAs (Decidable True)
  | l, e :: es => @instDecidableAnd _ _ (instDecidableEventOk l e) (instDecidableEventsOk (e.apply l) es)

example : EventsOk [] someQueueEvents ∧ order someQueueEvents = [2, 4, 3] := by decide

/-- The code on these events. -/
example : ((PQ.init (fun _ => true)).events someQueueEvents).bind (fun p => p.invariant 3) = some true ∧
    ((PQ.init (fun _ => true)).events someQueueEvents).bind (fun p => p.victims 3 7) = some [3, 4] := by
  decide +kernel

/-- The hypotheses of `C99_self_check_exact` are met by a queue that fails the
check: one entry, marked hot, with the midpoint behind it. -/
example : ∃ p : PQ, DL.Represents p.heap 0 (([1] ++ []).map (· + 1)) ∧ p.mid = addr ([] : List Nat).head? ∧
    p.invariant 1 = some false :=
  ⟨{ heap := DL.link (DL.ctor ⟨fun _ => none, fun _ => none⟩ 0) 0 2 0, mid := 0, hot := fun _ => true, odd := true },
    ⟨⟨rfl, rfl, rfl, rfl⟩, by simp⟩, rfl, by decide⟩

/-- A queue that passes the check although going backward is undefined
(`C99_self_check_ignores_backward_links`). -/
example : ∃ p : PQ, p.invariant 1 = some true ∧ DL.backward p.heap 1 (DL.end_ 0) 2 = none :=
  ⟨{ heap := { DL.link (DL.ctor ⟨fun _ => none, fun _ => none⟩ 0) 0 2 0 with pred := fun _ => none }, mid := 2,
     hot := fun _ => false, odd := true }, by decide, by decide⟩

end Hoard.PQ

namespace Hoard.Props
open Demo
variable {K V E : Type} {cfg : Cfg K}

/-- C99, in the cache. After any history of a cache with a limit on the number of
entries, `invariant()` of its recency queue returns true, and iterating over that
queue meets exactly the entries in the hash table, each once. -/
theorem C99_in_the_cache (hc : cfg.Ok) (hm : cfg.maxSize.isSome = true) (obj : Nat → Entry K V E) (h : Hist K V E)
    (hok : HistOk cfg St.init h) {p : PSt K V E} {outs : List (Out K V E)}
    (hr : PSt.run cfg (PSt.init obj) h = some (p, outs)) :
    ∃ es : List Nat, Follows p.tab.next p.tab.head es ∧ ∀ fuel, es.length ≤ fuel →
      p.pq.invariant fuel = some true ∧
      ∃ (b : Nat) (q : List Nat), DL.begin_ p.pq.heap 0 = some b ∧ DL.forward p.pq.heap fuel b (DL.end_ 0) = some (q.map (· + 1)) ∧
        q.Perm es := by
  obtain ⟨p', bs, e, hp⟩ := psim_run hc obj h hok
  rw [hr] at e
  obtain ⟨rfl, rfl⟩ := Prod.mk.inj (Option.some.inj e)
  obtain ⟨hI, hP⟩ := hp.core.bqi hm
  refine ⟨bs.flatten, follows_of_path hp.rep.path, fun fuel hf => ?_⟩
  have hf' : (stateAfter cfg h).bq.q.length ≤ fuel := by rw [hP.length_eq]; exact hf
  refine ⟨PQ.invariant_of_holds hp.core.bqr ⟨rfl, hI⟩ hf', ?_⟩
  obtain ⟨b, h1, h2, _⟩ := DL.C28_iteration_whole _ _ _ hp.core.bqr.links.1 fuel (by simpa using hf')
  exact ⟨b, _, h1, h2, hP⟩

/-- A cache with a limit, filled past it (`C99_in_the_cache`). -/
example : small.Ok ∧ small.maxSize.isSome = true ∧ HistOk small St.init busy ∧
    (PSt.run small (PSt.init anyObj) busy).bind (fun r => r.1.pq.invariant 4) = some true :=
  ⟨nat_ok rfl (by intro d i h; cases h; decide), rfl, by decide, by decide +kernel⟩

end Hoard.Props
