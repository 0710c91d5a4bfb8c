import Verif.Spec.QueueOrder
import Verif.PQueueLemmas
import Verif.QueueLemmas
/-! Lemmas on iterators and on the self-check of the recency queue. -/
namespace Hoard.DL

theorem forward_self (H : Heap) (fuel a : Nat) : forward H fuel a a = some [] := by
  rw [forward.eq_def]; simp

theorem backward_self (H : Heap) (fuel a : Nat) : backward H fuel a a = some [] := by
  rw [backward.eq_def]; simp

theorem forward_seg {H : Heap} : ∀ (l : List Nat) (a b fuel : Nat), Seg H a l b → b ∉ a :: l → l.length < fuel →
    forward H fuel a b = some (a :: l)
  | [], a, b, fuel, h, hb, hf => by
    have hab : a ≠ b := fun e => hb (by simp [e])
    obtain ⟨f, rfl⟩ : ∃ f, fuel = f + 1 := ⟨fuel - 1, by simp at hf; omega⟩
    rw [forward.eq_def]; simp only [hab, if_false, inc, h.1]
    simp [forward_self]
  | x :: xs, a, b, fuel, h, hb, hf => by
    have hab : a ≠ b := fun e => hb (by simp [e])
    obtain ⟨f, rfl⟩ : ∃ f, fuel = f + 1 := ⟨fuel - 1, by simp at hf; omega⟩
    rw [forward.eq_def]; simp only [hab, if_false, inc, h.1]
    have := forward_seg xs x b f h.2.2 (fun hm => hb (List.mem_cons_of_mem _ hm)) (by simp at hf; omega)
    simp [this]

/-- From the first link of `l2` to the first link of what follows it. -/
theorem forward_mid {H : Heap} {h : Nat} {l1 l2 l3 : List Nat} (hr : Represents H h (l1 ++ (l2 ++ l3))) {fuel : Nat}
    (hf : l2.length ≤ fuel) :
    forward H fuel (firstOf (l2 ++ l3) h) (firstOf l3 h) = some l2 := by
  cases l2 with
  | nil => exact forward_self H fuel _
  | cons x l2 =>
    have hs : Seg H x (l2 ++ l3) h := (Seg.append.1 hr.1).2
    have hnd := ring_nodup hr.2
    cases l3 with
    | nil =>
      refine forward_seg l2 x h fuel (by simpa using hs) ?_ (by simp at hf; omega)
      intro hm
      simp only [List.append_nil, List.nodup_append] at hnd
      exact hnd.2.2 h (by simp; grind) h (by simp) rfl
    | cons y l3 =>
      refine forward_seg l2 x y fuel (Seg.append.1 hs).1 ?_ (by simp at hf; omega)
      intro hm
      have hn := (List.nodup_cons.1 hr.2).2
      have hn2 := (List.nodup_append.1 hn).2.1
      rw [List.cons_append] at hn2
      have : ((x :: l2) ++ y :: l3).Nodup := by simpa using hn2
      exact (List.nodup_append.1 this).2.2 y hm y (by simp) rfl

theorem forwardPost_eq (H : Heap) : ∀ (fuel a b : Nat), forwardPost H fuel a b = forward H fuel a b := by
  intro fuel
  induction fuel with
  | zero => intro a b; rw [forwardPost.eq_def, forward.eq_def]
  | succ f ih =>
    intro a b
    rw [forwardPost.eq_def, forward.eq_def]
    by_cases h : a = b
    · simp [h]
    · simp only [h, if_false, postInc, inc]
      cases H.succ a with
      | none => rfl
      | some s => simp [ih]

theorem lastOf_snoc (a : Nat) (l : List Nat) (x : Nat) : lastOf a (l ++ [x]) = x := by simp [lastOf]

theorem backward_seg {H : Heap} : ∀ (n : Nat) (l : List Nat) (a b fuel : Nat), l.length = n → Seg H a l b → b ∉ a :: l →
    (a :: l).Nodup → l.length < fuel → backward H fuel b a = some (l.reverse ++ [a])
  | 0, l, a, b, fuel, hn, h, hb, _, hf => by
    obtain rfl : l = [] := List.length_eq_zero_iff.1 hn
    have hab : ¬ b = a := fun e => hb (by simp [e])
    obtain ⟨f, rfl⟩ : ∃ f, fuel = f + 1 := ⟨fuel - 1, by simp at hf; omega⟩
    rw [backward.eq_def]; simp only [hab, if_false, dec, h.2]
    simp [backward_self]
  | n + 1, l, a, b, fuel, hn, h, hb, hd, hf => by
    obtain ⟨l', x, rfl⟩ := last_of_ne (l := l) (by rintro rfl; simp at hn)
    have hab : ¬ b = a := fun e => hb (by simp [e])
    obtain ⟨f, rfl⟩ : ∃ f, fuel = f + 1 := ⟨fuel - 1, by simp at hf; omega⟩
    obtain ⟨h1, h2⟩ := Seg.append.1 h
    rw [backward.eq_def]; simp only [hab, if_false, dec, h2.2]
    have hd' : ((a :: l') ++ [x]).Nodup := by simpa using hd
    have hx : x ∉ a :: l' := fun hm => (List.nodup_append.1 hd').2.2 x hm x (by simp) rfl
    have := backward_seg n l' a x f (by simpa using hn) h1 hx (List.nodup_append.1 hd').1 (by simp at hf; omega)
    simp [this]

/-- From the position after `l2` back to the first link of `l2`. -/
theorem backward_mid {H : Heap} {h : Nat} {l1 l2 l3 : List Nat} (hr : Represents H h (l1 ++ (l2 ++ l3))) {fuel : Nat}
    (hf : l2.length ≤ fuel) :
    backward H fuel (firstOf l3 h) (firstOf (l2 ++ l3) h) = some l2.reverse := by
  cases l2 with
  | nil => rw [backward.eq_def]; simp
  | cons x l2 =>
    have hs : Seg H x (l2 ++ l3) h := (Seg.append.1 hr.1).2
    have hnd := ring_nodup hr.2
    have hn := (List.nodup_cons.1 hr.2).2
    have hn2 := (List.nodup_append.1 hn).2.1
    have hn3 : ((x :: l2) ++ l3).Nodup := by simpa using hn2
    rw [List.reverse_cons]
    cases l3 with
    | nil =>
      refine backward_seg _ l2 x h fuel rfl (by simpa using hs) ?_ (List.nodup_append.1 hn3).1 (by simp at hf; omega)
      intro hm
      simp only [List.append_nil, List.nodup_append] at hnd
      exact hnd.2.2 h (by simp; grind) h (by simp) rfl
    | cons y l3 =>
      refine backward_seg _ l2 x y fuel rfl (Seg.append.1 hs).1 ?_ (List.nodup_append.1 hn3).1 (by simp at hf; omega)
      intro hm
      exact (List.nodup_append.1 hn3).2.2 y hm y (by simp) rfl

end Hoard.DL

namespace Hoard.PQ

theorem allHot_spec (p : PQ) (l : List Nat) : p.allHot (l.map (· + 1)) = some (l.all p.hot) := by
  induction l with
  | nil => rfl
  | cons x l ih => simp only [List.map_cons, allHot, hotAt, List.all_cons]; cases h : p.hot x <;> simp [ih]

theorem noneHot_spec (p : PQ) (l : List Nat) : p.noneHot (l.map (· + 1)) = some (l.all (fun x => !p.hot x)) := by
  induction l with
  | nil => rfl
  | cons x l ih => simp only [List.map_cons, noneHot, hotAt, List.all_cons]; cases h : p.hot x <;> simp [ih]

theorem invariant_spec {p : PQ} {l1 l2 : List Nat} (hr : DL.Represents p.heap 0 ((l1 ++ l2).map (· + 1)))
    (hm : p.mid = addr l2.head?) {fuel : Nat} (hf : (l1 ++ l2).length ≤ fuel) :
    p.invariant fuel = some (l1.all p.hot && l2.all (fun x => !p.hot x) &&
      (((l1 ++ l2).length % 2 == 1) == p.odd) && (l1.length == (l1 ++ l2).length / 2)) := by
  rw [List.map_append] at hr
  rw [addr_head] at hm
  have hb : DL.begin_ p.heap 0 = some (DL.firstOf (l1.map (· + 1) ++ l2.map (· + 1)) 0) :=
    (hr.1.succ_last (l1 := [])).1
  have h1 := DL.forward_mid (l1 := []) hr (fuel := fuel) (by simp at hf ⊢; omega)
  have h2 := DL.forward_mid (l1 := l1.map (· + 1)) (l2 := l2.map (· + 1)) (l3 := []) (by simpa using hr)
    (fuel := fuel) (by simp at hf ⊢; omega)
  rw [List.append_nil] at h2
  have h2' : DL.forward p.heap fuel (DL.firstOf (l2.map (· + 1)) 0) (DL.end_ 0) = some (l2.map (· + 1)) := h2
  unfold invariant
  simp only [hb, hm, h1, h2', allHot_spec, noneHot_spec, Option.bind_eq_bind, Option.bind_some, List.length_map,
    List.length_append]

theorem rel_initHot (hot : Nat → Bool) : PQ.Rel (PQ.init hot) { BQ.init with hot } := ⟨linkRep_init, rfl, rfl, rfl⟩

theorem inv_initHot (hot : Nat → Bool) : BQ.Inv { BQ.init with hot } := ⟨[], [], by constructor <;> simp [BQ.init]⟩

/-- The queue holds the sequence `l`, its first half hot, its midpoint at the rest. -/
structure Holds (b : BQ) (l : List Nat) : Prop where
  q : b.q = l
  shape : ∃ hs cs, b.Shape hs cs

theorem Holds.split {b : BQ} {l : List Nat} (h : Holds b l) :
    b.Shape (l.take (l.length / 2)) (l.drop (l.length / 2)) := by
  obtain ⟨hs, cs, s⟩ := h.shape
  have hq := s.q; have hl := s.len
  rw [h.q] at hq hl
  have h1 : l.take (l.length / 2) = hs := by rw [← hl, hq]; simp
  have h2 : l.drop (l.length / 2) = cs := by rw [← hl, hq]; simp
  rw [h1, h2]; exact s

theorem split_unique {hs cs l : List Nat} {n : Nat} (h : hs ++ cs = l) (hn : hs.length = n) :
    hs = l.take n ∧ cs = l.drop n := by
  subst h; subst hn; simp

theorem step_holds {p : PQ} {b : BQ} {l : List Nat} (hr : p.Rel b) (hh : Holds b l) (e : Event) (he : e.ok l) :
    ∃ p' b', p.event e = some p' ∧ p'.Rel b' ∧ Holds b' (e.apply l) := by
  have hs := hh.split
  cases e with
  | create i =>
    have hi : i ∉ b.q := by rw [hh.q]; exact he
    obtain ⟨p', h1, h2⟩ := PQ.rel_onCreate hr hh.shape hi
    obtain ⟨hs', cs', h3, h4, _⟩ := BQ.shape_onCreate hs hi
    refine ⟨p', _, by simp [event, h1], h2, ?_, ⟨_, _, h3⟩⟩
    have hlen := h3.len
    rw [h3.q] at hlen
    rw [List.take_append_drop] at h4
    have hll := congrArg List.length h4
    obtain ⟨e1, e2⟩ := split_unique h4 (n := (l.length + 1) / 2) (by simp at hlen hll ⊢; omega)
    rw [h3.q, e1, e2]; rfl
  | hit i =>
    have hi : i ∈ b.q := by rw [hh.q]; exact he
    obtain ⟨p', h1, h2⟩ := PQ.rel_onHit hr hh.shape hi
    obtain ⟨hs', cs', h3, h4⟩ := BQ.shape_onHit hs hi
    refine ⟨p', _, by simp [event, h1], h2, ?_, ⟨_, _, h3⟩⟩
    rw [h3.q, h4, List.take_append_drop]; rfl
  | unlink i =>
    have hi : i ∈ b.q := by rw [hh.q]; exact he
    obtain ⟨p', h1, h2⟩ := PQ.rel_onUnlink hr hh.shape hi
    obtain ⟨hs', cs', h3, h4⟩ := BQ.shape_onUnlink hs hi
    refine ⟨p', _, by simp [event, h1], h2, ?_, ⟨_, _, h3⟩⟩
    rw [h3.q, h4, List.take_append_drop]; rfl

theorem run_holds : ∀ (es : List Event) {p : PQ} {b : BQ} {l : List Nat}, p.Rel b → Holds b l → EventsOk l es →
    ∃ p' b', p.events es = some p' ∧ p'.Rel b' ∧ Holds b' (es.foldl Event.apply l)
  | [], p, b, l, hr, hh, _ => ⟨p, b, rfl, hr, hh⟩
  | e :: es, p, b, l, hr, hh, ho => by
    obtain ⟨p1, b1, h1, h2, h3⟩ := step_holds hr hh e ho.1
    obtain ⟨p2, b2, h4, h5, h6⟩ := run_holds es h2 h3 ho.2
    exact ⟨p2, b2, by simp [events, h1, h4], h5, h6⟩

/-- A queue that holds a sequence passes its self-check. -/
theorem invariant_of_holds {p : PQ} {b : BQ} {l : List Nat} (h2 : p.Rel b) (h3 : Holds b l) {fuel : Nat}
    (hf : l.length ≤ fuel) : p.invariant fuel = some true := by
  have hl : LinkRep p.heap l := h3.q ▸ h2.links
  have hs := h3.split
  have hr := hl.1
  rw [← List.take_append_drop (l.length / 2) l] at hr
  rw [invariant_spec hr (by rw [h2.mid, hs.mid]) (by simpa using hf), h2.hot, h2.odd, hs.odd, h3.q,
    List.take_append_drop]
  have a1 : (l.take (l.length / 2)).all b.hot = true := List.all_eq_true.2 hs.hot
  have a2 : (l.drop (l.length / 2)).all (fun x => !b.hot x) = true :=
    List.all_eq_true.2 (fun x hx => by simp [hs.cold x hx])
  rw [a1, a2]
  by_cases hp : l.length % 2 = 1
  · simp [hp]; omega
  · simp [hp]; omega

/-- What is known after any legal events. -/
theorem run_order (hot : Nat → Bool) (es : List Event) (ho : EventsOk [] es) :
    ∃ p b, (PQ.init hot).events es = some p ∧ p.Rel b ∧ Holds b (order es) :=
  run_holds es (rel_initHot hot) ⟨rfl, inv_initHot hot⟩ ho

theorem lruGo_cold (hot : Nat → Bool) : ∀ (cs hs : List Nat) (c : Nat), (∀ x ∈ cs, hot x = false) →
    (∀ x ∈ hs, hot x = true) → BQ.lruGo hot (cs ++ hs) c = cs.take c
  | [], [], c, _, _ => by cases c <;> rfl
  | [], y :: hs, c, _, hh => by cases c <;> simp [BQ.lruGo, hh y]
  | x :: cs, hs, 0, _, _ => by simp [BQ.lruGo]
  | x :: cs, hs, c + 1, hc, hh => by
    have := lruGo_cold hot cs hs c (fun y hy => hc y (by simp [hy])) hh
    simp [BQ.lruGo, hc x, this]

end Hoard.PQ
