import Verif.QueueLemmas
import Verif.Spec.Recency
/-! C12, C13: the recency queue. -/
namespace Hoard
open Spec

/-- The model's reaction to an event. -/
def BQ.apply (s : BQ) : QOp → BQ
  | .create v => (s.onCreate v).1
  | .hit v => s.onHit v
  | .unlink v => s.onUnlink v

theorem BQ.Shape.take {s : BQ} {hs cs : List Nat} (h : s.Shape hs cs) :
    hs = s.q.take (s.q.length / 2) ∧ cs = s.q.drop (s.q.length / 2) := by
  rw [← h.len, h.q]; simp

theorem BQ.apply_shape {s : BQ} (o : QOp) (h : s.Inv) (ho : o.ok s.q) :
    (s.apply o).Inv ∧ (s.apply o).q = recency s.q o := by
  obtain ⟨hs, cs, h⟩ := h
  cases o with
  | create v =>
    obtain ⟨hs', cs', h', e, _⟩ := shape_onCreate h ho
    refine ⟨⟨_, _, h'⟩, ?_⟩
    show (s.onCreate v).1.q = _
    have hl : hs'.length = (s.q.length + 1) / 2 := by
      have h1 := h'.len
      have h2 := congrArg List.length h'.q
      have h3 := congrArg List.length e
      have h4 := congrArg List.length h.q
      simp at h2 h3 h4; omega
    rw [h'.q, recency, ← hl, h.q, ← e]; simp
  | hit v =>
    obtain ⟨hs', cs', h', e⟩ := shape_onHit h ho
    refine ⟨⟨_, _, h'⟩, ?_⟩
    show (s.onHit v).q = _
    rw [h'.q, e, recency, h.q]
  | unlink v =>
    obtain ⟨hs', cs', h', e⟩ := shape_onUnlink h ho
    refine ⟨⟨_, _, h'⟩, ?_⟩
    show (s.onUnlink v).q = _
    rw [h'.q, e, recency, h.q]

/-- C13. After any sequence of insertions, hits and removals the queue
represents exactly the specified recency order, contains each entry once, the
first half (rounded down) is hot and the rest is cold, and no end position was
ever dereferenced. -/
theorem C13_recency_balanced (os : List QOp) (hok : QOk [] os) :
    let s := os.foldl BQ.apply BQ.init
    s.q = os.foldl recency [] ∧ s.q.Nodup ∧ s.ub = false ∧
    (∀ x ∈ s.q, s.hot x = true ↔ x ∈ hotPart s.q) := by
  suffices H : ∀ (os : List QOp) (s : BQ), s.Inv → QOk s.q os →
      (os.foldl BQ.apply s).Inv ∧ (os.foldl BQ.apply s).q = os.foldl recency s.q by
    obtain ⟨⟨hs, cs, h⟩, h2⟩ := H os BQ.init BQ.inv_init hok
    refine ⟨h2, h.nodup, h.noub, fun x hx => ?_⟩
    obtain ⟨e1, e2⟩ := h.take
    rw [hotPart, ← e1]
    constructor
    · intro hh
      rw [h.q, List.mem_append] at hx
      rcases hx with hx | hx
      · exact hx
      · rw [h.cold x hx] at hh; cases hh
    · exact h.hot x
  intro os
  induction os with
  | nil => intro s h _; exact ⟨h, rfl⟩
  | cons o os ih =>
    intro s h hok
    obtain ⟨h1, h2⟩ := BQ.apply_shape o h hok.1
    have := ih (s.apply o) h1 (h2 ▸ hok.2)
    simpa [h2] using this

/-- The hypotheses of `C13_recency_balanced` are met by a mixed sequence. -/
example : QOk [] [.create 1, .create 2, .create 3, .hit 2, .unlink 1, .create 4, .hit 4] := by
  simp [QOk, QOp.ok, recency]

/-- C12. Asked to evict `n` entries, the queue picks exactly the last `n`
entries of the recency order, from the back, sparing the hot half. -/
theorem C12_evicts_cold_tail (os : List QOp) (hok : QOk [] os) (n : Nat) :
    (os.foldl BQ.apply BQ.init).victims n = evict (os.foldl recency []) n := by
  suffices H : ∀ (os : List QOp) (s : BQ), s.Inv → QOk s.q os →
      (os.foldl BQ.apply s).Inv ∧ (os.foldl BQ.apply s).q = os.foldl recency s.q by
    obtain ⟨⟨hs, cs, h⟩, h2⟩ := H os BQ.init BQ.inv_init hok
    have h2' : (os.foldl BQ.apply BQ.init).q = os.foldl recency [] := h2
    rw [BQ.victims_eq h, ← h2', evict, ← h.take.2]
  intro os
  induction os with
  | nil => intro s h _; exact ⟨h, rfl⟩
  | cons o os ih =>
    intro s h hok
    obtain ⟨h1, h2⟩ := BQ.apply_shape o h hok.1
    have := ih (s.apply o) h1 (h2 ▸ hok.2)
    simpa [h2] using this

/-- C12, consequence: with at least two entries, the entry hit last is not
among the victims of any eviction right after one further insertion. -/
theorem C12_hit_survives_next_insertion (os : List QOp) (hok : QOk [] os) (v w n : Nat)
    (hv : v ∈ os.foldl recency []) (hw : w ∉ os.foldl recency []) :
    v ∉ ((os ++ [QOp.hit v, QOp.create w]).foldl BQ.apply BQ.init).victims n := by
  have happ : ∀ (os ps : List QOp) (l : List Nat), QOk l os → QOk (os.foldl recency l) ps →
      QOk l (os ++ ps) := by
    intro os
    induction os with
    | nil => intro ps l _ h; exact h
    | cons o os ih => intro ps l h1 h2; exact ⟨h1.1, ih ps _ h1.2 h2⟩
  have hnd : (os.foldl recency []).Nodup := by
    have := C13_recency_balanced os hok
    rw [← this.1]; exact this.2.1
  generalize hl : os.foldl recency [] = l at hv hw hnd
  have hvw : v ≠ w := fun e => hw (e ▸ hv)
  have hok2 : QOk [] (os ++ [.hit v, .create w]) := by
    apply happ _ _ _ hok
    rw [hl]
    refine ⟨hv, ?_, trivial⟩
    simp only [QOp.ok, recency, List.mem_cons, not_or]
    exact ⟨Ne.symm hvw, fun h => hw (List.mem_of_mem_erase h)⟩
  rw [C12_evicts_cold_tail _ hok2]
  rw [List.foldl_append, hl]
  simp only [List.foldl_cons, List.foldl_nil, recency, evict, List.length_cons]
  intro hmem
  have hmem := List.mem_of_mem_take hmem
  rw [List.mem_reverse] at hmem
  have hpos := List.length_pos_of_mem hv
  have hle : (l.erase v).length + 1 = l.length := by rw [List.length_erase_of_mem hv]; omega
  have hv' : v ∉ l.erase v := hnd.not_mem_erase
  have hlen : (List.take (((l.erase v).length + 1 + 1) / 2) (v :: l.erase v) ++
      w :: List.drop (((l.erase v).length + 1 + 1) / 2) (v :: l.erase v)).length = l.length + 1 := by
    simp; omega
  rw [hlen, hle] at hmem
  have h1 : (l.length + 1) / 2 = (l.length - 1) / 2 + 1 := by omega
  rw [h1, List.take_succ_cons, List.cons_append, List.drop_succ_cons, List.drop_succ_cons] at hmem
  have hmem := List.mem_of_mem_drop hmem
  simp only [List.mem_append, List.mem_cons] at hmem
  rcases hmem with h | h | h
  · exact hv' (List.mem_of_mem_take h)
  · exact hvw h
  · exact hv' (List.mem_of_mem_drop h)

/-- A case meeting the hypotheses of `C12_hit_survives_next_insertion`. -/
example : QOk [] [.create 1, .create 2] ∧ (2 : Nat) ∈ [QOp.create 1, .create 2].foldl recency [] ∧
    (3 : Nat) ∉ [QOp.create 1, .create 2].foldl recency [] := by
  simp [QOk, QOp.ok, recency]

end Hoard
