import Verif.PQueue
import Verif.QueueLemmas
import Verif.Props.LinkedList
/-! The pointer level queue acts like the queue on lists. -/
namespace Hoard

/-- The links at addresses `i + 1` with head 0 represent the list of entries `l`,
and only these entries are linked. -/
def LinkRep (H : DL.Heap) (l : List Nat) : Prop :=
  DL.Represents H 0 (l.map (· + 1)) ∧ ∀ i, i ∉ l → H.succ (i + 1) = none

theorem linkRep_good {H : DL.Heap} {l : List Nat} (h : LinkRep H l) :
    DL.Good [0] H (fun _ => l.map (· + 1)) := by
  refine ⟨?_, ?_, ?_⟩
  · intro a ha; obtain rfl : a = 0 := by simpa using ha
    exact h.1
  · intro a ha b hb hne
    simp at ha hb; omega
  · intro e he
    obtain ⟨h1, h2⟩ := he
    cases e with
    | zero => simp at h1
    | succ e =>
      apply h.2 e
      intro hm
      exact h2 0 (by simp) (by simpa using hm)

theorem good_linkRep {H : DL.Heap} {A : DL.Seqs} {l : List Nat} (h : DL.Good [0] H A) (hA : A 0 = l.map (· + 1)) :
    LinkRep H l := by
  refine ⟨hA ▸ h.rep 0 (by simp), ?_⟩
  intro i hi
  apply h.free
  refine ⟨by simp, ?_⟩
  intro a ha
  obtain rfl : a = 0 := by simpa using ha
  rw [hA]; simpa using hi

theorem linkRep_init : LinkRep (DL.ctor ⟨fun _ => none, fun _ => none⟩ 0) [] := by
  refine ⟨⟨⟨rfl, rfl⟩, by simp⟩, ?_⟩
  intro i _; simp [DL.ctor, DL.Heap.setSucc, DL.Heap.setPred]

theorem addr_head (l : List Nat) : addr l.head? = DL.firstOf (l.map (· + 1)) 0 := by
  cases l <;> rfl

theorem addr_last (l : List Nat) : addr l.getLast? = DL.lastOf 0 (l.map (· + 1)) := by
  simp only [DL.lastOf, List.getLast?_map]
  cases l.getLast? <;> rfl

theorem linkRep_ptrs {H : DL.Heap} {l1 l2 : List Nat} (h : LinkRep H (l1 ++ l2)) :
    H.succ (addr l1.getLast?) = some (addr l2.head?) ∧ H.pred (addr l2.head?) = some (addr l1.getLast?) := by
  have := h.1.1
  rw [List.map_append] at this
  rw [addr_head, addr_last]
  exact this.succ_last

theorem linkRep_insert {H : DL.Heap} {l1 l2 : List Nat} {i : Nat} (h : LinkRep H (l1 ++ l2)) (hi : i ∉ l1 ++ l2) :
    LinkRep (DL.link H (addr l1.getLast?) (i + 1) (addr l2.head?)) (l1 ++ i :: l2) := by
  have hg := linkRep_good h
  have hf : DL.Free [0] (fun _ => (l1 ++ l2).map (· + 1)) (i + 1) := by
    refine ⟨by simp, fun _ _ hm => hi ?_⟩
    simpa using hm
  have := DL.good_insert (h := 0) (l1 := l1.map (· + 1)) (l2 := l2.map (· + 1)) hg (by simp) hf (by simp)
  rw [← addr_head, ← addr_last] at this
  exact good_linkRep this (by simp [DL.Seqs.set])

theorem linkRep_unlink {H : DL.Heap} {l1 l2 : List Nat} {i : Nat} (h : LinkRep H (l1 ++ i :: l2)) :
    ∃ H', DL.unlink H (i + 1) = some (H', addr l2.head?) ∧ LinkRep H' (l1 ++ l2) := by
  have hg := linkRep_good h
  have h1 := h.1
  rw [List.map_append, List.map_cons] at h1
  refine ⟨DL.cut H (DL.lastOf 0 (l1.map (· + 1))) (i + 1) (DL.firstOf (l2.map (· + 1)) 0), ?_, ?_⟩
  · rw [(DL.represents_cut h1).1, ← addr_head]
  · have := DL.good_unlink (h := 0) (e := i + 1) (l1 := l1.map (· + 1)) (l2 := l2.map (· + 1)) hg (by simp) (by simp)
    exact good_linkRep this (by simp [DL.Seqs.set])

theorem linkRep_front {H : DL.Heap} {l : List Nat} {i : Nat} (h : LinkRep H l) (hi : i ∉ l) :
    ∃ H', DL.linkFront H 0 (i + 1) = some H' ∧ LinkRep H' (i :: l) := by
  have := linkRep_ptrs (l1 := []) h
  refine ⟨_, ?_, linkRep_insert (l1 := []) h hi⟩
  simp only [DL.linkFront]
  rw [show H.succ 0 = _ from this.1]; rfl

theorem linkRep_back {H : DL.Heap} {l : List Nat} {i : Nat} (h : LinkRep H l) (hi : i ∉ l) :
    ∃ H', DL.linkBack H 0 (i + 1) = some H' ∧ LinkRep H' (l ++ [i]) := by
  have h' : LinkRep H (l ++ []) := by simpa using h
  have := linkRep_ptrs (l2 := []) h'
  refine ⟨_, ?_, linkRep_insert (l2 := []) h' (by simpa using hi)⟩
  simp only [DL.linkBack]
  rw [show H.pred 0 = _ from this.2]; rfl

theorem linkRep_isLinked {H : DL.Heap} {l : List Nat} (h : LinkRep H l) (i : Nat) :
    DL.isLinked H (i + 1) = decide (i ∈ l) := by
  by_cases hi : i ∈ l
  · obtain ⟨l1, l2, rfl⟩ := List.append_of_mem hi
    have h' : LinkRep H ((l1 ++ [i]) ++ l2) := by simpa using h
    have := (linkRep_ptrs h').1
    simp [addr] at this
    simp [DL.isLinked, this]
  · simp [DL.isLinked, h.2 i hi, hi]

/-- The pointer level queue and the queue on lists describe the same queue. -/
structure PQ.Rel (p : PQ) (b : BQ) : Prop where
  links : LinkRep p.heap b.q
  mid : p.mid = addr b.mid
  hot : p.hot = b.hot
  odd : p.odd = b.odd

theorem PQ.rel_init : PQ.Rel (PQ.init (fun _ => false)) BQ.init := ⟨linkRep_init, rfl, rfl, rfl⟩

theorem last_of_ne {l : List Nat} (h : l ≠ []) : ∃ l' x, l = l' ++ [x] :=
  ⟨l.dropLast, l.getLast h, (List.dropLast_concat_getLast h).symm⟩

theorem PQ.rel_onCreate {p : PQ} {b : BQ} (hr : p.Rel b) (hi : b.Inv) {i : Nat} (hn : i ∉ b.q) :
    ∃ p', p.onCreate i = some (p', (b.onCreate i).2) ∧ p'.Rel (b.onCreate i).1 := by
  obtain ⟨hs, cs, h⟩ := hi
  have hlk := hr.links
  rw [h.q] at hlk hn
  have hnd := h.nodup
  rw [h.q] at hnd
  simp only [BQ.onCreate, PQ.onCreate, hr.odd]
  rcases h.lens with ⟨ho, hl⟩ | ⟨ho, hl⟩
  · obtain ⟨m, cs', rfl⟩ : ∃ m cs', cs = m :: cs' := by
      cases cs with
      | nil => simp at hl
      | cons m cs' => exact ⟨m, cs', rfl⟩
    have hmid : b.mid = some m := by simp [h.mid]
    have hmn : m ∉ hs := by
      rw [List.nodup_append] at hnd
      intro hm; exact hnd.2.2 m hm m (by simp) rfl
    have h' : LinkRep p.heap ((hs ++ [m]) ++ cs') := by simpa using hlk
    have hp := linkRep_ptrs h'
    have hins := linkRep_insert h' (i := i) (by simpa using hn)
    simp only [List.getLast?_append, List.getLast?_singleton, Option.some_or] at hp hins
    simp only [ho, hmid, hr.mid, addr, PQ.setHotAt, DL.linkAfter, if_true,
      Option.bind_eq_bind, Option.bind_some]
    rw [show p.heap.succ (m + 1) = _ from hp.1]
    refine ⟨_, rfl, ⟨?_, rfl, ?_, rfl⟩⟩
    · show LinkRep _ (insAfter m i b.q)
      rw [h.q, insAfter_append hmn]
      simpa [addr] using hins
    · simp [hr.hot]
  · have hp := linkRep_ptrs hlk
    have hins := linkRep_insert hlk hn
    simp only [ho, DL.linkBefore, hr.mid, h.mid]
    rw [show p.heap.pred (addr cs.head?) = _ from hp.2]
    refine ⟨_, rfl, ⟨?_, rfl, by simp [hr.hot], rfl⟩⟩
    show LinkRep _ (insBeforePos cs.head? i b.q)
    rw [h.q]
    cases cs with
    | nil => simpa [insBeforePos] using hins
    | cons m cs' =>
      have hmn : m ∉ hs := by
        rw [List.nodup_append] at hnd
        intro hm; exact hnd.2.2 m hm m (by simp) rfl
      simp only [List.head?_cons, insBeforePos]
      rw [insBefore_append hmn]; exact hins

theorem addr_inj {a b : Option Nat} : addr a = addr b ↔ a = b := by
  cases a <;> cases b <;> simp [addr]

theorem erase_mid {l1 l2 : List Nat} {i : Nat} (h : i ∉ l1) : (l1 ++ i :: l2).erase i = l1 ++ l2 := by
  rw [List.erase_append_right _ h]; simp

theorem split_first {l : List Nat} {i : Nat} (h : i ∈ l) : ∃ l1 l2, l = l1 ++ i :: l2 ∧ i ∉ l1 :=
  ⟨_, _, (DL.idxOf_split h).1, (DL.idxOf_split h).2⟩

/-- What `cutOut` does. -/
theorem PQ.rel_cutOut {p : PQ} {b : BQ} (hr : p.Rel b) {i : Nat} (hm : i ∈ b.q) :
    ∃ p', p.cutOut i = some p' ∧ LinkRep p'.heap (b.q.erase i) ∧
      p'.mid = addr (if b.mid = some i then nextOf i b.q else b.mid) ∧ p'.hot = b.hot ∧ p'.odd = b.odd := by
  obtain ⟨l1, l2, hq, hn⟩ := split_first hm
  have hlk := hr.links
  rw [hq] at hlk
  obtain ⟨H', e1, e2⟩ := linkRep_unlink hlk
  refine ⟨{ p with heap := H', mid := if p.mid = i + 1 then addr l2.head? else p.mid }, by simp only [PQ.cutOut]; rw [e1]; rfl,
    ?_, ?_, hr.hot, hr.odd⟩
  · rw [hq, erase_mid hn]; exact e2
  · show (if p.mid = i + 1 then addr l2.head? else p.mid) = _
    have : p.mid = i + 1 ↔ b.mid = some i := by
      rw [hr.mid, show i + 1 = addr (some i) from rfl, addr_inj]
    simp only [this]
    split
    · rw [hq, nextOf_append hn]
    · exact hr.mid

theorem PQ.midBack_spec {p : PQ} {l : List Nat} {m : Option Nat} {hs cs : List Nat} (hl : LinkRep p.heap l)
    (hm : p.mid = addr m) (hsp : l = hs ++ cs) (hmc : m = cs.head?) (hne : hs ≠ []) :
    ∃ x, prevOf m l = some x ∧ p.midBack = some { p with mid := x + 1, hot := setHot p.hot x false } := by
  subst hsp
  have hnd : (hs ++ cs).Nodup := by
    have := (List.nodup_cons.1 hl.1.2).2
    exact List.Pairwise.of_map _ (by intro a b hab e; exact hab (by rw [e])) this
  obtain ⟨hs', x, rfl⟩ := last_of_ne hne
  refine ⟨x, ?_, ?_⟩
  · rw [hmc, prevOf_append hnd]; simp
  · have := (linkRep_ptrs hl).2
    simp only [PQ.midBack, hm, hmc]
    rw [this]
    simp [PQ.setHotAt, addr]

theorem PQ.rel_onHit {p : PQ} {b : BQ} (hr : p.Rel b) (hi : b.Inv) {i : Nat} (hm : i ∈ b.q) :
    ∃ p', p.onHit i = some p' ∧ p'.Rel (b.onHit i) := by
  obtain ⟨hs, cs, h⟩ := hi
  obtain ⟨⟨H1, mm, hh1, oo⟩, e1, l1, m1, h1, o1⟩ := PQ.rel_cutOut hr hm
  simp only at l1 m1 h1 o1
  subst m1 h1 o1
  obtain ⟨H, e2, l2⟩ := linkRep_front (i := i) l1 (h.nodup.not_mem_erase)
  simp only [PQ.onHit, e1]
  simp only [Option.bind_eq_bind, Option.bind_some, e2]
  have hm' := hm
  rw [h.q, List.mem_append] at hm'
  by_cases hh : b.hot i = true
  · simp only [hh, BQ.onHit, if_true]
    exact ⟨_, rfl, ⟨l2, rfl, rfl, rfl⟩⟩
  · have hc : i ∈ cs := by
      rcases hm' with hm' | hm'
      · exact absurd (h.hot i hm') hh
      · exact hm'
    obtain ⟨r1, r2⟩ := BQ.remove_cold h hc
    rw [r2] at l2
    simp only [hh, BQ.onHit, r1, r2]
    obtain ⟨x, x1, x2⟩ := PQ.midBack_spec (p := ⟨H, addr (cs.erase i).head?, setHot b.hot i true, b.odd⟩) (l := i :: (hs ++ cs.erase i))
      (m := (cs.erase i).head?) (hs := i :: hs) (cs := cs.erase i) l2 rfl rfl rfl (by simp)
    rw [x1]
    refine ⟨⟨H, x + 1, setHot (setHot b.hot i true) x false, b.odd⟩, by rw [if_neg (by simp)]; exact x2, ⟨l2, rfl, rfl, rfl⟩⟩

theorem PQ.rel_onUnlink {p : PQ} {b : BQ} (hr : p.Rel b) (hi : b.Inv) {i : Nat} (hm : i ∈ b.q) :
    ∃ p', p.onUnlink i = some p' ∧ p'.Rel (b.onUnlink i) := by
  obtain ⟨hs, cs, h⟩ := hi
  obtain ⟨⟨H1, mm, hh1, oo⟩, e1, l1, m1, h1, o1⟩ := PQ.rel_cutOut hr hm
  simp only at l1 m1 h1 o1
  subst m1 h1 o1
  simp only [PQ.onUnlink, e1]
  simp only [Option.bind_eq_bind, Option.bind_some]
  have hm' := hm
  rw [h.q, List.mem_append] at hm'
  by_cases hh : b.hot i = true
  · have hc : i ∈ hs := by
      rcases hm' with hm' | hm'
      · exact hm'
      · rw [h.cold i hm'] at hh; simp at hh
    obtain ⟨r1, r2⟩ := BQ.remove_hot h hc
    rw [r2] at l1
    simp only [hh, if_true, BQ.onUnlink, r1, r2]
    rcases h.lens with ⟨ho, hl⟩ | ⟨ho, hl⟩
    · obtain ⟨m, cs', rfl⟩ : ∃ m cs', cs = m :: cs' := by
        cases cs with
        | nil => simp at hl
        | cons m cs' => exact ⟨m, cs', rfl⟩
      have h' : LinkRep H1 ((hs.erase i ++ [m]) ++ cs') := by simpa using l1
      have hp := (linkRep_ptrs h').1
      simp only [List.getLast?_append, List.getLast?_singleton, Option.some_or, addr] at hp
      have hmn : m ∉ hs.erase i := by
        intro hx
        have := h.nodup
        rw [h.q, List.nodup_append] at this
        exact this.2.2 m (List.mem_of_mem_erase hx) m (by simp) rfl
      simp only [ho, List.head?_cons, addr, PQ.setHotAt, if_true]
      simp only [Option.bind_some]
      rw [show H1.succ (m + 1) = _ from hp]
      refine ⟨_, rfl, ⟨l1, ?_, rfl, rfl⟩⟩
      show addr cs'.head? = addr (nextOf m (hs.erase i ++ m :: cs'))
      rw [nextOf_append hmn]
    · simp only [ho]
      exact ⟨_, rfl, ⟨l1, rfl, rfl, rfl⟩⟩
  · have hc : i ∈ cs := by
      rcases hm' with hm' | hm'
      · exact absurd (h.hot i hm') hh
      · exact hm'
    obtain ⟨r1, r2⟩ := BQ.remove_cold h hc
    rw [r2] at l1
    simp only [hh, BQ.onUnlink, r1, r2]
    rcases h.lens with ⟨ho, hl⟩ | ⟨ho, hl⟩
    · simp only [ho]
      exact ⟨_, rfl, ⟨l1, rfl, rfl, rfl⟩⟩
    · have hne : hs ≠ [] := by
        rintro rfl
        have := List.length_pos_of_mem hc
        simp at hl; simp [hl] at this
      obtain ⟨x, x1, x2⟩ := PQ.midBack_spec (p := ⟨H1, addr (cs.erase i).head?, b.hot, b.odd⟩) (m := (cs.erase i).head?) l1 rfl rfl rfl hne
      rw [x1]
      simp only [ho] at x2 ⊢
      refine ⟨⟨H1, x + 1, setHot b.hot x false, true⟩, by rw [if_neg (by simp), if_neg (by simp), x2]; rfl, ⟨l1, rfl, rfl, rfl⟩⟩

theorem PQ.lruLoop_spec {p : PQ} : ∀ (pre post : List Nat) (fuel c : Nat), LinkRep p.heap (pre ++ post) →
    pre.length ≤ fuel → p.lruLoop fuel (addr post.head?) c = some (BQ.lruGo p.hot pre.reverse c) := by
  intro pre
  induction h : pre.length generalizing pre with
  | zero =>
    intro post fuel c hl hf
    obtain rfl := List.length_eq_zero_iff.1 h
    cases c with
    | zero => simp [PQ.lruLoop, BQ.lruGo]
    | succ c =>
      have := (linkRep_ptrs (l1 := []) hl).1
      rw [PQ.lruLoop.eq_def]
      simp only [show p.heap.succ 0 = _ from this]
      simp [BQ.lruGo]
  | succ n ih =>
    intro post fuel c hl hf
    have hne : pre ≠ [] := by rintro rfl; simp at h
    obtain ⟨pre', x, rfl⟩ := last_of_ne hne
    cases c with
    | zero => simp [PQ.lruLoop, BQ.lruGo]
    | succ c =>
      have h0 := (linkRep_ptrs (l1 := []) (l2 := pre' ++ [x] ++ post) hl).1
      have hp := (linkRep_ptrs hl).2
      have hnd : (pre' ++ [x] ++ post).Nodup := by
        have := (List.nodup_cons.1 hl.1.2).2
        exact List.Pairwise.of_map _ (by intro a b hab e; exact hab (by rw [e])) this
      have hne2 : ¬ addr post.head? = addr (pre' ++ [x] ++ post).head? := by
        rw [addr_inj]
        cases post with
        | nil => cases pre' <;> simp
        | cons y ys =>
          intro e
          rw [List.nodup_append] at hnd
          cases pre' with
          | nil =>
            have e' : y = x := by simpa using e
            exact hnd.2.2 x (by simp) y (by simp) e'.symm
          | cons z zs =>
            have e' : y = z := by simpa using e
            exact hnd.2.2 z (by simp) y (by simp) e'.symm
      obtain ⟨fuel, rfl⟩ : ∃ f, fuel = f + 1 := ⟨fuel - 1, by omega⟩
      rw [PQ.lruLoop.eq_def]
      simp only [show p.heap.succ 0 = _ from h0]
      simp only [Option.bind_eq_bind, Option.bind_some, hne2, if_false]
      rw [hp]
      simp only [List.getLast?_append, List.getLast?_singleton, Option.some_or, addr, Option.bind_some, List.reverse_append,
        List.reverse_singleton, List.singleton_append, BQ.lruGo]
      by_cases hh : p.hot x = true
      · simp [hh]
      · simp only [hh]
        have := ih pre' (by simpa using h) (x :: post) fuel c (by simpa using hl) (by omega)
        simp only [List.head?_cons, addr] at this
        rw [this]; simp

theorem PQ.rel_victims {p : PQ} {b : BQ} (hr : p.Rel b) (fuel c : Nat) (hf : b.q.length ≤ fuel) :
    p.victims fuel c = some (b.victims c) := by
  have := PQ.lruLoop_spec (p := p) b.q [] fuel c (by simpa using hr.links) hf
  rw [PQ.victims, BQ.victims, ← hr.hot]
  exact this

end Hoard
