import Verif.MachineCore
import Verif.ChainLemmas
import Verif.CacheOps
/-! Helper lemmas: walks along the chain that remove entries. -/
namespace Hoard
open Chain (Rep slotOf Slot)
variable {K V E : Type}

/-- The pointer-level state `p` implements the state `s`; `bs` are the buckets. -/
structure PSim (cfg : Cfg K) (p : PSt K V E) (s : St K V E) (bs : List (List Nat)) (x : List Nat) : Prop where
  core : Core cfg p s bs.flatten x
  rep : Rep p.tab bs
  size : p.tab.size = bs.flatten.length
  tbl : s.tbl = bs.map (·.map p.obj)
  hsh : ∀ i ∈ bs.flatten, p.tab.hash i = cfg.hash (p.obj i).key
  nxt : ∀ i, i ∉ bs.flatten → p.tab.next i = none

/-- Take the entry `i` out of its bucket. -/
def St.cut (s : St K V E) (i : Nat) : St K V E := { s with tbl := s.tbl.map (·.filter (fun e => e.id != i)) }

/-- A walk, step by step: `es` are the entries still to visit. -/
def gfold (cfg : Cfg K) (act : Nat → Entry K V E → Act V E) :
    St K V E → List (Entry K V E) → St K V E × Option (Nat × Look V E)
  | s, [] => (s, none)
  | s, e :: es =>
    match act (cfg.hash e.key) e with
    | .keep => gfold cfg act s es
    | .mark => gfold cfg act (s.modify e.id (·.upd .markExpired)) es
    | .drop => gfold cfg act (disposeOne cfg (s.cut e.id) e) es
    | .stop l => (s, some (e.id, l))

variable {cfg : Cfg K} {p : PSt K V E} {s : St K V E} {bs : List (List Nat)} {x : List Nat}

theorem PSim.nd (h : PSim cfg p s bs x) : bs.flatten.Nodup := h.rep.nodup

theorem append_cons_unique {a b c d : List Nat} {i : Nat} (h : a ++ i :: b = c ++ i :: d) (hn : (a ++ i :: b).Nodup) :
    a = c ∧ b = d := by
  have h1 : i ∉ a := by
    rw [List.nodup_append] at hn; intro hm; exact hn.2.2 i hm i (by simp) rfl
  have h2 : i ∉ c := by
    rw [h, List.nodup_append] at hn; intro hm; exact hn.2.2 i hm i (by simp) rfl
  induction a generalizing c with
  | nil =>
    cases c with
    | nil => simpa using h
    | cons y c => simp at h; exact absurd (by simp [h.1]) h2
  | cons y a ih =>
    cases c with
    | nil => simp at h; exact absurd (by simp [h.1]) h1
    | cons z c =>
      simp only [List.cons_append, List.cons.injEq] at h
      obtain ⟨rfl, h⟩ := h
      have hn' : (a ++ i :: b).Nodup := by
        rw [List.cons_append, List.nodup_cons] at hn; exact hn.2
      have := ih h hn' (fun hm => h1 (by simp [hm])) (fun hm => h2 (by simp [hm]))
      exact ⟨by rw [this.1], this.2⟩

/-- Removing the element after `pre`. -/
theorem PSim.drop (h : PSim cfg p s bs x) {pre post : List Nat} {i : Nat} (hb : bs.flatten = pre ++ i :: post) :
    ∃ p' bs', p.unlinkDispose cfg (slotOf p.tab.own pre) = some p' ∧
      PSim cfg p' (disposeOne cfg (s.cut i) (p.obj i)) bs' x ∧ bs'.flatten = pre ++ post ∧ bs'.length = bs.length ∧
      p'.tab.own = p.tab.own ∧ (∀ j, j ≠ i → p'.obj j = p.obj j) ∧ p'.handles = p.handles ∧
      p'.tab.slots.length = p.tab.slots.length := by
  have hi : i ∈ bs.flatten := by rw [hb]; simp
  obtain ⟨b, hbm, hib⟩ := List.mem_flatten.1 hi
  obtain ⟨as, cs, rfl⟩ := List.append_of_mem hbm
  obtain ⟨b1, b2, rfl⟩ := List.append_of_mem hib
  have hfl : (as ++ (b1 ++ i :: b2) :: cs).flatten = (as.flatten ++ b1) ++ i :: (b2 ++ cs.flatten) := by simp
  have hnd := h.nd
  have hfl' := hfl
  rw [hb] at hfl'
  obtain ⟨rfl, rfl⟩ := append_cons_unique hfl' (hb ▸ hnd)
  obtain ⟨c', h1, h2, h3, h4, h5, h6, h7⟩ := Chain.rep_unlink h.rep
  have hni : i ∉ (as.flatten ++ b1) ++ (b2 ++ cs.flatten) := by
    rw [hfl] at hnd
    rw [List.nodup_append, List.nodup_cons] at hnd
    intro hm
    rcases List.mem_append.1 hm with hm | hm
    · exact hnd.2.2 i hm i (by simp) rfl
    · exact hnd.2.1.1 hm
  have hoid : ∀ j ∈ (as ++ (b1 ++ i :: b2) :: cs).flatten, (p.obj j).id = j := h.core.oid
  have hkeep : ∀ b : List Nat, (∀ j ∈ b, j ∈ (as ++ (b1 ++ i :: b2) :: cs).flatten) → i ∉ b →
      (b.map p.obj).filter (fun e => e.id != i) = b.map p.obj := by
    intro b hb hnb
    rw [List.filter_eq_self]
    intro e he
    obtain ⟨j, hj, rfl⟩ := List.mem_map.1 he
    rw [hoid j (hb j hj)]
    simp only [bne_iff_ne]; rintro rfl; exact hnb hj
  have htbl : (s.cut i).tbl = (as ++ (b1 ++ b2) :: cs).map (·.map p.obj) := by
    simp only [St.cut, h.tbl, List.map_append, List.map_cons, List.map_map]
    have hA : ∀ bs : List (List Nat), (∀ b ∈ bs, (∀ j ∈ b, j ∈ (as ++ (b1 ++ i :: b2) :: cs).flatten) ∧ i ∉ b) →
        bs.map ((fun b => b.filter (fun e => e.id != i)) ∘ (fun b => b.map p.obj)) = bs.map (·.map p.obj) := by
      intro bs hbs
      apply List.map_congr_left
      intro b hb
      simp only [Function.comp]
      exact hkeep b (hbs b hb).1 (hbs b hb).2
    rw [hA as, hA cs]
    · congr 2
      rw [List.filter_append, List.filter_cons]
      have hii : (p.obj i).id = i := hoid i hi
      rw [if_neg (by simp [hii])]
      rw [hkeep b1, hkeep b2]
      · intro j hj; simp [hj]
      · intro hm; exact hni (by simp [hm])
      · intro j hj; simp [hj]
      · intro hm; exact hni (by simp [hm])
    · intro b hb
      refine ⟨fun j hj => ?_, fun hm => hni ?_⟩
      · simp only [List.mem_flatten]; exact ⟨b, by simp [hb], hj⟩
      · simp only [List.mem_append, List.mem_flatten]; exact Or.inr (Or.inr ⟨b, hb, hm⟩)
    · intro b hb
      refine ⟨fun j hj => ?_, fun hm => hni ?_⟩
      · simp only [List.mem_flatten]; exact ⟨b, by simp [hb], hj⟩
      · simp only [List.mem_append, List.mem_flatten]; exact Or.inl (Or.inl ⟨b, hb, hm⟩)
  have hfl2 : (as ++ (b1 ++ b2) :: cs).flatten = (as.flatten ++ b1) ++ (b2 ++ cs.flatten) := by simp
  have hc := h.core
  rw [hfl] at hc
  obtain ⟨p', e1, c1, t1, o1, d1⟩ := hc.dispose (s.cut i).tbl (by rw [htbl, ← List.map_flatten, hfl2]) c'
  refine ⟨p', as ++ (b1 ++ b2) :: cs, ?_, ⟨?_, ?_, ?_, ?_, ?_, ?_⟩, hfl2, by simp, ?_, o1, d1, ?_⟩
  · simp only [PSt.unlinkDispose, h1, Option.bind_eq_bind, Option.bind_some, e1]
  · rw [hfl2]; exact c1
  · rw [t1]; exact h2
  · rw [t1, h6, h.size]; simp; omega
  · show (s.cut i).tbl = _
    rw [htbl]
    apply List.map_congr_left
    intro b hbb
    apply List.map_congr_left
    intro j hj
    rw [o1 j]
    rintro rfl
    exact hni (by rw [← hfl2]; exact List.mem_flatten.2 ⟨b, hbb, hj⟩)
  · intro j hj
    have hne : j ≠ i := by rintro rfl; rw [hfl2] at hj; exact hni hj
    rw [t1, h5, o1 j hne]
    apply h.hsh
    rw [hfl]; rw [hfl2] at hj
    simp only [List.mem_append, List.mem_cons] at hj ⊢
    grind
  · intro j hj
    rw [t1]
    by_cases hne : j = i
    · subst hne; exact h3
    · have hj' : j ∉ (as ++ (b1 ++ i :: b2) :: cs).flatten := by
        rw [hfl]; rw [hfl2] at hj
        simp only [List.mem_append, List.mem_cons] at hj ⊢
        grind
      rw [h4 j hj']
      exact h.nxt j hj'
  · rw [t1, h7]
  · rw [t1, h2.length, h.rep.length]; simp

/-- Changing one object without touching its callbacks or its key. -/
theorem PSim.set_same (h : PSim cfg p s bs x) {i : Nat} {f : Entry K V E → Entry K V E}
    (hid : IdKey f) (hcb : ∀ e, (f e).mapped.cbs = e.mapped.cbs) :
    PSim cfg (p.setObj i f) (s.modify i f) bs x := by
  refine ⟨h.core.set_same (fun e => (hid e).1) hcb, h.rep, h.size, ?_, ?_, h.nxt⟩
  · simp only [St.modify, h.tbl, List.map_map]
    apply List.map_congr_left
    intro b hb
    simp only [Function.comp, List.map_map]
    apply List.map_congr_left
    intro j hj
    simp only [Function.comp, PSt.setObj]
    rw [h.core.oid j (List.mem_flatten.2 ⟨b, hb, hj⟩)]
    by_cases hji : j = i
    · subst hji; simp
    · simp [hji]
  · intro j hj
    have := h.hsh j hj
    simp only [PSt.setObj]
    split
    · next hh => subst hh; rw [(hid _).2]; exact this
    · exact this

theorem PSim.slotOk (h : PSim cfg p s bs x) {pre post : List Nat} (hb : bs.flatten = pre ++ post) :
    p.slotOk (slotOf p.tab.own pre) = true := by
  unfold slotOf
  split
  · simp [PSt.slotOk]
  · rename_i y hy
    have hm := List.mem_of_getLast? hy
    have := h.core.pos_ls (i := y) (by rw [hb]; simp [hm])
    simp [PSt.slotOk]; omega

theorem slot_eq_iff {own : Nat} {pre todo : List Nat} (hn : (pre ++ todo).Nodup) :
    slotOf own pre = slotOf own (pre ++ todo) ↔ todo = [] := by
  constructor
  · intro h
    apply Classical.byContradiction
    intro hne
    obtain ⟨l', y, rfl⟩ := last_of_ne hne
    have h2 : slotOf own (pre ++ (l' ++ [y])) = .node y := by
      unfold slotOf; rw [← List.append_assoc, List.getLast?_concat]
    rw [h2] at h
    unfold slotOf at h
    split at h
    · cases h
    · rename_i z hz
      cases h
      have := List.mem_of_getLast? hz
      rw [List.nodup_append] at hn
      exact hn.2.2 y this y (by simp) rfl
  · rintro rfl; simp

theorem node_eq_iff {own : Nat} {pre todo : List Nat} {i : Nat} (hn : (pre ++ i :: todo).Nodup) :
    Slot.node i = slotOf own (pre ++ i :: todo) ↔ todo = [] := by
  have : slotOf own (pre ++ [i]) = .node i := by unfold slotOf; simp
  have h2 := slot_eq_iff (own := own) (pre := pre ++ [i]) (todo := todo) (by simpa using hn)
  rw [this] at h2
  simpa using h2

/-- The walk on pointers does what the step by step walk does. -/
theorem PSim.walk (act : Nat → Entry K V E → Act V E) : ∀ (todo : List Nat) (fuel : Nat) (p : PSt K V E) (s : St K V E)
    (bs : List (List Nat)) (pre post : List Nat), PSim cfg p s bs x → bs.flatten = pre ++ (todo ++ post) →
    todo.length ≤ fuel →
    ∃ p' bs' hit, pwalk cfg act fuel p (slotOf p.tab.own pre) (slotOf p.tab.own (pre ++ todo)) = some (p', hit) ∧
      gfold cfg act s (todo.map p.obj) = ((gfold cfg act s (todo.map p.obj)).1, hit) ∧
      PSim cfg p' (gfold cfg act s (todo.map p.obj)).1 bs' x ∧
      bs'.length = bs.length ∧ (∀ j, j ∉ bs.flatten → p'.obj j = p.obj j) ∧ p'.handles = p.handles ∧
      (∀ j ∈ bs'.flatten, j ∈ bs.flatten) ∧ (∀ i l, hit = some (i, l) → i ∈ bs'.flatten) := by
  intro todo
  induction todo with
  | nil =>
    intro fuel p s bs pre post h hb hf
    refine ⟨p, bs, none, ?_, rfl, h, rfl, fun _ _ => rfl, rfl, fun _ hj => hj, by simp⟩
    rw [pwalk.eq_def]
    simp
  | cons i todo ih =>
    intro fuel p s bs pre post h hb hf
    have hnd := h.nd
    rw [hb] at hnd
    have hnd1 : (pre ++ i :: todo).Nodup := by
      rw [← List.append_assoc] at hnd; exact (List.nodup_append.1 hnd).1
    cases fuel with
    | zero => simp at hf
    | succ fuel =>
      have hne : ¬ slotOf p.tab.own pre = slotOf p.tab.own (pre ++ i :: todo) := by
        rw [slot_eq_iff hnd1]; simp
      have hi : i ∈ bs.flatten := by rw [hb]; simp
      have hok := h.slotOk hb
      have hpath := h.rep.path
      rw [hb] at hpath
      obtain ⟨o, ho, hpo⟩ := hpath.rd_slot
      obtain ⟨rfl, _⟩ := hpo
      have hrd := PSt.rd_eq (h.core.pos_ls hi)
      have hh := h.hsh i hi
      have hid := h.core.oid i hi
      have hsl : slotOf p.tab.own (pre ++ [i]) = .node i := by unfold slotOf; simp
      rw [pwalk.eq_def]
      simp only [hne, if_false, hok, Bool.true_eq_false, ho, hrd, Option.bind_eq_bind, Option.bind_some, hh,
        List.map_cons, gfold]
      cases ha : act (cfg.hash (p.obj i).key) (p.obj i) with
      | keep =>
        simp only
        obtain ⟨p', bs', hit, e1, e2, e3, e4⟩ := ih fuel p s bs (pre ++ [i]) post h (by rw [hb]; simp) (by simpa using hf)
        rw [hsl] at e1
        exact ⟨p', bs', hit, by simpa using e1, e2, e3, e4⟩
      | mark =>
        simp only
        have h1 := h.set_same (i := i) (f := (·.upd .markExpired)) (IdKey.upd _) (by
          intro e; cases hm : e.mapped <;> simp [Entry.upd, Mapped.markExpired, hm, Mapped.cbs])
        have hobj : todo.map (p.setObj i (·.upd .markExpired)).obj = todo.map p.obj := by
          apply List.map_congr_left
          intro j hj
          simp only [PSt.setObj]
          rw [if_neg]
          rintro rfl
          rw [List.nodup_append, List.nodup_cons] at hnd1
          exact hnd1.2.1.1 hj
        obtain ⟨p', bs', hit, e1, e2, e3, e4, e5, e6⟩ := ih fuel _ _ bs (pre ++ [i]) post h1 (by rw [hb]; simp) (by simpa using hf)
        rw [hobj] at e2 e3
        have hsl' : slotOf (p.setObj i (·.upd .markExpired)).tab.own (pre ++ [i]) = .node i := hsl
        rw [hsl'] at e1
        refine ⟨p', bs', hit, ?_, by rw [hid]; exact e2, by rw [hid]; exact e3, e4, ?_, e6⟩
        · rw [PSt.wr_eq (h.core.pos_ls hi)]
          simp only [Option.bind_some]
          simpa [PSt.setObj] using e1
        · intro j hj
          rw [e5 j hj]
          simp only [PSt.setObj]
          rw [if_neg]
          rintro rfl; exact hj hi
      | drop =>
        simp only
        obtain ⟨p1, bs1, d1, d2, d3, d4, d5, d6, d7, d8⟩ := h.drop (pre := pre) (i := i) (post := todo ++ post) (by simpa using hb)
        have hni : ∀ j ∈ pre ++ (todo ++ post), j ≠ i := by
          rintro j hj rfl
          rw [List.nodup_append, List.cons_append, List.nodup_cons] at hnd
          rcases List.mem_append.1 hj with hj | hj
          · exact hnd.2.2 j hj j (by simp) rfl
          · exact hnd.2.1.1 hj
        have hobj : todo.map p1.obj = todo.map p.obj := by
          apply List.map_congr_left
          intro j hj
          exact d6 j (hni j (by simp [hj]))
        obtain ⟨p', bs', hit, e1, e2, e3, e4, e5, e6, e7⟩ := ih fuel p1 _ bs1 pre post d2 d3 (by simpa using hf)
        rw [hobj] at e2 e3
        refine ⟨p', bs', hit, ?_, by rw [hid]; exact e2, by rw [hid]; exact e3, by rw [e4, d4], ?_, by rw [e6, d7], ?_, e7.2⟩
        · rw [d1]
          simp only [Option.bind_some]
          rw [← e1, d5]
          congr 1
          by_cases ht : todo = []
          · subst ht
            rw [if_pos ((node_eq_iff hnd1).2 rfl)]; simp
          · rw [if_neg (fun hh => ht ((node_eq_iff hnd1).1 hh))]
            -- the end marker is unchanged
            obtain ⟨l', y, rfl⟩ := last_of_ne ht
            unfold slotOf
            rw [show pre ++ i :: (l' ++ [y]) = (pre ++ i :: l') ++ [y] by simp,
              show pre ++ (l' ++ [y]) = (pre ++ l') ++ [y] by simp, List.getLast?_concat, List.getLast?_concat]
        · intro j hj
          have hj1 : j ∉ bs1.flatten := by
            rw [d3]; intro hm; apply hj; rw [hb]
            simp only [List.mem_append, List.cons_append, List.mem_cons] at hm ⊢; grind
          rw [e5 j hj1, d6 j]
          rintro rfl; exact hj hi
        · intro j hj
          have := e7.1 j hj
          rw [d3] at this; rw [hb]
          simp only [List.mem_append, List.cons_append, List.mem_cons] at this ⊢; grind
      | stop l =>
        simp only
        refine ⟨p, bs, _, rfl, ?_, h, rfl, fun _ _ => rfl, rfl, fun _ hj => hj, ?_⟩
        · rw [hid]
        · rintro j l' ⟨⟩; exact hi

end Hoard
