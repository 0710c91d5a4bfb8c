import Verif.Machine
import Verif.PQueueLemmas
import Verif.CacheWF
/-! Helper lemmas: objects, counters and queues of the pointer-level cache. -/
namespace Hoard
variable {K V E : Type}

/-- The entries owned by callbacks. -/
def olds (cbs : List Cb) : List Nat :=
  cbs.filterMap (fun | .user _ => none | .refresh j => some j)

/-- The entries owned by the callbacks of the given entries. -/
def refsOf (es : List (Entry K V E)) : List Nat := es.flatMap (fun e => olds e.mapped.cbs)

/-- The part of the simulation that does not concern the chain.  `ls`: the linked
entries in chain order; `x`: entries owned by local variables. -/
structure Core (cfg : Cfg K) (p : PSt K V E) (s : St K V E) (ls x : List Nat) : Prop where
  ents : s.ents = ls.map p.obj
  oid : ∀ i ∈ ls, (p.obj i).id = i
  nd : (ls ++ s.limbo.map (·.id)).Nodup
  lt : ∀ i ∈ ls ++ s.limbo.map (·.id), i < s.nextId
  lim : ∀ e ∈ s.limbo, 0 < p.rc e.id → p.obj e.id = e
  lcb : ∀ e ∈ s.limbo, e.mapped.cbs = []
  bqr : p.pq.Rel s.bq
  bqi : cfg.maxSize.isSome = true → s.bq.Inv ∧ s.bq.q.Perm ls
  dqr : LinkRep p.dq s.delayQ
  dqn : s.delayQ.Nodup
  dqm : ∀ i ∈ s.delayQ, i ∈ ls
  dqe : cfg.refresh = none → s.delayQ = []
  nid : p.nextId = s.nextId
  ops : p.opens = s.opens
  des : p.destroyed = s.destroyed
  rc : ∀ i, p.rc i = (ls ++ p.handles ++ x ++ refsOf s.ents).count i
  hnd : p.handles.Nodup
  opn : ∀ t ∈ s.opens, t ∈ p.handles
  kn : ∀ i ∈ p.handles ++ refsOf s.ents, i ∈ ls ++ s.limbo.map (·.id)
  kx : ∀ i ∈ x, i ∈ ls ++ s.limbo.map (·.id) ∨ (i = p.nextId ∧ (p.obj i).mapped.cbs = [])

namespace PSt

/-- Change an object without checking. -/
def setObj (p : PSt K V E) (i : Nat) (f : Entry K V E → Entry K V E) : PSt K V E :=
  { p with obj := fun j => if j = i then f (p.obj i) else p.obj j }

theorem wr_eq {p : PSt K V E} {i : Nat} {f} (h : 0 < p.rc i) : p.wr i f = some (p.setObj i f) := by
  unfold wr setObj; rw [if_neg (by omega)]

theorem rd_eq {p : PSt K V E} {i : Nat} (h : 0 < p.rc i) : p.rd i = some (p.obj i) := by
  unfold rd; rw [if_neg (by omega)]

end PSt

variable {cfg : Cfg K} {p : PSt K V E} {s : St K V E} {ls x : List Nat}

theorem Core.pos_ls (h : Core cfg p s ls x) {i : Nat} (hi : i ∈ ls) : 0 < p.rc i := by
  rw [h.rc]; exact List.count_pos_iff.2 (by simp [hi])

theorem Core.pos_h (h : Core cfg p s ls x) {i : Nat} (hi : i ∈ p.handles) : 0 < p.rc i := by
  rw [h.rc]; exact List.count_pos_iff.2 (by simp [hi])

theorem Core.pos_x (h : Core cfg p s ls x) {i : Nat} (hi : i ∈ x) : 0 < p.rc i := by
  rw [h.rc]; exact List.count_pos_iff.2 (by simp [hi])

theorem Core.pos_r (h : Core cfg p s ls x) {i : Nat} (hi : i ∈ refsOf s.ents) : 0 < p.rc i := by
  rw [h.rc]; exact List.count_pos_iff.2 (by simp [hi])

theorem Core.perm (h : Core cfg p s ls x) {x' : List Nat} (hp : x'.Perm x) : Core cfg p s ls x' := by
  refine { h with rc := ?_, kx := fun i hi => h.kx i (hp.mem_iff.1 hi) }
  intro i; rw [h.rc]
  simp only [List.count_append, hp.count_eq]

/-- The object of a known live entry is the entry of the abstract state. -/
theorem Core.findAny (h : Core cfg p s ls x) {i : Nat} (hk : i ∈ ls ++ s.limbo.map (·.id)) (hl : 0 < p.rc i) :
    s.findAny i = some (p.obj i) := by
  unfold St.findAny
  rw [h.ents, List.find?_append]
  by_cases hi : i ∈ ls
  · have : (ls.map p.obj).find? (fun e => e.id == i) = some (p.obj i) := by
      rw [List.find?_map]
      have : ls.find? ((fun e => e.id == i) ∘ p.obj) = some i := by
        obtain ⟨l1, l2, rfl, hn⟩ := split_first hi
        rw [List.find?_append]
        have h1 : l1.find? ((fun e => e.id == i) ∘ p.obj) = none := by
          rw [List.find?_eq_none]
          intro y hy
          simp only [Function.comp, h.oid y (by simp [hy]), beq_iff_eq]
          rintro rfl; exact hn hy
        rw [h1]
        simp [h.oid i (by simp)]
      rw [this]; rfl
    rw [this]; rfl
  · have h1 : (ls.map p.obj).find? (fun e => e.id == i) = none := by
      rw [List.find?_eq_none]
      intro e he
      obtain ⟨y, hy, rfl⟩ := List.mem_map.1 he
      simp only [h.oid y hy, beq_iff_eq]
      rintro rfl; exact hi hy
    rw [h1]
    have hl2 : i ∈ s.limbo.map (·.id) := by
      rcases List.mem_append.1 hk with h2 | h2
      · exact absurd h2 hi
      · exact h2
    obtain ⟨e, he, rfl⟩ := List.mem_map.1 hl2
    rw [h.lim e he hl]
    show s.limbo.find? (fun e_1 => e_1.id == e.id) = some e
    have hnd := (List.nodup_append.1 h.nd).2.1
    clear h1 hl2 hk hi
    revert he hnd
    generalize s.limbo = L
    intro he hnd
    induction L with
    | nil => simp at he
    | cons a L ih =>
      rw [List.map_cons, List.nodup_cons] at hnd
      rcases List.mem_cons.1 he with rfl | he
      · simp
      · have : a.id ≠ e.id := fun hh => hnd.1 (hh ▸ List.mem_map.2 ⟨e, he, rfl⟩)
        simp [this, ih he hnd.2]

theorem Core.find (h : Core cfg p s ls x) {i : Nat} (hi : i ∈ ls) : s.find i = some (p.obj i) := by
  have := h.findAny (i := i) (by simp [hi]) (h.pos_ls hi)
  unfold St.findAny at this
  unfold St.find
  rw [List.find?_append] at this
  cases hf : s.ents.find? (fun e => e.id == i) with
  | some e => rw [hf] at this; simpa using this
  | none =>
    rw [hf] at this
    simp only [Option.none_or] at this
    exfalso
    rw [List.find?_eq_none] at hf
    have := hf (p.obj i) (by rw [h.ents]; exact List.mem_map.2 ⟨i, hi, rfl⟩)
    simp [h.oid i hi] at this

/-- Changing one object. -/
theorem Core.set (h : Core cfg p s ls x) {x' : List Nat} {i : Nat} {f : Entry K V E → Entry K V E}
    (hid : ∀ e, (f e).id = e.id)
    (hl : i ∈ ls → (olds (f (p.obj i)).mapped.cbs ++ x').Perm (olds (p.obj i).mapped.cbs ++ x))
    (hn : i ∉ ls → x'.Perm x ∧ ∀ e : Entry K V E, e.mapped.cbs = [] → (f e).mapped.cbs = [])
    (hx : ∀ j ∈ olds (f (p.obj i)).mapped.cbs ++ x', i ∈ ls → j ∈ ls ++ s.limbo.map (·.id) ∨ (j ∈ x' ∧ j ≠ i ∧ j = p.nextId ∧ (p.obj j).mapped.cbs = [])) 
    (ho : i ∈ ls → ∀ j ∈ olds (f (p.obj i)).mapped.cbs, j ∈ ls ++ s.limbo.map (·.id)) :
    Core cfg (p.setObj i f) (s.modify i f) ls x' := by
  have hlid : (s.modify i f).limbo.map (·.id) = s.limbo.map (·.id) := by
    simp only [St.modify, List.map_map]
    apply List.map_congr_left
    intro e _; simp only [Function.comp]; split
    · exact hid e
    · rfl
  have hent : (s.modify i f).ents = ls.map (p.setObj i f).obj := by
    simp only [St.modify, St.ents, ← List.map_flatten]
    have := h.ents
    simp only [St.ents] at this
    rw [this, List.map_map]
    apply List.map_congr_left
    intro j hj
    simp only [Function.comp, PSt.setObj, h.oid j hj]
    by_cases hji : j = i
    · subst hji; simp
    · simp [hji]
  have hrefs : (x' ++ refsOf (s.modify i f).ents).Perm (x ++ refsOf s.ents) := by
    rw [hent, h.ents]
    by_cases hi : i ∈ ls
    · obtain ⟨l1, l2, rfl, hn1⟩ := split_first hi
      have hn2 : i ∉ l2 := by
        have := (List.nodup_append.1 h.nd).1
        rw [List.nodup_append, List.nodup_cons] at this
        exact this.2.1.1
      have e1 : ∀ l : List Nat, i ∉ l → l.map (p.setObj i f).obj = l.map p.obj := by
        intro l hl; apply List.map_congr_left
        intro j hj; simp only [PSt.setObj]; rw [if_neg (by rintro rfl; exact hl hj)]
      simp only [List.map_append, List.map_cons, e1 l1 hn1, e1 l2 hn2]
      simp only [refsOf, List.flatMap_append, List.flatMap_cons]
      have e2 : (p.setObj i f).obj i = f (p.obj i) := by simp [PSt.setObj]
      rw [e2]
      have := hl hi
      rw [List.perm_iff_count] at this ⊢
      intro a
      have := this a
      simp only [List.count_append] at this ⊢
      omega
    · have e1 : ls.map (p.setObj i f).obj = ls.map p.obj := by
        apply List.map_congr_left
        intro j hj; simp only [PSt.setObj]; rw [if_neg (by rintro rfl; exact hi hj)]
      rw [e1]
      exact (hn hi).1.append_right _
  refine
    { ents := hent, oid := ?_, nd := by rw [hlid]; exact h.nd, lt := by rw [hlid]; exact h.lt,
      lim := ?_, lcb := ?_, bqr := h.bqr, bqi := h.bqi, dqr := h.dqr, dqn := h.dqn, dqm := h.dqm, dqe := h.dqe,
      nid := h.nid, ops := h.ops, des := h.des, rc := ?_, hnd := h.hnd, opn := h.opn, kn := ?_, kx := ?_ }
  · intro j hj
    simp only [PSt.setObj]
    split
    · next hji => subst hji; rw [hid, h.oid _ hj]
    · exact h.oid j hj
  · intro e he hr
    simp only [St.modify, List.mem_map] at he
    obtain ⟨e0, he0, rfl⟩ := he
    simp only [PSt.setObj] at hr ⊢
    by_cases hei : e0.id = i
    · simp only [hei, if_true] at hr ⊢
      rw [hid, hei, if_pos rfl]
      have := h.lim e0 he0 (by rw [hei]; rw [hid, hei] at hr; exact hr)
      rw [hei] at this; rw [this]
    · simp only [hei, if_false] at hr ⊢
      exact h.lim e0 he0 hr
  · intro e he
    simp only [St.modify, List.mem_map] at he
    obtain ⟨e0, he0, rfl⟩ := he
    by_cases hei : e0.id = i
    · simp only [hei, if_true]
      have hi : i ∉ ls := fun hi => (List.nodup_append.1 h.nd).2.2 i hi i (hei ▸ List.mem_map.2 ⟨e0, he0, rfl⟩) rfl
      exact (hn hi).2 e0 (h.lcb e0 he0)
    · simp only [hei, if_false]; exact h.lcb e0 he0
  · intro j
    show p.rc j = _
    rw [h.rc]
    have := hrefs.count_eq j
    simp only [List.count_append, PSt.setObj] at this ⊢
    omega
  · intro j hj
    rw [hlid]
    rcases List.mem_append.1 hj with hj | hj
    · exact h.kn j (by simp [show j ∈ p.handles from hj])
    · rw [hent] at hj
      simp only [refsOf, List.mem_flatMap, List.mem_map] at hj
      obtain ⟨e, ⟨y, hy, rfl⟩, hj⟩ := hj
      by_cases hyi : y = i
      · subst hyi
        simp only [PSt.setObj, if_true] at hj
        exact ho hy j hj
      · simp only [PSt.setObj, hyi, if_false] at hj
        apply h.kn
        refine List.mem_append_right _ ?_
        simp only [refsOf, List.mem_flatMap]
        exact ⟨p.obj y, by rw [h.ents]; exact List.mem_map.2 ⟨y, hy, rfl⟩, hj⟩
  · intro j hj
    rw [hlid]
    by_cases hi : i ∈ ls
    · rcases hx j (by simp [hj]) hi with h1 | h1
      · exact Or.inl h1
      · refine Or.inr ⟨h1.2.2.1, ?_⟩
        simp only [PSt.setObj]; rw [if_neg h1.2.1]; exact h1.2.2.2
    · have hj' : j ∈ x := (hn hi).1.mem_iff.1 hj
      rcases h.kx j hj' with h1 | h1
      · exact Or.inl h1
      · refine Or.inr ⟨h1.1, ?_⟩
        simp only [PSt.setObj]
        split
        · next hji => subst hji; exact (hn hi).2 _ h1.2
        · exact h1.2

/-- Changing an object without touching its callbacks. -/
theorem Core.set_same (h : Core cfg p s ls x) {i : Nat} {f : Entry K V E → Entry K V E}
    (hid : ∀ e, (f e).id = e.id) (hcb : ∀ e, (f e).mapped.cbs = e.mapped.cbs) :
    Core cfg (p.setObj i f) (s.modify i f) ls x := by
  have hr : ∀ j ∈ olds (p.obj i).mapped.cbs, i ∈ ls → j ∈ ls ++ s.limbo.map (·.id) := by
    intro j hj hi
    apply h.kn
    refine List.mem_append_right _ ?_
    simp only [refsOf, List.mem_flatMap]
    exact ⟨p.obj i, by rw [h.ents]; exact List.mem_map.2 ⟨i, hi, rfl⟩, hj⟩
  refine h.set hid ?_ ?_ ?_ ?_
  · intro _; rw [hcb]
  · intro _; exact ⟨List.Perm.refl _, fun e he => by rw [hcb, he]⟩
  · intro j hj hi
    rw [hcb] at hj
    rcases List.mem_append.1 hj with hj | hj
    · exact Or.inl (hr j hj hi)
    · rcases h.kx j hj with h1 | h1
      · exact Or.inl h1
      · by_cases hji : j = i
        · subst hji; exact Or.inl (by simp [hi])
        · exact Or.inr ⟨hj, hji, h1⟩
  · intro hi j hj; rw [hcb] at hj; exact hr j hj hi

/-- The callbacks of a linked entry go away; what they owned is owned by local
variables for now. -/
theorem Core.set_rel (h : Core cfg p s ls x) {i : Nat} {f : Entry K V E → Entry K V E} (hi : i ∈ ls)
    (hid : ∀ e, (f e).id = e.id) (hcb : (f (p.obj i)).mapped.cbs = []) :
    Core cfg (p.setObj i f) (s.modify i f) ls (olds (p.obj i).mapped.cbs ++ x) := by
  refine h.set hid ?_ (fun hn => absurd hi hn) ?_ ?_
  · intro _; rw [hcb]; exact List.Perm.refl _
  · intro j hj _
    rw [hcb] at hj
    have hj : j ∈ olds (p.obj i).mapped.cbs ++ x := by simpa [olds] using hj
    rcases List.mem_append.1 hj with hj | hj
    · refine Or.inl (h.kn j (List.mem_append_right _ ?_))
      simp only [refsOf, List.mem_flatMap]
      exact ⟨p.obj i, by rw [h.ents]; exact List.mem_map.2 ⟨i, hi, rfl⟩, hj⟩
    · rcases h.kx j hj with h1 | h1
      · exact Or.inl h1
      · by_cases hji : j = i
        · subst hji; exact Or.inl (by simp [hi])
        · exact Or.inr ⟨by simp [hj], hji, h1⟩
  · intro _ j hj; rw [hcb] at hj; simp [olds] at hj

/-- Releasing a local owner. -/
theorem Core.dec {j : Nat} (h : Core cfg p s ls (j :: x)) :
    ∃ p', p.dec j = some p' ∧ Core cfg p' s ls x ∧ p' = { p with rc := fun i => if i = j then p.rc j - 1 else p.rc i } := by
  have hpos : 0 < p.rc j := h.pos_x (by simp)
  have hcb : p.rc j = 1 → (p.obj j).mapped.cbs = [] := by
    intro h1
    rw [h.rc] at h1
    simp only [List.count_append, List.count_cons_self] at h1
    have hnl : j ∉ ls := by
      intro hm; have := List.count_pos_iff.2 hm; omega
    rcases h.kx j (by simp) with h2 | h2
    · rcases List.mem_append.1 h2 with h2 | h2
      · exact absurd h2 hnl
      · obtain ⟨e, he, rfl⟩ := List.mem_map.1 h2
        rw [h.lim e he hpos]; exact h.lcb e he
    · exact h2.2
  refine ⟨_, ?_, ?_, rfl⟩
  · unfold PSt.dec
    rw [if_neg (by omega), if_neg]
    rintro ⟨h1, h2⟩
    rw [hcb h1] at h2; simp at h2
  · refine { h with lim := ?_, rc := ?_, kx := fun i hi => h.kx i (by simp [hi]) }
    · intro e he hr
      apply h.lim e he
      simp only at hr
      split at hr
      · next hh => rw [hh]; exact hpos
      · exact hr
    · intro i
      have := h.rc i
      simp only [List.count_append, List.count_cons] at this ⊢
      by_cases hij : i = j
      · subst hij; simp only [if_true, beq_self_eq_true] at this ⊢; omega
      · have : ¬ (j == i) = true := by simpa using fun h => hij h.symm
        simp_all

/-- Acquiring a local owner. -/
theorem Core.inc {j : Nat} (h : Core cfg p s ls x) (hp : 0 < p.rc j)
    (hk : j ∈ ls ++ s.limbo.map (·.id) ∨ (j = p.nextId ∧ (p.obj j).mapped.cbs = [])) :
    ∃ p', p.inc j = some p' ∧ Core cfg p' s ls (j :: x) ∧ p' = { p with rc := fun i => if i = j then p.rc j + 1 else p.rc i } := by
  refine ⟨_, ?_, ?_, rfl⟩
  · unfold PSt.inc; rw [if_neg (by omega)]
  · refine { h with lim := ?_, rc := ?_, kx := ?_ }
    · intro e he hr
      apply h.lim e he
      simp only at hr
      split at hr
      · next hh => rw [hh]; exact hp
      · exact hr
    · intro i
      have := h.rc i
      simp only [List.count_append, List.count_cons] at this ⊢
      by_cases hij : i = j
      · subst hij; simp only [if_true, beq_self_eq_true]; omega
      · have h2 : ¬ (j == i) = true := by simpa using fun h => hij h.symm
        simp only [hij, h2, if_false, Bool.false_eq_true]
        omega
    · intro i hi
      rcases List.mem_cons.1 hi with rfl | hi
      · exact hk
      · exact h.kx i hi

/-- Two states that differ in counters only. -/
structure SameBut (p p' : PSt K V E) : Prop where
  tab : p'.tab = p.tab
  obj : p'.obj = p.obj
  hdl : p'.handles = p.handles

theorem Core.relCbs : ∀ (cbs : List Cb) (p : PSt K V E) (_ : Core cfg p s ls (olds cbs ++ x)),
    ∃ p', p.relCbs cbs = some p' ∧ Core cfg p' s ls x ∧
      p'.tab = p.tab ∧ p'.obj = p.obj ∧ p'.handles = p.handles := by
  intro cbs
  induction cbs with
  | nil => intro p h; exact ⟨p, rfl, by simpa [olds] using h, rfl, rfl, rfl⟩
  | cons cb cbs ih =>
    intro p h
    cases cb with
    | user w =>
      obtain ⟨p', h1, h2⟩ := ih p (by simpa [olds] using h)
      exact ⟨p', h1, h2⟩
    | refresh j =>
      have h' : Core cfg p s ls (j :: (olds cbs ++ x)) := by simpa [olds] using h
      obtain ⟨p1, e1, c1, rfl⟩ := h'.dec
      obtain ⟨p', e2, c2, t2, o2, h2⟩ := ih _ c1
      refine ⟨p', ?_, c2, t2, o2, h2⟩
      simp only [PSt.relCbs, e1, Option.bind_eq_bind, Option.bind_some, e2]

/-- The disposer. -/
theorem Core.dispose {i : Nat} {l1 l2 : List Nat} (h : Core cfg p s (l1 ++ i :: l2) x)
    (t' : List (List (Entry K V E))) (ht : t'.flatten = (l1 ++ l2).map p.obj) (tab : Chain.Tab) :
    ∃ p', PSt.disposeElem cfg { p with tab := tab } i = some p' ∧
      Core cfg p' (disposeOne cfg { s with tbl := t' } (p.obj i)) (l1 ++ l2) x ∧
      p'.tab = tab ∧ (∀ j, j ≠ i → p'.obj j = p.obj j) ∧ p'.handles = p.handles := by
  have hi : i ∈ l1 ++ i :: l2 := by simp
  have hn0 := (List.nodup_append.1 h.nd).1
  have hni : i ∉ l1 ++ l2 := by
    rw [List.nodup_append, List.nodup_cons] at hn0
    intro hm
    rcases List.mem_append.1 hm with hm | hm
    · exact hn0.2.2 i hm i (by simp) rfl
    · exact hn0.2.1.1 hm
  have hpi := h.pos_ls hi
  have hcan : ∀ e : Entry K V E, (e.upd Mapped.cancel).mapped.cbs = [] := by
    intro e; cases h : e.mapped <;> simp [Entry.upd, Mapped.cancel, h, Mapped.cbs]
  have c1 := h.set_rel (f := (·.upd .cancel)) hi (fun _ => rfl) (hcan _)
  -- the chain plays no role
  have c1' : Core cfg { p.setObj i (·.upd .cancel) with tab := tab } (s.modify i (·.upd .cancel)) (l1 ++ i :: l2)
      (olds (p.obj i).mapped.cbs ++ x) := { c1 with }
  obtain ⟨p2, e2, c2, t2, o2, d2⟩ := Core.relCbs _ _ c1'
  have hoi : (p2.obj i) = (p.obj i).upd .cancel := by rw [o2]; simp [PSt.setObj]
  -- recency queue
  obtain ⟨q, e3, r3⟩ : ∃ q, p2.unlinkPq cfg i = some { p2 with pq := q } ∧ q.Rel (if cfg.maxSize.isSome then s.bq.onUnlink i else s.bq) := by
    by_cases hm : cfg.maxSize.isSome = true
    · obtain ⟨hI, hP⟩ := h.bqi hm
      have hr : p2.pq.Rel s.bq := c2.bqr
      obtain ⟨q, eq, rq⟩ := PQ.rel_onUnlink hr hI (hP.mem_iff.2 hi)
      exact ⟨q, by simp [PSt.unlinkPq, hm, eq], by simpa [hm] using rq⟩
    · exact ⟨p2.pq, by simp [PSt.unlinkPq, hm], by rw [if_neg hm]; exact c2.bqr⟩
  -- delay queue
  obtain ⟨H, e4, r4⟩ : ∃ H, PSt.unlinkDq cfg { p2 with pq := q } i = some { p2 with pq := q, dq := H } ∧ LinkRep H (s.delayQ.erase i) := by
    have hlr : LinkRep p2.dq s.delayQ := c2.dqr
    unfold PSt.unlinkDq
    simp only
    rw [linkRep_isLinked hlr]
    by_cases hd : i ∈ s.delayQ
    · have hrs : cfg.refresh.isSome = true := by
        cases hr : cfg.refresh with
        | none => rw [h.dqe hr] at hd; simp at hd
        | some _ => rfl
      obtain ⟨a, b, hab, hna⟩ := split_first hd
      rw [hab] at hlr
      obtain ⟨H, eH, rH⟩ := linkRep_unlink hlr
      refine ⟨H, by simp [hrs, hd, eH], ?_⟩
      rw [hab, erase_mid hna]; exact rH
    · refine ⟨p2.dq, by simp [hd], ?_⟩
      rw [List.erase_of_not_mem hd]; exact hlr
  have hpm : (l1 ++ i :: l2).Perm (i :: (l1 ++ l2)) := List.perm_middle
  -- objects of the others
  have hoth : (l1 ++ l2).map p2.obj = (l1 ++ l2).map p.obj := by
    apply List.map_congr_left
    intro j hj; rw [o2]; simp only [PSt.setObj]; rw [if_neg (by rintro rfl; exact hni hj)]
  have hlimid : (s.modify i (·.upd .cancel)).limbo.map (·.id) = s.limbo.map (·.id) := by
    simp only [St.modify, List.map_map]
    apply List.map_congr_left
    intro e _; simp only [Function.comp]; split <;> rfl
  have hlim : (s.modify i (·.upd .cancel)).limbo = s.limbo := by
    simp only [St.modify]
    conv => rhs; rw [← List.map_id s.limbo]
    apply List.map_congr_left
    intro e he
    have : e.id ≠ i := fun hh => (List.nodup_append.1 h.nd).2.2 i hi i (hh ▸ List.mem_map.2 ⟨e, he, rfl⟩) rfl
    simp [this]
  have hoid : (p.obj i).id = i := h.oid i hi
  have hents : (s.modify i (·.upd .cancel)).ents = (l1 ++ i :: l2).map p2.obj := c2.ents
  have hrefs : refsOf (s.modify i (·.upd .cancel)).ents = refsOf t'.flatten := by
    rw [hents, ht, ← hoth]
    simp only [List.map_append, List.map_cons, refsOf, List.flatMap_append, List.flatMap_cons, hoi, hcan]
    simp [olds]
  have hmem : ∀ j, j ∈ l1 ++ i :: l2 ++ s.limbo.map (·.id) ↔
      j ∈ l1 ++ l2 ++ (s.limbo ++ [(p.obj i).upd .cancel]).map (·.id) := by
    intro j
    simp only [List.mem_append, List.mem_cons, List.map_append, List.map_cons, Entry.upd, hoid, List.map_nil, List.not_mem_nil, or_false]
    grind
  have c5 : Core cfg { p2 with pq := q, dq := H } (disposeOne cfg { s with tbl := t' } (p.obj i)) (l1 ++ l2) (i :: x) := by
    refine
      { ents := ?_, oid := ?_, nd := ?_, lt := ?_, lim := ?_, lcb := ?_, bqr := by simpa [disposeOne, hoid] using r3,
        bqi := ?_, dqr := by simpa [disposeOne, hoid] using r4, dqn := h.dqn.erase _, dqm := ?_, dqe := ?_,
        nid := c2.nid, ops := c2.ops, des := c2.des, rc := ?_, hnd := c2.hnd, opn := c2.opn, kn := ?_, kx := ?_ }
    · show t'.flatten = _; rw [ht]; exact hoth.symm
    · intro j hj; exact c2.oid j (hpm.mem_iff.2 (by simp; right; simpa using hj))
    · have := h.nd
      simp only [disposeOne, List.map_append, List.map_cons, Entry.upd, hoid, List.map_nil]
      refine (List.Perm.nodup_iff ?_).1 this
      rw [List.append_assoc, List.append_assoc]
      refine List.Perm.append_left _ ?_
      rw [← List.append_assoc]
      exact (List.perm_append_singleton i (l2 ++ s.limbo.map (·.id))).symm
    · intro j hj; exact h.lt j ((hmem j).2 hj)
    · intro e he hr
      simp only [disposeOne, List.mem_append, List.mem_singleton] at he
      rcases he with he | rfl
      · exact c2.lim e (by rw [hlim]; exact he) hr
      · show p2.obj (p.obj i).id = _; rw [hoid]; exact hoi
    · intro e he
      simp only [disposeOne, List.mem_append, List.mem_singleton] at he
      rcases he with he | rfl
      · exact h.lcb e he
      · exact hcan _
    · intro hm
      obtain ⟨hI, hP⟩ := h.bqi hm
      have := foldl_onUnlink [i] s.bq (l1 ++ l2) hI (hP.trans (hpm.trans (List.perm_append_singleton i (l1 ++ l2)).symm))
        ((List.Perm.nodup_iff (hpm.trans (List.perm_append_singleton i (l1 ++ l2)).symm)).1 hn0)
      simpa [disposeOne, hm, hoid] using this
    · intro j hj
      simp only [disposeOne, hoid] at hj
      have hne : j ≠ i := by
        rintro rfl
        exact (List.Nodup.not_mem_erase h.dqn) hj
      have := hpm.mem_iff.1 (h.dqm j (List.mem_of_mem_erase hj))
      simpa [hne] using this
    · intro hr; simp [disposeOne, h.dqe hr]
    · intro j
      have := c2.rc j
      rw [hrefs] at this
      show p2.rc j = _
      rw [this]
      simp only [disposeOne, St.ents, List.count_append, List.count_cons]
      omega
    · intro j hj
      refine (hmem _).1 ?_
      have := c2.kn j (by rw [hrefs]; exact hj)
      rwa [hlimid] at this
    · intro j hj
      rcases List.mem_cons.1 hj with rfl | hj
      · exact Or.inl ((hmem _).1 (by simp))
      · rcases c2.kx j hj with h1 | h1
        · rw [hlimid] at h1
          exact Or.inl ((hmem _).1 h1)
        · exact Or.inr h1
  obtain ⟨p6, e6, c6, rfl⟩ := c5.dec
  refine ⟨_, ?_, c6, t2, ?_, d2⟩
  · unfold PSt.disposeElem
    have a1 : PSt.rd { p with tab := tab } i = some (p.obj i) := PSt.rd_eq (p := { p with tab := tab }) hpi
    have a2 : PSt.wr { p with tab := tab } i (·.upd .cancel) = some { p.setObj i (·.upd .cancel) with tab := tab } :=
      PSt.wr_eq (p := { p with tab := tab }) hpi
    simp only [a1, a2, Option.bind_eq_bind, Option.bind_some, e2, e3, e4]
    exact e6
  · intro j hj
    show p2.obj j = _
    rw [o2]; simp only [PSt.setObj]; rw [if_neg hj]

end Hoard
