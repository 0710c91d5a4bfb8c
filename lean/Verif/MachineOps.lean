import Verif.MachineList
import Verif.InvOps
/-! Helper lemmas: the functions of the pointer-level cache up to insertion and lookup. -/
namespace Hoard
open Chain (Rep slotOf Slot insB distribute)
variable {K V E : Type}
variable {cfg : Cfg K} {p : PSt K V E} {s : St K V E} {bs : List (List Nat)} {x : List Nat}

theorem Core.idsNd {ls : List Nat} (h : Core cfg p s ls x) : IdsNd s := by
  unfold IdsNd
  rw [h.ents, List.map_append, List.map_map]
  have : ls.map ((fun e => e.id) ∘ p.obj) = ls := by
    conv => rhs; rw [← List.map_id ls]
    apply List.map_congr_left
    intro i hi; exact h.oid i hi
  rw [this]; exact h.nd

theorem PSim.idsNd (h : PSim cfg p s bs x) : IdsNd s := h.core.idsNd

theorem PSim.len (h : PSim cfg p s bs x) : s.tbl.length = bs.length := by rw [h.tbl]; simp

theorem PSim.slen (h : PSim cfg p s bs x) : p.tab.slots.length = s.tbl.length := by rw [h.rep.length, h.len]

theorem PSim.ssize (h : PSim cfg p s bs x) : p.tab.size = s.size := by
  rw [h.size, St.size, h.core.ents, List.length_map]

theorem PSim.bucketFor (h : PSim cfg p s bs x) (n : Nat) : p.tab.bucketFor n = s.bucketFor n := by
  unfold Chain.Tab.bucketFor St.bucketFor; rw [h.slen]

theorem PSim.perm (h : PSim cfg p s bs x) {x' : List Nat} (hp : x'.Perm x) : PSim cfg p s bs x' :=
  { h with core := h.core.perm hp }

/-- What a walk leaves alone. -/
structure Undisturbed (p p' : PSt K V E) (bs bs' : List (List Nat)) : Prop where
  obj : ∀ j, j ∉ bs.flatten → p'.obj j = p.obj j
  hdl : p'.handles = p.handles
  sub : ∀ j ∈ bs'.flatten, j ∈ bs.flatten

theorem PSim.walkBucket (h : PSim cfg p s bs x) (act : Nat → Entry K V E → Act V E) (n : Nat) :
    ∃ p' bs', p.walkBucket cfg n act = some (p', (walkOf cfg act (s.bucket (s.bucketFor n))).hit) ∧
      PSim cfg p' (applyWalk cfg s (s.bucketFor n) (walkOf cfg act (s.bucket (s.bucketFor n)))) bs' x ∧ Undisturbed p p' bs bs' ∧
      (∀ i l, (walkOf cfg act (s.bucket (s.bucketFor n))).hit = some (i, l) → i ∈ bs'.flatten) := by
  unfold PSt.walkBucket
  rw [h.bucketFor n]
  by_cases h0 : s.tbl.length = 0
  · have hb0 : s.bucketFor n = 0 := by simp [St.bucketFor, h0]
    have ht : s.tbl = [] := List.length_eq_zero_iff.1 h0
    have hbk : s.bucket 0 = [] := by simp [St.bucket, ht]
    rw [hb0, hbk]
    refine ⟨p, bs, ?_, ?_, ⟨fun _ _ => rfl, rfl, fun _ hj => hj⟩, by simp [walkOf]⟩
    · have : p.tab.slots.length = 0 := by rw [h.slen, h0]
      simp only [Chain.Tab.beforeBeginB, Chain.Tab.beforeEndB, this, if_true, Option.bind_eq_bind, Option.bind_some]
      rw [pwalk.eq_def]; simp [walkOf]
    · have hw : applyWalk cfg s 0 (walkOf cfg act []) = s := by
        simp only [applyWalk, St.setBucket, walkOf, dispose_nil, ht, List.set_nil]
        rw [← ht]
      rw [hw]; exact h
  · have hlt : s.bucketFor n < bs.length := by
      rw [← h.len]; unfold St.bucketFor; rw [if_neg h0]; exact Nat.mod_lt _ (by omega)
    have hg := gfold_apply (cfg := cfg) act h.idsNd (i := s.bucketFor n) (by rw [h.len]; exact hlt)
    generalize hi : s.bucketFor n = i at hlt hg
    obtain ⟨as, b, cs, rfl, rfl⟩ := Chain.split_at hlt
    have hbk : s.bucket as.length = b.map p.obj := by simp [St.bucket, h.tbl]
    rw [hbk] at hg ⊢
    have e1 := h.rep.slot_before
    have e2 := h.rep.slot_last
    have e0 : ¬ p.tab.slots.length = 0 := by rw [h.slen]; exact h0
    obtain ⟨p', bs', hit, w1, w2, w3, w4, w5, w6, w7, w8⟩ := PSim.walk act b p.tab.size p s _ as.flatten cs.flatten h (by simp)
      (by rw [h.size]; simp; omega)
    rw [hg] at w2 w3
    have w2' : hit = (walkOf cfg act (b.map p.obj)).hit := by
      have := congrArg Prod.snd w2; exact this.symm
    refine ⟨p', bs', ?_, w3, ⟨w5, w6, w7⟩, by rw [← w2']; exact w8⟩
    simp only [e1, Chain.Tab.beforeEndB, e0, if_false, e2, Option.bind_eq_bind, Option.bind_some, w1, w2']

theorem PSim.walkAll (h : PSim cfg p s bs x) (act : Nat → Entry K V E → Act V E) :
    ∃ p' bs', p.walkAll cfg act = some p' ∧ PSim cfg p' (gfold cfg act s s.ents).1 bs' x ∧ Undisturbed p p' bs bs' ∧
      bs'.length = bs.length := by
  unfold PSt.walkAll
  have hbe : p.tab.beforeEnd = some (slotOf p.tab.own bs.flatten) := by
    unfold Chain.Tab.beforeEnd
    by_cases h0 : bs = []
    · subst h0
      have : p.tab.slots.length = 0 := by rw [h.rep.length]; rfl
      simp [this, slotOf]
    · obtain ⟨as, b, hb⟩ : ∃ as b, bs = as ++ [b] := ⟨bs.dropLast, bs.getLast h0, (List.dropLast_concat_getLast h0).symm⟩
      subst hb
      have hl : p.tab.slots.length = as.length + 1 := by rw [h.rep.length]; simp
      rw [hl, if_neg (by omega)]
      have := h.rep.slot_last (as := as) (b := b) (cs := [])
      simpa using this
  obtain ⟨p', bs', hit, w1, w2, w3, w4, w5, w6, w7, w8⟩ := PSim.walk act bs.flatten p.tab.size p s bs [] [] h (by simp)
    (by rw [h.size]; exact Nat.le_refl _)
  rw [← h.core.ents] at w3
  refine ⟨p', bs', ?_, w3, ⟨w5, w6, w7⟩, w4⟩
  have hs : slotOf p.tab.own ([] : List Nat) = p.tab.beforeBegin := rfl
  rw [hs, List.nil_append] at w1
  simp only [hbe, w1, Option.bind_eq_bind, Option.bind_some]

theorem PSim.beforeLink (h : PSim cfg p s bs x) (env : Env V) :
    ∃ p' bs', p.beforeLink cfg env = some p' ∧ PSim cfg p' (beforeLink cfg env s) bs' x ∧ Undisturbed p p' bs bs' := by
  unfold PSt.beforeLink Hoard.beforeLink
  rw [h.ssize, h.slen]
  split
  · obtain ⟨p', bs', h1, h2, h3, _⟩ := h.walkAll (purgeAct env)
    rw [gfold_purge env h.idsNd] at h2
    exact ⟨p', bs', h1, h2, h3⟩
  · exact ⟨p, bs, rfl, h, ⟨fun _ _ => rfl, rfl, fun _ hj => hj⟩⟩

theorem PSim.mustGrow (h : PSim cfg p s bs x) : p.mustGrow cfg = Hoard.mustGrow cfg s := by
  unfold PSt.mustGrow Hoard.mustGrow; rw [h.ssize, h.slen]

theorem place_map (obj : Nat → Entry K V E) (B : List (List Nat)) (i : Nat) :
    place cfg (B.map (·.map obj)) (obj i) = (insB (cfg.hash (obj i).key % B.length) i B).map (·.map obj) := by
  unfold place insB
  rw [List.length_map]
  apply List.ext_getElem?
  intro j
  simp only [List.getElem?_modify, List.getElem?_map]
  cases B[j]? with
  | none => simp
  | some b => by_cases hj : cfg.hash (obj i).key % B.length = j <;> simp [hj]

theorem redistribute_map (obj : Nat → Entry K V E) (hash : Nat → Nat) (n : Nat) (l : List Nat)
    (hh : ∀ i ∈ l, hash i = cfg.hash (obj i).key) :
    (l.map obj).foldl (place cfg) (List.replicate n []) = (distribute hash n l).map (·.map obj) := by
  induction h : l.length generalizing l with
  | zero =>
    obtain rfl := List.length_eq_zero_iff.1 h
    rw [Chain.distribute_nil]; simp
  | succ m ih =>
    obtain ⟨l', i, rfl⟩ := last_of_ne (l := l) (by rintro rfl; simp at h)
    rw [List.map_append, List.foldl_append, ih l' (fun j hj => hh j (by simp [hj])) (by simpa using h),
      Chain.distribute_concat]
    simp only [List.map_cons, List.map_nil, List.foldl_cons, List.foldl_nil]
    rw [place_map, hh i (by simp), Chain.distribute_length]

theorem distribute_perm {h : Nat → Nat} {n : Nat} (hn : 0 < n) (l : List Nat) : (distribute h n l).flatten.Perm l := by
  induction hl : l.length generalizing l with
  | zero =>
    obtain rfl := List.length_eq_zero_iff.1 hl
    rw [Chain.distribute_nil]; simp
  | succ m ih =>
    obtain ⟨l', i, rfl⟩ := last_of_ne (l := l) (by rintro rfl; simp at hl)
    rw [Chain.distribute_concat]
    have hlt : h i % n < (distribute h n l').length := by rw [Chain.distribute_length]; exact Nat.mod_lt _ hn
    have := ih l' (by simpa using hl)
    obtain ⟨as, b, cs, h1, h2⟩ := Chain.split_at hlt
    rw [h1] at this
    rw [h1, ← h2, Chain.insB_split]
    simp only [List.flatten_append, List.flatten_cons] at this ⊢
    rw [List.perm_iff_count] at this ⊢
    intro a
    have := this a
    simp only [List.count_append] at this ⊢
    omega

theorem refsOf_perm {a b : List (Entry K V E)} (h : a.Perm b) : (refsOf a).Perm (refsOf b) := by
  induction h with
  | nil => exact .refl _
  | cons e _ ih => exact ih.append_left _
  | swap e f l =>
    show (olds f.mapped.cbs ++ (olds e.mapped.cbs ++ refsOf l)).Perm (olds e.mapped.cbs ++ (olds f.mapped.cbs ++ refsOf l))
    rw [← List.append_assoc, ← List.append_assoc]
    exact List.perm_append_comm.append_right _
  | trans _ _ h1 h2 => exact h1.trans h2

/-- A different order of the linked entries. -/
theorem Core.reorder {ls ls' : List Nat} (h : Core cfg p s ls x) (hp : ls'.Perm ls) (t' : List (List (Entry K V E)))
    (ht : t'.flatten = ls'.map p.obj) (tab : Chain.Tab) : Core cfg { p with tab := tab } { s with tbl := t' } ls' x := by
  have hr : (refsOf t'.flatten).Perm (refsOf s.ents) := by
    rw [ht, h.ents]; exact refsOf_perm (hp.map _)
  refine
    { ents := ht, oid := fun i hi => h.oid i (hp.mem_iff.1 hi), nd := (hp.append_right _).nodup_iff.2 h.nd,
      lt := fun i hi => h.lt i ((hp.append_right _).mem_iff.1 hi), lim := h.lim, lcb := h.lcb, bqr := h.bqr,
      bqi := fun hm => ⟨(h.bqi hm).1, (h.bqi hm).2.trans hp.symm⟩, dqr := h.dqr, dqn := h.dqn,
      dqm := fun i hi => hp.mem_iff.2 (h.dqm i hi), dqe := h.dqe, nid := h.nid, ops := h.ops, des := h.des, rc := ?_,
      hnd := h.hnd, opn := h.opn, kn := ?_, kx := ?_ }
  · intro i
    show p.rc i = _
    rw [h.rc]
    have h1 := hp.count_eq i
    have h2 := hr.count_eq i
    simp only [List.count_append, St.ents] at h2 ⊢
    omega
  · intro i hi
    refine (hp.append_right _).mem_iff.2 (h.kn i ?_)
    exact (hr.append_left p.handles).mem_iff.1 hi
  · intro i hi
    rcases h.kx i hi with h1 | h1
    · exact Or.inl ((hp.append_right _).mem_iff.2 h1)
    · exact Or.inr h1

theorem PSim.rehash (h : PSim cfg p s bs x) {n : Nat} (hn : 0 < n) :
    ∃ t bs', p.tab.rehash n = some t ∧ PSim cfg { p with tab := t } (rehash cfg s n) bs' x ∧ bs'.length = n ∧
      bs'.flatten.Perm bs.flatten := by
  obtain ⟨t, r1, r2, r3, r4, r5, r6⟩ := Chain.rep_rehash h.rep h.size hn
  have hp := distribute_perm (h := p.tab.hash) hn bs.flatten
  have htb : (Hoard.rehash cfg s n).tbl = (distribute p.tab.hash n bs.flatten).map (·.map p.obj) := by
    show s.ents.foldl (place cfg) (List.replicate n []) = _
    rw [h.core.ents]; exact redistribute_map p.obj p.tab.hash n bs.flatten h.hsh
  refine ⟨t, _, r1, ⟨?_, r2, ?_, htb, ?_, ?_⟩, Chain.distribute_length _ _ _, hp⟩
  · exact h.core.reorder hp _ (by show (Hoard.rehash cfg s n).tbl.flatten = _; rw [htb, ← List.map_flatten]) t
  · show t.size = _; rw [r4, h.size, hp.length_eq]
  · intro i hi
    show t.hash i = _
    rw [r3]; exact h.hsh i (hp.mem_iff.1 hi)
  · intro i hi
    have hi' : i ∉ bs.flatten := fun hm => hi (hp.mem_iff.2 hm)
    show t.next i = none
    rw [r6 i hi']; exact h.nxt i hi'

theorem PSim.maybeRehash (h : PSim cfg p s bs x) (env : Env V) :
    ∃ p' bs', p.maybeRehash cfg env = some p' ∧ PSim cfg p' (maybeRehash cfg env s) bs' x ∧ Undisturbed p p' bs bs' := by
  obtain ⟨p1, bs1, h1, h2, h3⟩ := h.beforeLink env
  unfold PSt.maybeRehash Hoard.maybeRehash
  simp only [h1, Option.bind_eq_bind, Option.bind_some, h2.mustGrow]
  cases hg : Hoard.mustGrow cfg (Hoard.beforeLink cfg env s) with
  | false => exact ⟨p1, bs1, by simp, by simpa using h2, h3⟩
  | true =>
    simp only [if_true]
    obtain ⟨t, bs', e1, e2, e3, e4⟩ := h2.rehash (grown_pos hg)
    rw [h2.slen, e1]
    exact ⟨_, bs', rfl, e2, ⟨h3.obj, h3.hdl, fun j hj => h3.sub j (e4.mem_iff.1 hj)⟩⟩

/-- Modification of the object `i` in both states, callbacks untouched. -/
theorem PSim.wr (h : PSim cfg p s bs x) {i : Nat} {f : Entry K V E → Entry K V E} (hi : 0 < p.rc i)
    (hid : IdKey f) (hcb : ∀ e, (f e).mapped.cbs = e.mapped.cbs) :
    p.wr i f = some (p.setObj i f) ∧ PSim cfg (p.setObj i f) (s.modify i f) bs x :=
  ⟨PSt.wr_eq hi, h.set_same hid hcb⟩

theorem strengthen_cbs (env : Env V) (e : Entry K V E) : (e.upd (.strengthen env)).mapped.cbs = e.mapped.cbs := by
  cases hm : e.mapped with
  | pending q => simp only [Entry.upd, Mapped.strengthen, hm]; split <;> rfl
  | weak v => simp only [Entry.upd, Mapped.strengthen, hm]; split <;> rfl
  | value v => simp [Entry.upd, Mapped.strengthen, hm]
  | gone => simp [Entry.upd, Mapped.strengthen, hm]
  | error v => simp [Entry.upd, Mapped.strengthen, hm]
  | void => simp [Entry.upd, Mapped.strengthen, hm]

theorem mark_cbs (e : Entry K V E) : (e.upd .markExpired).mapped.cbs = e.mapped.cbs := by
  cases hm : e.mapped <;> simp [Entry.upd, Mapped.markExpired, hm, Mapped.cbs]

theorem weaken_cbs (b : Bool) (e : Entry K V E) : (e.upd (.weaken b)).mapped.cbs = e.mapped.cbs := by
  cases hm : e.mapped with
  | value v => simp only [Entry.upd, Mapped.weaken, hm]; split <;> rfl
  | pending q => simp [Entry.upd, Mapped.weaken, hm, Mapped.cbs]
  | weak v => simp [Entry.upd, Mapped.weaken, hm]
  | gone => simp [Entry.upd, Mapped.weaken, hm]
  | error v => simp [Entry.upd, Mapped.weaken, hm, Mapped.cbs]
  | void => simp [Entry.upd, Mapped.weaken, hm, Mapped.cbs]

/-- Parts of the state that most steps leave alone. -/
structure Fix (p p' : PSt K V E) : Prop where
  rc : p'.rc = p.rc
  hdl : p'.handles = p.handles

theorem PSim.onHit (h : PSim cfg p s bs x) (env : Env V) {i : Nat} (hi : i ∈ bs.flatten) :
    ∃ p', p.onHit cfg env i = some p' ∧ PSim cfg p' (onHit cfg env s i) bs x := by
  have hs1 : ∃ p1, p.hitPq cfg env i = some p1 ∧ p1.rc = p.rc ∧ PSim cfg p1
      (if cfg.maxSize.isSome then { s.modify i (·.upd (.strengthen env)) with bq := s.bq.onHit i } else s) bs x := by
    unfold PSt.hitPq
    by_cases hm : cfg.maxSize.isSome = true
    · simp only [hm, if_true]
      obtain ⟨hI, hP⟩ := h.core.bqi hm
      have hmem := hP.mem_iff.2 hi
      obtain ⟨q, eq, rq⟩ := PQ.rel_onHit h.core.bqr hI hmem
      have h1 : PSim cfg { p with pq := q } { s with bq := s.bq.onHit i } bs x := by
        refine { core := { h.core with bqr := rq, bqi := fun _ => ?_ }, rep := h.rep, size := h.size, tbl := h.tbl, hsh := h.hsh, nxt := h.nxt }
        obtain ⟨hs, cs, hsh⟩ := hI
        obtain ⟨hs', cs', g1, g2⟩ := BQ.shape_onHit hsh hmem
        refine ⟨⟨_, _, g1⟩, ?_⟩
        show (s.bq.onHit i).q.Perm _
        rw [g1.q, g2, ← hsh.q]
        exact (List.perm_cons_erase hmem).symm.trans hP
      have hpos : 0 < PSt.rc { p with pq := q } i := h.core.pos_ls hi
      obtain ⟨w1, w2⟩ := h1.wr (f := (·.upd (.strengthen env))) hpos (IdKey.upd _) (strengthen_cbs env)
      refine ⟨PSt.setObj { p with pq := q } i (·.upd (.strengthen env)), ?_, rfl, w2⟩
      simp only [eq, Option.bind_eq_bind, Option.bind_some, w1]
    · simp only [hm]
      exact ⟨p, rfl, rfl, h⟩
  obtain ⟨p1, e1, r1, h1⟩ := hs1
  unfold PSt.onHit Hoard.onHit
  simp only [e1, Option.bind_eq_bind, Option.bind_some]
  cases hr : cfg.refresh with
  | none => exact ⟨p1, rfl, h1⟩
  | some di =>
    obtain ⟨d, idle⟩ := di
    simp only
    by_cases h0 : idle = 0
    · simp only [h0, if_true]; exact ⟨p1, rfl, h1⟩
    · simp only [h0, if_false]
      obtain ⟨w1, w2⟩ := h1.wr (i := i) (f := fun e => if e.mapped.holdsValue env then { e with canTp := some (env.now + idle) } else e)
        (by rw [r1]; exact h.core.pos_ls hi) (by intro e; constructor <;> (dsimp only; split <;> rfl)) (by intro e; split <;> rfl)
      exact ⟨_, w1, w2⟩

theorem PSim.onAssign (h : PSim cfg p s bs x) (env : Env V) {i : Nat} (hi : i ∈ bs.flatten) (hd : i ∉ s.delayQ) (b : Bool) :
    ∃ p', p.onAssign cfg env i b = some p' ∧ PSim cfg p' (onAssign cfg env s i b) bs x ∧ p'.rc = p.rc ∧ p'.handles = p.handles := by
  obtain ⟨w1, w2⟩ := h.wr (i := i) (f := assignTimes cfg env b) (h.core.pos_ls hi) (assignTimes_idKey cfg env b)
    (fun e => by rw [(assignTimes_mapped cfg env b e).1])
  unfold PSt.onAssign Hoard.onAssign
  simp only [w1, Option.bind_eq_bind, Option.bind_some]
  by_cases hc : (cfg.refresh.isSome && b) = true
  · simp only [hc, if_true]
    obtain ⟨H, e1, r1⟩ := linkRep_back (i := i) w2.core.dqr hd
    refine ⟨{ p.setObj i (assignTimes cfg env b) with dq := H }, by rw [show (p.setObj i (assignTimes cfg env b)).dq = p.dq from rfl] at *; rw [e1]; rfl, ?_, rfl, rfl⟩
    refine { core := { w2.core with dqr := r1, dqn := ?_, dqm := ?_, dqe := ?_ }, rep := w2.rep, size := w2.size, tbl := w2.tbl, hsh := w2.hsh, nxt := w2.nxt }
    · show (s.delayQ ++ [i]).Nodup
      rw [List.nodup_append]
      refine ⟨h.core.dqn, by simp, ?_⟩
      rintro a ha c hc rfl
      obtain rfl : a = i := by simpa using hc
      exact hd ha
    · intro j hj
      have hj : j ∈ s.delayQ ++ [i] := hj
      rcases List.mem_append.1 hj with hj | hj
      · exact h.core.dqm j hj
      · obtain rfl : j = i := by simpa using hj
        exact hi
    · intro hr; rw [hr] at hc; simp at hc
  · simp only [hc]
    exact ⟨_, rfl, w2, rfl, rfl⟩

/-- Putting a new entry into the set of linked ones. -/
theorem Core.add {ls ls' : List Nat} (h : Core cfg p s ls (p.nextId :: x)) (hp : ls'.Perm (p.nextId :: ls))
    (hoid : (p.obj p.nextId).id = p.nextId) (hcb : (p.obj p.nextId).mapped.cbs = [])
    (t' : List (List (Entry K V E))) (ht : t'.flatten = ls'.map p.obj) (tab : Chain.Tab) (env : Env V) :
    ∃ p', PSt.onCreate cfg env { p with tab := tab, nextId := p.nextId + 1 } p.nextId = some p' ∧
      Core cfg p' (onCreate cfg env { s with tbl := t', nextId := s.nextId + 1 } p.nextId) ls' x ∧ p'.tab = tab ∧
      (∀ j, (p'.obj j).key = (p.obj j).key) ∧ p'.rc = p.rc ∧ p'.handles = p.handles ∧
      (onCreate cfg env { s with tbl := t', nextId := s.nextId + 1 } p.nextId).tbl = t'.map (·.map (fun e => p'.obj e.id)) ∧
      p'.obj p.nextId = p.obj p.nextId := by
  have hnew : ∀ j ∈ ls ++ s.limbo.map (·.id), j ≠ p.nextId := by
    intro j hj; have := h.lt j hj; rw [h.nid]; omega
  have hr : refsOf t'.flatten = refsOf (ls'.map p.obj) := by rw [ht]
  have hr2 : (refsOf t'.flatten).Perm (refsOf s.ents) := by
    rw [ht, h.ents]
    refine (refsOf_perm (hp.map p.obj)).trans ?_
    simp only [List.map_cons, refsOf, List.flatMap_cons, hcb]
    exact .refl _
  have hmem : ∀ j, j ∈ ls' ++ s.limbo.map (·.id) ↔ j = p.nextId ∨ j ∈ ls ++ s.limbo.map (·.id) := by
    intro j
    rw [(hp.append_right _).mem_iff]; simp
  have hoidl : ∀ i ∈ ls', (p.obj i).id = i := by
    intro i hi
    rcases List.mem_cons.1 (hp.mem_iff.1 hi) with rfl | hi
    · exact hoid
    · exact h.oid i hi
  have hnotq : cfg.maxSize.isSome = true → p.nextId ∉ s.bq.q := by
    intro hm hq
    exact hnew _ (by simp [(h.bqi hm).2.mem_iff.1 hq]) rfl
  -- everything except the recency queue
  have base : ∀ (q : PQ) (b : BQ), q.Rel b → (cfg.maxSize.isSome = true → b.Inv ∧ b.q.Perm ls') →
      Core cfg { p with tab := tab, nextId := p.nextId + 1, pq := q } { s with tbl := t', nextId := s.nextId + 1, bq := b } ls' x := by
    intro q b hq hb
    refine
      { ents := ht, oid := hoidl, nd := ?_, lt := ?_, lim := h.lim, lcb := h.lcb, bqr := hq, bqi := hb, dqr := h.dqr, dqn := h.dqn,
        dqm := fun i hi => hp.mem_iff.2 (by simp [h.dqm i hi]), dqe := h.dqe, nid := by show p.nextId + 1 = _; rw [h.nid], ops := h.ops, des := h.des,
        rc := ?_, hnd := h.hnd, opn := h.opn, kn := ?_, kx := ?_ }
    · refine (hp.append_right _).nodup_iff.2 ?_
      rw [List.cons_append, List.nodup_cons]
      exact ⟨fun hm => hnew _ hm rfl, h.nd⟩
    · intro i hi
      show i < s.nextId + 1
      rcases (hmem i).1 hi with rfl | hi
      · rw [h.nid]; omega
      · have := h.lt i hi; omega
    · intro i
      show p.rc i = _
      rw [h.rc]
      have h1 := hp.count_eq i
      have h2 := hr2.count_eq i
      simp only [List.count_append, List.count_cons, St.ents] at h1 h2 ⊢
      omega
    · intro i hi
      refine (hmem i).2 (Or.inr (h.kn i ?_))
      exact (hr2.append_left p.handles).mem_iff.1 hi
    · intro i hi
      rcases h.kx i (by simp [hi]) with h1 | h1
      · exact Or.inl ((hmem i).2 (Or.inr h1))
      · exact Or.inl ((hmem i).2 (Or.inl h1.1))
  have htb : ∀ (o : Nat → Entry K V E), o = p.obj → t' = t'.map (·.map (fun e => o e.id)) := by
    rintro o rfl
    conv => lhs; rw [← List.map_id t']
    apply List.map_congr_left
    intro b hb
    conv => lhs; rw [← List.map_id b]
    apply List.map_congr_left
    intro e he
    have : e ∈ t'.flatten := List.mem_flatten.2 ⟨b, hb, he⟩
    rw [ht] at this
    obtain ⟨j, hj, rfl⟩ := List.mem_map.1 this
    rw [hoidl j hj]; rfl
  unfold PSt.onCreate Hoard.onCreate
  by_cases hm : cfg.maxSize.isSome = true
  · simp only [hm, if_true]
    obtain ⟨hI, hP⟩ := h.bqi hm
    obtain ⟨q, e1, r1⟩ := PQ.rel_onCreate h.bqr hI (hnotq hm)
    have hb : (s.bq.onCreate p.nextId).1.Inv ∧ (s.bq.onCreate p.nextId).1.q.Perm ls' := by
      obtain ⟨hs, cs, hsh⟩ := hI
      obtain ⟨hs', cs', g1, g2, g3⟩ := BQ.shape_onCreate hsh (hnotq hm)
      refine ⟨⟨_, _, g1⟩, ?_⟩
      rw [g1.q]
      refine List.perm_middle.trans ?_
      rw [g2, ← hsh.q]
      exact (hP.cons _).trans hp.symm
    have c1 := base q _ r1 (fun _ => hb)
    simp only [e1, Option.bind_eq_bind, Option.bind_some]
    cases hstr : (s.bq.onCreate p.nextId).2 with
    | none =>
      exact ⟨_, rfl, c1, rfl, fun _ => rfl, rfl, rfl, htb _ rfl, rfl⟩
    | some m =>
      simp only
      have hm1 : m ∈ ls ∧ m ≠ p.nextId := by
        obtain ⟨hs, cs, hsh⟩ := hI
        obtain ⟨hs', cs', g1, g2, g3⟩ := BQ.shape_onCreate hsh (hnotq hm)
        rw [hstr] at g3
        split at g3
        · have hmq : m ∈ s.bq.q := by
            rw [hsh.q]; exact List.mem_append_right _ (List.mem_of_head? g3.symm)
          exact ⟨hP.mem_iff.1 hmq, fun hh => hnotq hm (hh ▸ hmq)⟩
        · cases g3
      have hpos := h.pos_ls hm1.1
      rw [PSt.wr_eq (p := { p with tab := tab, nextId := p.nextId + 1, pq := q }) hpos]
      have c2 := c1.set_same (i := m) (f := (·.upd (.strengthen env))) (fun _ => rfl) (strengthen_cbs env)
      refine ⟨_, rfl, c2, rfl, ?_, rfl, rfl, ?_, ?_⟩
      · intro j; simp only [PSt.setObj]; split
        · next hh => subst hh; rfl
        · rfl
      · simp only [St.modify]
        conv => lhs; rw [htb _ rfl]
        rw [List.map_map]
        apply List.map_congr_left
        intro b hb
        simp only [Function.comp, List.map_map]
        apply List.map_congr_left
        intro e he
        have : e ∈ t'.flatten := List.mem_flatten.2 ⟨b, hb, he⟩
        rw [ht] at this
        obtain ⟨j, hj, rfl⟩ := List.mem_map.1 this
        simp only [Function.comp, PSt.setObj, hoidl j hj]
        by_cases hjm : j = m
        · subst hjm; simp
        · simp [hjm]
      · simp only [PSt.setObj]; rw [if_neg (fun hh => hm1.2 hh.symm)]
  · simp only [hm]
    have c1 := base p.pq s.bq h.bqr (fun h => absurd h hm)
    exact ⟨_, rfl, c1, rfl, fun _ => rfl, rfl, rfl, htb _ rfl, rfl⟩

theorem PSim.ntbl (h : PSim cfg p s bs x) (hne : s.tbl ≠ []) : bs ≠ [] := by
  rintro rfl; apply hne; rw [h.tbl]; rfl

theorem insB_perm {i e : Nat} {B : List (List Nat)} (h : i < B.length) : (insB i e B).flatten.Perm (e :: B.flatten) := by
  obtain ⟨as, b, cs, rfl, rfl⟩ := Chain.split_at h
  rw [Chain.insB_split]
  rw [List.perm_iff_count]; intro a
  simp only [List.flatten_append, List.flatten_cons, List.count_append, List.count_cons, List.count_nil]
  omega

theorem insB_length {i e : Nat} {B : List (List Nat)} : (insB i e B).length = B.length := by simp [insB]

theorem PSim.link (h : PSim cfg p s bs (p.nextId :: x)) (env : Env V)
    (hoid : (p.obj p.nextId).id = p.nextId) (hcb : (p.obj p.nextId).mapped.cbs = []) :
    ∃ p' bs', p.link cfg env = some p' ∧ PSim cfg p' (Hoard.link cfg env s (p.obj p.nextId)) bs' x ∧
      p.nextId ∈ bs'.flatten ∧ p'.handles = p.handles ∧ (p'.obj p.nextId).mapped = (p.obj p.nextId).mapped ∧
      ((p.obj p.nextId).isPending = true → p.nextId ∉ (Hoard.link cfg env s (p.obj p.nextId)).delayQ) := by
  have hnl : p.nextId ∉ bs.flatten := by
    intro hm; have := h.core.lt p.nextId (by simp [hm]); rw [h.core.nid] at this; omega
  have hnid1 : (Hoard.maybeRehash cfg env s).nextId = s.nextId := (maybeRehash_same cfg env s).nextId
  obtain ⟨p1, bs1, e1, h1, k1⟩ := h.maybeRehash env
  have hn1 : p1.nextId = p.nextId := by rw [h1.core.nid, hnid1, h.core.nid]
  have ho1 : p1.obj p.nextId = p.obj p.nextId := k1.obj _ hnl
  have hpos1 : 0 < p1.rc p.nextId := h1.core.pos_x (by simp)
  have hne := maybeRehash_ne (cfg := cfg) env s
  have hbne := h1.ntbl hne
  generalize hs1 : Hoard.maybeRehash cfg env s = s1 at h1 hne hnid1
  have hlen : 0 < bs1.length := List.length_pos_iff.2 hbne
  have hni1 : p.nextId ∉ bs1.flatten := fun hm => hnl (k1.sub _ hm)
  let hv := cfg.hash (p.obj p.nextId).key
  let c1 : Chain.Tab := { p1.tab with hash := fun y => if y = p.nextId then hv else p1.tab.hash y }
  have hrep1 : Rep c1 bs1 := by
    refine ⟨h1.rep.path, h1.rep.slots, h1.rep.nodup, ?_⟩
    intro i b hb e he
    show (if e = p.nextId then hv else p1.tab.hash e) % _ = i
    rw [if_neg]
    · exact h1.rep.hash i b hb e he
    · rintro rfl
      exact hni1 (List.mem_flatten.2 ⟨b, List.mem_of_getElem? hb, he⟩)
  obtain ⟨c2, a1, a2, a3, a4, a5, a6⟩ := Chain.rep_append' (c := c1) hrep1 hni1 hbne
  have hc1h : c1.hash p.nextId = hv := by simp [c1]
  rw [hc1h] at a1 a2
  let c3 : Chain.Tab := { c2 with size := c2.size + 1 }
  have hbf : p1.tab.bucketFor hv = hv % bs1.length := by
    rw [Chain.Tab.bucketFor, h1.rep.length, if_neg (by omega)]
  have hbi : hv % bs1.length < bs1.length := Nat.mod_lt _ hlen
  have hslot : ∃ sl, p1.tab.slots[p1.tab.bucketFor hv]? = some sl ∧ p1.slotOk sl = true := by
    rw [hbf]
    obtain ⟨as, b, cs, hh, h2⟩ := Chain.split_at hbi
    have := h1.rep
    rw [hh] at this
    rw [← h2]
    refine ⟨_, this.slot_last, ?_⟩
    exact h1.slotOk (pre := as.flatten ++ b) (post := cs.flatten) (by rw [hh]; simp)
  obtain ⟨sl, sl1, sl2⟩ := hslot
  have hlink : p1.tab.link hv p.nextId = some c3 := by
    unfold Chain.Tab.link
    show Option.map _ (c1.append (c1.bucketFor hv) p.nextId) = _
    rw [a1]; rfl
  have hperm := insB_perm (e := p.nextId) hbi
  have htbl : place cfg s1.tbl (p.obj p.nextId) = (insB (hv % bs1.length) p.nextId bs1).map (·.map p1.obj) := by
    rw [h1.tbl, ← ho1, place_map, ho1]
  have hcore := h1.core
  rw [← hn1] at hcore
  obtain ⟨p3, d1, d2, d3, d4, d5, d6, d7, d8⟩ := hcore.add (ls' := (insB (hv % bs1.length) p.nextId bs1).flatten) (by rw [hn1]; exact hperm)
    (by rw [hn1, ho1, hoid]) (by rw [hn1, ho1, hcb]) (place cfg s1.tbl (p.obj p.nextId)) (by rw [htbl, ← List.map_flatten]) c3 env
  rw [hn1] at d1 d2 d7 d8
  have hsim3 : PSim cfg p3 (Hoard.onCreate cfg env { s1 with tbl := place cfg s1.tbl (p.obj p.nextId), nextId := s1.nextId + 1 } p.nextId)
      (insB (hv % bs1.length) p.nextId bs1) x := by
    refine ⟨d2, ?_, ?_, ?_, ?_, ?_⟩
    · rw [d3]; exact ⟨a2.path, a2.slots, a2.nodup, a2.hash⟩
    · rw [d3, hperm.length_eq]; show c2.size + 1 = _
      rw [a5]; show p1.tab.size + 1 = _; rw [h1.size]; rfl
    · rw [d7, htbl, List.map_map]
      apply List.map_congr_left
      intro b hb
      simp only [Function.comp, List.map_map]
      apply List.map_congr_left
      intro j hj
      simp only [Function.comp]
      have hjm := hperm.mem_iff.1 (List.mem_flatten.2 ⟨b, hb, hj⟩)
      rcases List.mem_cons.1 hjm with rfl | hjm
      · rw [ho1, hoid]
      · rw [h1.core.oid j hjm]
    · intro j hj
      rw [d3, d4]
      show c2.hash j = _
      rw [a4]
      show (if j = p.nextId then hv else p1.tab.hash j) = _
      rcases List.mem_cons.1 (hperm.mem_iff.1 hj) with rfl | hj'
      · rw [if_pos rfl, ho1]
      · rw [if_neg (by rintro rfl; exact hni1 hj')]
        exact h1.hsh j hj'
    · intro j hj
      have hj' : j ≠ p.nextId ∧ j ∉ bs1.flatten := by
        constructor
        · rintro rfl; exact hj (hperm.mem_iff.2 (by simp))
        · intro hm; exact hj (hperm.mem_iff.2 (by simp [hm]))
      rw [d3]
      show c2.next j = none
      rw [a3 j hj'.2 hj'.1]
      exact h1.nxt j hj'.2
  have hin : p.nextId ∈ (insB (hv % bs1.length) p.nextId bs1).flatten := hperm.mem_iff.2 (by simp)
  have hrd : p1.rd p.nextId = some (p.obj p.nextId) := by rw [PSt.rd_eq hpos1, ho1]
  have hunf : p.link cfg env = (if (p.obj p.nextId).isPending then some p3
      else p3.onAssign cfg env p.nextId ((p.obj p.nextId).mapped.holdsValue env)) := by
    unfold PSt.link
    simp only [e1, Option.bind_eq_bind, Option.bind_some, hrd]
    show (p1.tab.slots[p1.tab.bucketFor hv]?).bind _ = _
    rw [sl1]
    simp only [Option.bind_some, sl2, Bool.true_eq_false, if_false]
    show (p1.tab.link hv p.nextId).bind _ = _
    rw [hlink]
    simp only [Option.bind_some, d1]
  have hunf2 : Hoard.link cfg env s (p.obj p.nextId) =
      (if (p.obj p.nextId).isPending then
        Hoard.onCreate cfg env { s1 with tbl := place cfg s1.tbl (p.obj p.nextId), nextId := s1.nextId + 1 } p.nextId
      else Hoard.onAssign cfg env (Hoard.onCreate cfg env { s1 with tbl := place cfg s1.tbl (p.obj p.nextId), nextId := s1.nextId + 1 } p.nextId)
        p.nextId ((p.obj p.nextId).mapped.holdsValue env)) := by
    unfold Hoard.link; simp only [hs1, hoid]
  rw [hunf, hunf2]
  have hmap3 : (p3.obj p.nextId).mapped = (p.obj p.nextId).mapped := by rw [d8, ho1]
  have hdq : p.nextId ∉ (Hoard.onCreate cfg env { s1 with tbl := place cfg s1.tbl (p.obj p.nextId), nextId := s1.nextId + 1 } p.nextId).delayQ := by
    have : (Hoard.onCreate cfg env { s1 with tbl := place cfg s1.tbl (p.obj p.nextId), nextId := s1.nextId + 1 } p.nextId).delayQ = s1.delayQ := by
      unfold Hoard.onCreate; split
      · simp only; split <;> rfl
      · rfl
    rw [this]
    intro hm; exact hni1 (h1.core.dqm _ hm)
  by_cases hpend : (p.obj p.nextId).isPending = true
  · simp only [hpend, if_true]
    exact ⟨p3, _, rfl, hsim3, hin, by rw [d6, k1.hdl], hmap3, fun _ => hdq⟩
  · simp only [hpend, Bool.false_eq_true, if_false]
    obtain ⟨p4, f1, f2, f3, f4⟩ := hsim3.onAssign env hin hdq ((p.obj p.nextId).mapped.holdsValue env)
    refine ⟨p4, _, f1, f2, hin, by rw [f4, d6, k1.hdl], ?_, by simp⟩
    have g1 := hsim3.core.find hin
    have g2 := f2.core.find hin
    -- the mapped part is not changed by on_assign
    unfold PSt.onAssign at f1
    rw [PSt.wr_eq (hsim3.core.pos_ls hin)] at f1
    simp only [Option.bind_eq_bind, Option.bind_some] at f1
    have hobj : (p4.obj p.nextId) = assignTimes cfg env ((p.obj p.nextId).mapped.holdsValue env) (p3.obj p.nextId) := by
      split at f1
      · cases hlb : DL.linkBack (p3.setObj p.nextId (assignTimes cfg env ((p.obj p.nextId).mapped.holdsValue env))).dq 0 (p.nextId + 1) with
        | none => rw [hlb] at f1; simp at f1
        | some H => rw [hlb] at f1; simp only [Option.bind_some, Option.some.injEq] at f1; rw [← f1]; simp [PSt.setObj]
      · simp only [Option.some.injEq] at f1; rw [← f1]; simp [PSt.setObj]
    rw [hobj, (assignTimes_mapped cfg env _ _).1, hmap3]

theorem PSim.evictAll : ∀ (vs : List Nat) (p : PSt K V E) (s : St K V E), PSim cfg p s bs x → (∀ i ∈ vs, i ∈ bs.flatten) →
    ∃ p', p.evictAll cfg vs = some p' ∧ PSim cfg p' (Hoard.evictAll cfg s vs) bs x ∧ p'.handles = p.handles := by
  intro vs
  induction vs with
  | nil => intro p s h _; exact ⟨p, rfl, h, rfl⟩
  | cons i vs ih =>
    intro p s h hv
    obtain ⟨w1, w2⟩ := h.wr (i := i) (f := (·.upd (if cfg.weaken then .weaken cfg.ptr else .markExpired)))
      (h.core.pos_ls (hv i (by simp))) (IdKey.upd _) (by
        intro e; cases cfg.weaken
        · exact mark_cbs e
        · exact weaken_cbs _ e)
    obtain ⟨p', e1, e2, e3⟩ := ih _ _ w2 (fun j hj => hv j (by simp [hj]))
    refine ⟨p', ?_, e2, by rw [e3]; rfl⟩
    simp only [PSt.evictAll, w1, Option.bind_eq_bind, Option.bind_some, e1]

theorem PSim.maintenance (h : PSim cfg p s bs x) :
    ∃ p', p.maintenance cfg = some p' ∧ PSim cfg p' (Hoard.maintenance cfg s) bs x ∧ p'.handles = p.handles := by
  unfold PSt.maintenance Hoard.maintenance
  cases hm : cfg.maxSize with
  | none => exact ⟨p, rfl, h, rfl⟩
  | some m =>
    simp only
    obtain ⟨hI, hP⟩ := h.core.bqi (by simp [hm])
    have hv := PQ.rel_victims h.core.bqr p.tab.size (p.tab.size - m) (by rw [h.size, hP.length_eq]; exact Nat.le_refl _)
    rw [hv]
    simp only [Option.bind_eq_bind, Option.bind_some]
    rw [h.ssize]
    apply PSim.evictAll _ _ _ h
    intro i hi
    obtain ⟨hs, cs, hsh⟩ := hI
    have := (BQ.mem_victims hsh _ _).1 hi
    apply hP.mem_iff.1
    rw [hsh.q]; exact List.mem_append_right _ (List.mem_of_mem_drop this)

end Hoard
