import Verif.MachineOps
/-! Helper lemmas: the operations of the pointer-level cache, up to synchronous lookups. -/
namespace Hoard
open Chain (Rep slotOf Slot insB distribute)
variable {K V E : Type}
variable {cfg : Cfg K} {p : PSt K V E} {s : St K V E} {bs : List (List Nat)} {x : List Nat}

theorem PSim.dec {j : Nat} (h : PSim cfg p s bs (j :: x)) :
    ∃ p', p.dec j = some p' ∧ PSim cfg p' s bs x ∧ p'.obj = p.obj ∧ p'.handles = p.handles := by
  obtain ⟨p', e, c, rfl⟩ := h.core.dec
  exact ⟨_, e, ⟨c, h.rep, h.size, h.tbl, h.hsh, h.nxt⟩, rfl, rfl⟩

theorem PSim.inc {j : Nat} (h : PSim cfg p s bs x) (hp : 0 < p.rc j)
    (hk : j ∈ bs.flatten ++ s.limbo.map (·.id) ∨ (j = p.nextId ∧ (p.obj j).mapped.cbs = [])) :
    ∃ p', p.inc j = some p' ∧ PSim cfg p' s bs (j :: x) ∧ p'.obj = p.obj ∧ p'.handles = p.handles ∧ p'.nextId = p.nextId := by
  obtain ⟨p', e, c, rfl⟩ := h.core.inc hp hk
  exact ⟨_, e, ⟨c, h.rep, h.size, h.tbl, h.hsh, h.nxt⟩, rfl, rfl, rfl⟩

theorem PSim.known_lt (h : PSim cfg p s bs x) {i : Nat} (hi : i ∈ p.handles ++ refsOf s.ents) : i < p.nextId := by
  rw [h.core.nid]; exact h.core.lt i (h.core.kn i hi)

theorem PSim.alloc (h : PSim cfg p s bs x) (hx : p.nextId ∉ x) (k : K) {m : Mapped V E} (hm : m.cbs = []) :
    PSim cfg (p.alloc k m) s bs (p.nextId :: x) := by
  have hnl : ∀ j ∈ bs.flatten ++ s.limbo.map (·.id), j ≠ p.nextId := by
    intro j hj; have := h.core.lt j hj; rw [h.core.nid]; omega
  have hnb : ∀ j ∈ bs.flatten, j ≠ p.nextId := fun j hj => hnl j (by simp [hj])
  have hob : ∀ j, j ≠ p.nextId → (p.alloc k m).obj j = p.obj j := by
    intro j hj; simp [PSt.alloc, hj]
  have hmap : bs.flatten.map (p.alloc k m).obj = bs.flatten.map p.obj :=
    List.map_congr_left (fun j hj => hob j (hnb j hj))
  refine ⟨{ h.core with ents := ?_, oid := ?_, lim := ?_, rc := ?_, kx := ?_ }, h.rep, h.size, ?_, ?_, h.nxt⟩
  · rw [hmap]; exact h.core.ents
  · intro i hi; rw [hob i (hnb i hi)]; exact h.core.oid i hi
  · intro e he hr
    have hne := hnl e.id (by simp only [List.mem_append, List.mem_map]; exact Or.inr ⟨e, he, rfl⟩)
    rw [hob _ hne]
    apply h.core.lim e he
    simpa [PSt.alloc, hne] using hr
  · intro i
    have h1 := h.core.rc i
    show (if i = p.nextId then 1 else p.rc i) = _
    by_cases hi : i = p.nextId
    · subst hi
      have h2 : (bs.flatten ++ p.handles ++ x ++ refsOf s.ents).count p.nextId = 0 := by
        rw [List.count_eq_zero]
        intro hmem
        simp only [List.mem_append] at hmem
        rcases hmem with ((h1 | h1) | h1) | h1
        · exact hnb _ h1 rfl
        · have := h.known_lt (i := p.nextId) (by simp [h1]); omega
        · exact hx h1
        · have := h.known_lt (i := p.nextId) (by simp [h1]); omega
      simp only [List.count_append, List.count_cons, if_true] at h2 ⊢
      show 1 = bs.flatten.count p.nextId + p.handles.count p.nextId + _ + _
      simp
      omega
    · rw [if_neg hi, h1]
      simp only [List.count_append, List.count_cons]
      have : ¬ (p.nextId == i) = true := by simpa using fun h => hi h.symm
      simp [this, PSt.alloc]
  · intro i hi
    rcases List.mem_cons.1 hi with rfl | hi
    · right; refine ⟨rfl, ?_⟩; simp [PSt.alloc, hm]
    · rcases h.core.kx i hi with h1 | h1
      · exact Or.inl h1
      · exact absurd (h1.1 ▸ hi) hx
  · rw [h.tbl]
    apply List.map_congr_left
    intro b hb
    apply List.map_congr_left
    intro j hj
    exact (hob j (hnb j (List.mem_flatten.2 ⟨b, hb, hj⟩))).symm
  · intro i hi
    rw [hob i (hnb i hi)]; exact h.hsh i hi

theorem PSim.alloc_obj (h : PSim cfg p s bs x) (k : K) (m : Mapped V E) : (p.alloc k m).obj p.nextId = newEntry s k m := by
  simp [PSt.alloc, newEntry, h.core.nid]

theorem alloc_rc (k : K) (m : Mapped V E) : 0 < (p.alloc k m).rc p.nextId := by simp [PSt.alloc]

/-- The walk of a lookup. -/
abbrev lookup (cfg : Cfg K) (env : Env V) (s : St K V E) (k : K) (incl : Bool) : Option (Nat × Look V E) :=
  (getWalk cfg env k incl (s.bucket (s.bucketFor (cfg.hash k)))).hit

theorem PSim.get_ (h : PSim cfg p s bs x) (env : Env V) (k : K) (incl : Bool) :
    ∃ p' bs', p.get_ cfg env k incl = some (p', lookup cfg env s k incl) ∧ PSim cfg p' (Hoard.get_ cfg env s k incl).1 bs' x ∧
      (∀ i l, lookup cfg env s k incl = some (i, l) → i ∈ bs'.flatten) := by
  obtain ⟨p1, bs1, e1, h1, k1, m1⟩ := h.walkBucket (getAct cfg env k incl) (cfg.hash k)
  rw [walkOf_get] at e1 h1 m1
  unfold PSt.get_ Hoard.get_
  simp only [e1, Option.bind_eq_bind, Option.bind_some]
  unfold lookup
  cases hh : (getWalk cfg env k incl (s.bucket (s.bucketFor (cfg.hash k)))).hit with
  | none => exact ⟨p1, bs1, rfl, h1, by simp⟩
  | some il =>
    obtain ⟨i, l⟩ := il
    obtain ⟨p2, e2, h2⟩ := h1.onHit env (m1 i l hh)
    refine ⟨p2, bs1, ?_, h2, ?_⟩
    · simp only [e2, Option.bind_some]
    · intro i' l' hil
      simp only [Option.some.injEq, Prod.mk.injEq] at hil
      rw [← hil.1]; exact m1 i l hh

theorem get_look (env : Env V) (s : St K V E) (k : K) (incl : Bool) :
    (get_ cfg env s k incl).2 = match lookup cfg env s k incl with | none => .none | some (_, l) => l := by
  unfold get_ lookup; simp only; split <;> rename_i h <;> simp [h]

theorem getWalk_ne_none (env : Env V) (k : K) (incl : Bool) (es : List (Entry K V E)) {i : Nat} {l : Look V E}
    (h : (getWalk cfg env k incl es).hit = some (i, l)) : l ≠ .none := by
  induction es with
  | nil => simp [getWalk] at h
  | cons e es ih =>
    unfold getWalk at h
    split at h
    · split at h
      · exact ih h
      · exact ih h
    · split at h
      · split at h
        · exact ih h
        · exact ih h
      · split at h
        · exact ih h
        · rename_i l' hl
          simp only [Option.some.injEq, Prod.mk.injEq] at h
          rw [← h.2]; exact hl

theorem PSim.expire_ (h : PSim cfg p s bs x) (env : Env V) (k : K) :
    ∃ p' bs', p.expire_ cfg env k = some p' ∧ PSim cfg p' (Hoard.expire_ cfg env s k) bs' x := by
  obtain ⟨p1, bs1, e1, h1, k1, m1⟩ := h.walkBucket (expireAct cfg env k) (cfg.hash k)
  rw [walkOf_expire] at e1 h1
  unfold PSt.expire_ Hoard.expire_
  simp only [e1, Option.bind_eq_bind, Option.bind_some]
  exact ⟨p1, bs1, rfl, h1⟩

theorem PSim.clear (h : PSim cfg p s bs x) :
    ∃ p' bs', p.walkAll cfg expireAllAct = some p' ∧ PSim cfg p' (Hoard.clear cfg s) bs' x := by
  obtain ⟨p1, bs1, e1, h1, k1, m1⟩ := h.walkAll expireAllAct
  rw [gfold_expireAll h.idsNd] at h1
  exact ⟨p1, bs1, e1, h1⟩

theorem PSim.tryLink (h : PSim cfg p s bs []) (env : Env V) (k : K) {m : Mapped V E} (hm : m.cbs = []) (copy : Bool) (f : Fail) :
    ∃ p' bs', p.tryLink cfg env k m copy f = some (p', (Hoard.tryLink cfg env s (newEntry s k m) f).2) ∧
      PSim cfg p' (Hoard.tryLink cfg env s (newEntry s k m) f).1 bs' [] := by
  have ha := h.alloc (by simp) k hm
  have hobj := h.alloc_obj k m
  let x : List Nat := if copy then [p.nextId] else []
  obtain ⟨p2, e2, h2, o2, n2⟩ : ∃ p2, (p.alloc k m).incIf copy p.nextId = some p2 ∧ PSim cfg p2 s bs (p.nextId :: x) ∧
      p2.obj = (p.alloc k m).obj ∧ p2.nextId = p.nextId := by
    cases copy with
    | false => exact ⟨_, rfl, ha, rfl, rfl⟩
    | true =>
      obtain ⟨p2, e, h2, o, _, n⟩ := ha.inc (j := p.nextId) (alloc_rc k m) (Or.inr ⟨rfl, by rw [hobj]; exact hm⟩)
      exact ⟨p2, e, h2, o, n⟩
  have hdec : ∀ (q : PSt K V E) (t : St K V E) (b : List (List Nat)), PSim cfg q t b x →
      ∃ q', q.decIf copy p.nextId = some q' ∧ PSim cfg q' t b [] := by
    intro q t b hq
    cases copy with
    | false => exact ⟨q, rfl, hq⟩
    | true =>
      obtain ⟨q', e, h', _⟩ := PSim.dec (j := p.nextId) hq
      exact ⟨q', e, h'⟩
  have hobj2 : p2.obj p2.nextId = newEntry s k m := by rw [n2, o2, hobj]
  have hlink : ∃ p' bs', (do let p3 ← p2.link cfg env; let p4 ← p3.decIf copy p.nextId; some (p4, true)) = some (p', true) ∧
      PSim cfg p' (Hoard.link cfg env s (newEntry s k m)) bs' [] := by
    rw [← n2] at h2
    obtain ⟨p3, bs3, e3, h3, _⟩ := h2.link env (by rw [hobj2]; simp [newEntry, h2.core.nid]) (by rw [hobj2]; exact hm)
    rw [hobj2] at h3
    obtain ⟨p4, e4, h4⟩ := hdec _ _ _ h3
    exact ⟨p4, bs3, by simp only [e3, e4, Option.bind_eq_bind, Option.bind_some], h4⟩
  unfold PSt.tryLink Hoard.tryLink
  cases f with
  | alloc => exact ⟨p, bs, rfl, h⟩
  | none =>
    simp only [e2, Option.bind_eq_bind, Option.bind_some, PSt.fails, Bool.false_eq_true, if_false]
    exact hlink
  | grow =>
    obtain ⟨q, bs1, e5, h5, k5⟩ := h2.beforeLink env
    simp only [e2, Option.bind_eq_bind, Option.bind_some, PSt.fails, Bool.false_eq_true, if_false, e5, Option.map_some, h5.mustGrow]
    cases hg : Hoard.mustGrow cfg (Hoard.beforeLink cfg env s) with
    | false =>
      simp only [Bool.false_eq_true, if_false]
      exact hlink
    | true =>
      simp only [if_true]
      obtain ⟨q1, e6, h6, _⟩ := h5.dec
      obtain ⟨q2, e7, h7⟩ := hdec _ _ _ h6
      exact ⟨q2, bs1, by simp only [e6, e7, Option.bind_some], h7⟩

theorem PSim.emplace (h : PSim cfg p s bs []) (env : Env V) (k : K) (v : V) (f : Fail) :
    ∃ p' bs', p.emplace cfg env k v f = some (p', (Hoard.emplace cfg env s k v f).2) ∧
      PSim cfg p' (Hoard.emplace cfg env s k v f).1 bs' [] := by
  obtain ⟨p1, bs1, e1, h1⟩ := h.expire_ env k
  obtain ⟨p2, bs2, e2, h2⟩ := h1.tryLink env k (m := .value v) rfl false f
  unfold PSt.emplace Hoard.emplace
  simp only [e1, e2, Option.bind_eq_bind, Option.bind_some]
  cases hb : (Hoard.tryLink cfg env (Hoard.expire_ cfg env s k) (newEntry (Hoard.expire_ cfg env s k) k (.value v)) f).2 with
  | false => exact ⟨p2, bs2, by simp, by simpa using h2⟩
  | true =>
    obtain ⟨p3, e3, h3, _⟩ := h2.maintenance
    exact ⟨p3, bs2, by simp [e3], by simpa using h3⟩

theorem PSim.getOrEmplace (h : PSim cfg p s bs []) (env : Env V) (k : K) (v : V) (f : Fail) :
    ∃ p' bs', p.getOrEmplace cfg env k v f = some (p', (Hoard.getOrEmplace cfg env s k v f).2) ∧
      PSim cfg p' (Hoard.getOrEmplace cfg env s k v f).1 bs' [] := by
  obtain ⟨p1, bs1, e1, h1, m1⟩ := h.get_ env k true
  have hl := get_look (cfg := cfg) env s k true
  unfold PSt.getOrEmplace Hoard.getOrEmplace
  simp only [e1, Option.bind_eq_bind, Option.bind_some]
  cases hh : lookup cfg env s k true with
  | none =>
    rw [hh] at hl
    simp only at hl
    simp only [hl]
    obtain ⟨p2, bs2, e2, h2⟩ := h1.tryLink env k (m := .value v) rfl true f
    simp only [e2, Option.bind_some]
    cases hb : (Hoard.tryLink cfg env (Hoard.get_ cfg env s k true).1 (newEntry (Hoard.get_ cfg env s k true).1 k (.value v)) f).2 with
    | false => exact ⟨p2, bs2, by simp, by simpa using h2⟩
    | true =>
      obtain ⟨p3, e3, h3, _⟩ := h2.maintenance
      exact ⟨p3, bs2, by simp [e3], by simpa using h3⟩
  | some il =>
    obtain ⟨i, l⟩ := il
    rw [hh] at hl
    simp only at hl
    have hne := getWalk_ne_none env k true _ hh
    obtain ⟨p3, e3, h3, _⟩ := h1.maintenance
    simp only [hl]
    cases l with
    | none => exact absurd rfl hne
    | val v' => exact ⟨p3, bs1, by simp [e3], h3⟩
    | err e => exact ⟨p3, bs1, by simp [e3], h3⟩
    | pend => exact ⟨p3, bs1, by simp [e3], h3⟩

theorem syncMapped_cbs (r : Res V E) : (syncMapped r).cbs = [] := by cases r <;> rfl

theorem PSim.resolveSync (h : PSim cfg p s bs x) (hx : p.nextId ∉ x) (env : Env V) (k : K) (r : Res V E) :
    ∃ p' bs', p.resolveSync cfg env k r = some (p', s.nextId) ∧
      PSim cfg p' (Hoard.resolveSync cfg env s k r).1 bs' (s.nextId :: x) ∧ s.nextId ∈ bs'.flatten ∧
      (p'.obj s.nextId).mapped = syncMapped r := by
  have ha := h.alloc hx k (syncMapped_cbs r)
  have hobj := h.alloc_obj k (syncMapped r)
  obtain ⟨p2, e2, h2, o2, _, n2⟩ := ha.inc (j := p.nextId) (alloc_rc k _) (Or.inr ⟨rfl, by rw [hobj]; exact syncMapped_cbs r⟩)
  have n2' : p2.nextId = p.nextId := n2
  have hobj2 : p2.obj p2.nextId = newEntry s k (syncMapped r) := by rw [n2', o2, hobj]
  rw [← n2'] at h2
  obtain ⟨p3, bs3, e3, h3, m3, _, g3, _⟩ := h2.link env (by rw [hobj2]; simp [newEntry, h2.core.nid]) (by rw [hobj2]; exact syncMapped_cbs r)
  rw [hobj2] at h3 g3
  have hn : p2.nextId = s.nextId := h2.core.nid
  rw [hn] at h3 m3 g3
  refine ⟨p3, bs3, ?_, h3, m3, g3⟩
  unfold PSt.resolveSync
  simp only [e2, e3, Option.bind_eq_bind, Option.bind_some]
  rw [h.core.nid]

theorem PSim.get (h : PSim cfg p s bs []) (env : Env V) (k : K) (r : Res V E) :
    ∃ p' bs', p.get cfg env k r = some (p', (Hoard.get cfg env s k r).2) ∧ PSim cfg p' (Hoard.get cfg env s k r).1 bs' [] := by
  obtain ⟨p1, bs1, e1, h1, m1⟩ := h.get_ env k false
  have hl := get_look (cfg := cfg) env s k false
  unfold PSt.get Hoard.get
  simp only [e1, Option.bind_eq_bind, Option.bind_some]
  cases hh : lookup cfg env s k false with
  | none =>
    rw [hh] at hl
    simp only at hl
    simp only [hl]
    cases hr : cfg.resolver with
    | none => exact ⟨p1, bs1, rfl, h1⟩
    | async => exact ⟨p1, bs1, rfl, h1⟩
    | sync =>
      simp only
      obtain ⟨p2, bs2, e2, h2, m2, g2⟩ := h1.resolveSync (by simp) env k r
      have hrd : p2.rd (Hoard.get_ cfg env s k false).1.nextId = some (p2.obj (Hoard.get_ cfg env s k false).1.nextId) :=
        PSt.rd_eq (h2.core.pos_ls m2)
      obtain ⟨p3, e3, h3, _⟩ := h2.dec
      refine ⟨p3, bs2, ?_, h3⟩
      simp only [e2, Option.bind_some, hrd, e3, g2]
      rfl
  | some il =>
    obtain ⟨i, l⟩ := il
    rw [hh] at hl
    simp only at hl
    have hne := getWalk_ne_none env k false _ hh
    simp only [hl]
    cases hr : cfg.resolver <;> cases l <;> first
      | exact absurd rfl hne
      | exact ⟨p1, bs1, rfl, h1⟩

theorem PSim.rds (h : PSim cfg p s bs x) : ∀ l : List Nat, (∀ i ∈ l, i ∈ bs.flatten) → p.rds l = some (l.map p.obj) := by
  intro l
  induction l with
  | nil => intro _; rfl
  | cons i l ih =>
    intro hl
    simp only [PSt.rds, PSt.rd_eq (h.core.pos_ls (hl i (by simp))), ih (fun j hj => hl j (by simp [hj])),
      Option.bind_eq_bind, Option.bind_some, List.map_cons]

theorem PSim.getIfExists (h : PSim cfg p s bs x) (env : Env V) (k : K) :
    p.getIfExists cfg env k = some (Hoard.getIfExists cfg env s k) := by
  unfold PSt.getIfExists Hoard.getIfExists
  rw [h.bucketFor]
  by_cases h0 : s.tbl.length = 0
  · have ht : s.tbl = [] := List.length_eq_zero_iff.1 h0
    have hb0 : s.bucketFor (cfg.hash k) = 0 := by simp [St.bucketFor, h0]
    have hbk : s.bucket 0 = [] := by simp [St.bucket, ht]
    have hv : p.tab.visitBucket 0 = some [] := by
      have : p.tab.slots.length = 0 := by rw [h.slen, h0]
      simp only [Chain.Tab.visitBucket, Chain.Tab.beforeBeginB, Chain.Tab.beforeEndB, this, if_true, Option.bind_some, Chain.Tab.incr, Chain.Tab.rd, Option.map_some]
      rw [Chain.Tab.visit.eq_def]; simp
    rw [hb0, hbk, hv]; rfl
  · have hlt : s.bucketFor (cfg.hash k) < bs.length := by
      rw [← h.len]; unfold St.bucketFor; rw [if_neg h0]; exact Nat.mod_lt _ (by omega)
    generalize s.bucketFor (cfg.hash k) = i at hlt
    obtain ⟨as, b, cs, rfl, rfl⟩ := Chain.split_at hlt
    have hbk : s.bucket as.length = b.map p.obj := by simp [St.bucket, h.tbl]
    have hv := Chain.visitBucket_spec h.rep h.size (i := as.length) (b := b) (by simp)
    rw [hv, hbk]
    simp only [Option.bind_eq_bind, Option.bind_some, h.rds b (fun i hi => by simp [hi])]

theorem PSim.count (h : PSim cfg p s bs x) (env : Env V) : p.count env = some (Hoard.count env s) := by
  unfold PSt.count Hoard.count
  rw [Chain.visitAll_spec h.rep h.size]
  simp only [Option.bind_eq_bind, Option.bind_some, h.rds _ (fun i hi => hi), h.core.ents]

end Hoard
