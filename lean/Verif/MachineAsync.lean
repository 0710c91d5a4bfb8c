import Verif.MachineApi
import Verif.Tokens
import Verif.Destroyed
/-! Helper lemmas: asynchronous lookups and refreshing in the pointer-level cache. -/
namespace Hoard
open Chain (Rep slotOf Slot insB distribute)
variable {K V E : Type}
variable {cfg : Cfg K} {p : PSt K V E} {s : St K V E} {bs : List (List Nat)} {x : List Nat}

theorem modify_limbo_ids {f : Entry K V E → Entry K V E} (hid : ∀ e, (f e).id = e.id) (s : St K V E) (i : Nat) :
    (s.modify i f).limbo.map (·.id) = s.limbo.map (·.id) := by
  simp only [St.modify, List.map_map]
  apply List.map_congr_left
  intro e _; simp only [Function.comp]; split
  · exact hid e
  · rfl

/-- From the part without the chain to the whole, for a change of one object. -/
theorem PSim.of_set (h : PSim cfg p s bs x) {i : Nat} {f : Entry K V E → Entry K V E} {x' : List Nat} (hid : IdKey f)
    (hc : Core cfg (p.setObj i f) (s.modify i f) bs.flatten x') : PSim cfg (p.setObj i f) (s.modify i f) bs x' := by
  refine ⟨hc, h.rep, h.size, ?_, ?_, h.nxt⟩
  · simp only [St.modify, h.tbl, List.map_map]
    apply List.map_congr_left
    intro b hb
    simp only [Function.comp, List.map_map]
    apply List.map_congr_left
    intro j hj
    simp only [Function.comp, PSt.setObj]
    rw [h.core.oid j (List.mem_flatten.2 ⟨b, hb, hj⟩)]
    by_cases hji : j = i
    · subst hji; simp
    · simp [hji]
  · intro j hj
    have := h.hsh j hj
    simp only [PSt.setObj]
    split
    · next hh => subst hh; rw [(hid _).2]; exact this
    · exact this

theorem PSim.relCbs (cbs : List Cb) (h : PSim cfg p s bs (olds cbs ++ x)) :
    ∃ p', p.relCbs cbs = some p' ∧ PSim cfg p' s bs x ∧ p'.obj = p.obj ∧ p'.handles = p.handles := by
  obtain ⟨p', e, c, t, o, d⟩ := Core.relCbs cbs p h.core
  exact ⟨p', e, ⟨c, t ▸ h.rep, t ▸ h.size, by rw [o]; exact h.tbl, by rw [t, o]; exact h.hsh, by rw [t]; exact h.nxt⟩, o, d⟩

theorem PSim.close (h : PSim cfg p s bs x) (tok : Nat) :
    PSim cfg { p with opens := p.opens.erase tok } { s with opens := s.opens.erase tok } bs x :=
  { core := { h.core with ops := by show p.opens.erase tok = _; rw [h.core.ops], opn := fun t ht => h.core.opn t (List.mem_of_mem_erase ht) },
    rep := h.rep, size := h.size, tbl := h.tbl, hsh := h.hsh, nxt := h.nxt }

theorem cancel_cbs (e : Entry K V E) : (e.upd Mapped.cancel).mapped.cbs = [] := by
  cases h : e.mapped <;> simp [Entry.upd, Mapped.cancel, h, Mapped.cbs]

theorem completed_cbs (r : Res V E) (e : Entry K V E) : (e.upd (completed cfg r)).mapped.cbs = [] := by
  cases h : e.mapped with
  | pending q =>
    cases r with
    | ok v => simp only [Entry.upd, completed, h, Mapped.assigned]; split; rfl; split; split <;> rfl; rfl
    | err v => simp only [Entry.upd, completed, h, Mapped.assignedError]; split <;> rfl
  | _ => simp [Entry.upd, completed, h, Mapped.cbs]

/-- One callback. -/
theorem PSim.runCb (h : PSim cfg p s bs x) {i : Nat} (hi : 0 < p.rc i) (cb : Cb)
    (hk : ∀ j, cb = .refresh j → j ∈ bs.flatten ++ s.limbo.map (·.id) ∧ 0 < p.rc j) :
    ∃ p', p.runCb i cb = some p' ∧ PSim cfg p' (Hoard.runCb s i cb) bs x ∧ p'.rc = p.rc ∧ p'.handles = p.handles ∧
      (∀ j, (p'.obj j).mapped.cbs = (p.obj j).mapped.cbs) ∧
      (Hoard.runCb s i cb).limbo.map (·.id) = s.limbo.map (·.id) ∧ (Hoard.runCb s i cb).delayQ = s.delayQ := by
  cases cb with
  | user w => exact ⟨p, rfl, h, rfl, rfl, fun _ => rfl, rfl, rfl⟩
  | refresh old =>
    obtain ⟨k1, k2⟩ := hk old rfl
    have hf := h.core.findAny k1 k2
    obtain ⟨w1, w2⟩ := h.wr (i := i) (f := fun e => { e with canTp := tpMin e.canTp (p.obj old).canTp }) hi (fun _ => ⟨rfl, rfl⟩) (fun _ => rfl)
    obtain ⟨w3, w4⟩ := w2.wr (i := old) (f := (·.upd .markExpired)) k2 (IdKey.upd _) mark_cbs
    refine ⟨(p.setObj i (fun e => { e with canTp := tpMin e.canTp (p.obj old).canTp })).setObj old (·.upd .markExpired), ?_, ?_, rfl, rfl, ?_, ?_, rfl⟩
    · simp only [PSt.runCb, PSt.rd_eq k2, Option.bind_eq_bind, Option.bind_some, w1, w3]
    · simp only [Hoard.runCb, hf]; exact w4
    · intro j
      simp only [PSt.setObj]
      split
      · rename_i hj
        subst hj
        rw [mark_cbs]
        split
        · next hh => subst hh; rfl
        · rfl
      · split
        · next hh => subst hh; rfl
        · rfl
    · simp only [Hoard.runCb]
      rw [modify_limbo_ids (f := (·.upd .markExpired)) (fun _ => rfl)]
      exact modify_limbo_ids (f := fun e => { e with canTp := tpMin e.canTp _ }) (fun _ => rfl) s i

theorem PSim.runCbs {i : Nat} : ∀ (cbs : List Cb) (p : PSt K V E) (s : St K V E), PSim cfg p s bs x → 0 < p.rc i →
    (∀ j ∈ olds cbs, j ∈ bs.flatten ++ s.limbo.map (·.id) ∧ 0 < p.rc j) →
    ∃ p', p.runCbs i cbs = some p' ∧ PSim cfg p' (Hoard.runCbs s i cbs) bs x ∧ p'.rc = p.rc ∧ p'.handles = p.handles ∧
      (∀ j, (p'.obj j).mapped.cbs = (p.obj j).mapped.cbs) ∧ (Hoard.runCbs s i cbs).delayQ = s.delayQ := by
  intro cbs
  induction cbs with
  | nil => intro p s h _ _; exact ⟨p, rfl, h, rfl, rfl, fun _ => rfl, rfl⟩
  | cons cb cbs ih =>
    intro p s h hi hk
    have hcons : ∀ j, cb = .refresh j → j ∈ olds (cb :: cbs) := by rintro j rfl; simp [olds]
    have htl : ∀ j ∈ olds cbs, j ∈ olds (cb :: cbs) := by
      intro j hj; cases cb <;> simp [olds] at hj ⊢
      · exact hj
      · exact Or.inr hj
    obtain ⟨p1, e1, h1, r1, d1, c1, l1, q1⟩ := h.runCb hi cb (fun j hj => hk j (hcons j hj))
    obtain ⟨p2, e2, h2, r2, d2, c2, q2⟩ := ih p1 _ h1 (by rw [r1]; exact hi) (by
      intro j hj; rw [l1, r1]; exact hk j (htl j hj))
    refine ⟨p2, ?_, h2, by rw [r2, r1], by rw [d2, d1], fun j => by rw [c2, c1], by
      show (Hoard.runCbs (Hoard.runCb s i cb) i cbs).delayQ = _; rw [q2, q1]⟩
    simp only [PSt.runCbs, e1, e2, Option.bind_eq_bind, Option.bind_some]

/-- The entries owned by the callbacks of a linked entry. -/
theorem PSim.olds_known (h : PSim cfg p s bs x) {i : Nat} (hi : i ∈ bs.flatten) {j : Nat} (hj : j ∈ olds (p.obj i).mapped.cbs) :
    j ∈ refsOf s.ents := by
  rw [h.core.ents, refsOf]
  exact List.mem_flatMap.2 ⟨p.obj i, List.mem_map.2 ⟨i, hi, rfl⟩, hj⟩

/-- What is needed to know about an open lookup. -/
structure OpenOk (s : St K V E) (bs : List (List Nat)) (tok : Nat) : Prop where
  live : s.destroyed = false → tok ∈ bs.flatten ∧ tok ∉ s.delayQ
  dead : s.destroyed = true → tok ∉ bs.flatten

/-- Cancelling a lookup. -/
theorem PSim.cancelTok (h : PSim cfg p s bs x) {tok : Nat} (hr : 0 < p.rc tok) (hk : tok ∈ bs.flatten ++ s.limbo.map (·.id)) :
    ∃ p', (do let p1 ← p.wr tok (·.upd .cancel); p1.relCbs (p.obj tok).mapped.cbs) = some p' ∧
      PSim cfg p' (s.modify tok (·.upd .cancel)) bs x ∧ p'.handles = p.handles ∧ p'.obj = (p.setObj tok (·.upd .cancel)).obj := by
  by_cases hl : tok ∈ bs.flatten
  · have c1 := h.of_set (IdKey.upd _) (h.core.set_rel (f := (·.upd .cancel)) hl (fun _ => rfl) (cancel_cbs _))
    obtain ⟨p2, e2, h2, o2, d2⟩ := c1.relCbs
    exact ⟨p2, by simp only [PSt.wr_eq hr, Option.bind_eq_bind, Option.bind_some, e2], h2, by rw [d2]; rfl, o2⟩
  · have hm : tok ∈ s.limbo.map (·.id) := by
      rcases List.mem_append.1 hk with h1 | h1
      · exact absurd h1 hl
      · exact h1
    obtain ⟨e, he, rfl⟩ := List.mem_map.1 hm
    have hcb : (p.obj e.id).mapped.cbs = [] := by rw [h.core.lim e he hr]; exact h.core.lcb e he
    have c1 := h.of_set (IdKey.upd _) (h.core.set (i := e.id) (x' := x) (f := (·.upd .cancel)) (fun _ => rfl) (fun hh => absurd hh hl)
      (fun _ => ⟨.refl _, fun e _ => cancel_cbs e⟩) (fun j _ hh => absurd hh hl) (fun hh => absurd hh hl))
    refine ⟨_, ?_, c1, rfl, rfl⟩
    simp only [PSt.wr_eq hr, Option.bind_eq_bind, Option.bind_some, hcb, PSt.relCbs]

theorem PSim.complete (h : PSim cfg p s bs x) (env : Env V) {tok : Nat} (r : Res V E)
    (ho : tok ∈ s.opens → OpenOk s bs tok) :
    ∃ p', p.complete cfg env tok r = some (p', (Hoard.complete cfg env s tok r).2) ∧
      PSim cfg p' (Hoard.complete cfg env s tok r).1 bs x ∧ p'.handles = p.handles := by
  unfold PSt.complete Hoard.complete
  by_cases hopen : tok ∈ s.opens
  · have hop : tok ∈ p.opens := by rw [h.core.ops]; exact hopen
    have hh := h.core.opn tok hopen
    have hkn := h.core.kn tok (by simp [hh])
    have hrc := h.core.pos_h hh
    have h0 := h.close tok
    have hf := h0.core.findAny hkn hrc
    have hrd : PSt.rd { p with opens := p.opens.erase tok } tok = some (p.obj tok) := PSt.rd_eq (p := { p with opens := p.opens.erase tok }) hrc
    simp only [if_pos hop, if_pos hopen, hrd, Option.bind_eq_bind, Option.bind_some, hf, Option.map_some, Option.getD_some]
    by_cases hd : s.destroyed = true
    · have hpd : p.destroyed = true := by rw [h.core.des]; exact hd
      obtain ⟨p2, e2, h2, d2, _⟩ := h0.cancelTok hrc hkn
      simp only [Option.bind_eq_bind] at e2
      rw [if_pos hpd, if_pos hd]
      refine ⟨p2, ?_, h2, d2⟩
      generalize PSt.wr _ tok _ = o at e2 ⊢
      cases o with
      | none => simp at e2
      | some p1 => simp only [Option.bind_some] at e2 ⊢; rw [e2]; rfl
    · have hd' : s.destroyed = false := by simpa using hd
      have hpd : ¬ p.destroyed = true := by rw [h.core.des]; exact hd
      rw [if_neg hpd, if_neg hd]
      obtain ⟨hl, hdq⟩ := (ho hopen).live hd'
      have hkn' : ∀ j ∈ olds (p.obj tok).mapped.cbs, j ∈ bs.flatten ++ s.limbo.map (·.id) ∧ 0 < p.rc j := by
        intro j hj
        have := h.olds_known hl hj
        exact ⟨h.core.kn j (by simp [this]), h.core.pos_r this⟩
      obtain ⟨p1, e1, h1, r1, d1, c1, q1⟩ := PSim.runCbs (i := tok) (p.obj tok).mapped.cbs _ _ h0 hrc hkn'
      have h2 := h1.of_set (IdKey.upd _) (h1.core.set_rel (f := (·.upd (completed cfg r))) hl (fun _ => rfl) (completed_cbs r _))
      rw [c1] at h2
      obtain ⟨p3, e3, h3, o3, d3⟩ := PSim.relCbs _ h2
      obtain ⟨p4, e4, h4, _, d4⟩ := h3.onAssign env hl (by show tok ∉ (Hoard.runCbs _ _ _).delayQ; rw [q1]; exact hdq) r.isOk
      refine ⟨p4, ?_, h4, ?_⟩
      · simp only [e1, Option.bind_some, PSt.wr_eq (h1.core.pos_ls hl), e3, e4]
      · rw [d4, d3]; show p1.handles = _; rw [d1]
  · have hop : ¬ tok ∈ p.opens := by rw [h.core.ops]; exact hopen
    simp only [if_neg hopen, if_neg hop]
    exact ⟨p, rfl, h, rfl⟩

theorem PSim.unhandle (h : PSim cfg p s bs x) {tok : Nat} (hh : tok ∈ p.handles) (ho : tok ∉ s.opens) :
    ∃ p', PSt.dec { p with handles := p.handles.erase tok } tok = some p' ∧ PSim cfg p' s bs x ∧
      p'.obj = p.obj ∧ p'.handles = p.handles.erase tok := by
  have h1 : PSim cfg { p with handles := p.handles.erase tok } s bs (tok :: x) := by
    refine { core := { h.core with rc := ?_, hnd := h.core.hnd.erase _, opn := ?_, kn := ?_, kx := ?_ }, rep := h.rep, size := h.size, tbl := h.tbl, hsh := h.hsh, nxt := h.nxt }
    · intro i
      have := h.core.rc i
      show p.rc i = _
      rw [this]
      have := (List.perm_cons_erase hh).count_eq i
      simp only [List.count_append, List.count_cons] at this ⊢
      omega
    · intro t ht
      have := h.core.opn t ht
      exact (List.mem_erase_of_ne (by rintro rfl; exact ho ht)).2 this
    · intro i hi
      rcases List.mem_append.1 hi with h1 | h1
      · exact h.core.kn i (by simp [List.mem_of_mem_erase h1])
      · exact h.core.kn i (by simp [h1])
    · intro i hi
      rcases List.mem_cons.1 hi with rfl | hi
      · exact Or.inl (h.core.kn _ (by simp [hh]))
      · exact h.core.kx i hi
  obtain ⟨p', e, h', o, d⟩ := h1.dec
  exact ⟨p', e, h', o, d⟩

theorem PSim.dropTok (h : PSim cfg p s bs x) (hn : s.opens.Nodup) (tok : Nat) :
    ∃ p', p.drop tok = some (p', (Hoard.drop s tok).2) ∧ PSim cfg p' (Hoard.drop s tok).1 bs x ∧ p'.handles = p.handles.erase tok := by
  unfold PSt.drop Hoard.drop
  by_cases hh : tok ∈ p.handles
  · simp only [hh, if_true]
    rw [h.core.ops]
    by_cases hopen : tok ∈ s.opens
    · simp only [hopen, if_true]
      have hkn := h.core.kn tok (by simp [hh])
      have hrc := h.core.pos_h hh
      have h0 := h.close tok
      rw [h.core.ops] at h0
      have hf := h.core.findAny hkn hrc
      have hrd : PSt.rd { p with opens := s.opens.erase tok } tok = some (p.obj tok) := PSt.rd_eq (p := { p with opens := s.opens.erase tok }) hrc
      obtain ⟨p2, e2, h2, d2, o2⟩ := h0.cancelTok hrc hkn
      have d2 : p2.handles = p.handles := d2
      obtain ⟨p3, e3, h3, o3, d3⟩ := h2.unhandle (tok := tok) (by rw [d2]; exact hh) (List.Nodup.not_mem_erase hn)
      refine ⟨p3, ?_, h3, by rw [d3, d2]⟩
      simp only [hrd, Option.bind_eq_bind, Option.bind_some, hf, Option.map_some, Option.getD_some] at e2 ⊢
      cases hw : PSt.wr { p with opens := s.opens.erase tok } tok (·.upd .cancel) with
      | none => rw [hw] at e2; simp at e2
      | some p1 => rw [hw] at e2; simp only [Option.bind_some] at e2 ⊢; rw [e2]; simp only [Option.bind_some, e3]
    · simp only [hopen, if_false]
      obtain ⟨p3, e3, h3, o3, d3⟩ := h.unhandle hh hopen
      rw [h.core.ops] at e3
      exact ⟨p3, by simp only [e3, Option.bind_eq_bind, Option.bind_some], h3, d3⟩
  · have hopen : tok ∉ s.opens := fun ho => hh (h.core.opn tok ho)
    simp only [hh, hopen, if_false]
    exact ⟨p, rfl, h, (List.erase_of_not_mem hh).symm⟩

theorem PSim.handle (h : PSim cfg p s bs (tok :: x)) (hk : tok ∈ bs.flatten) (hh : tok ∉ p.handles) :
    PSim cfg { p with handles := p.handles ++ [tok], opens := p.opens ++ [tok] } { s with opens := s.opens ++ [tok] } bs x := by
  refine { core := { h.core with ops := ?_, rc := ?_, hnd := ?_, opn := ?_, kn := ?_, kx := fun i hi => h.core.kx i (by simp [hi]) }, rep := h.rep, size := h.size, tbl := h.tbl, hsh := h.hsh, nxt := h.nxt }
  · show p.opens ++ [tok] = _; rw [h.core.ops]
  · intro i
    have := h.core.rc i
    show p.rc i = _
    rw [this]
    simp only [List.count_append, List.count_cons, List.count_nil, St.ents]
    omega
  · rw [List.nodup_append]
    refine ⟨h.core.hnd, by simp, ?_⟩
    rintro a ha b hb rfl
    obtain rfl : a = tok := by simpa using hb
    exact hh ha
  · intro t ht
    have ht : t ∈ s.opens ++ [tok] := ht
    rcases List.mem_append.1 ht with h1 | h1
    · exact List.mem_append_left _ (h.core.opn t h1)
    · exact List.mem_append_right _ h1
  · intro i hi
    have hi : i ∈ p.handles ++ [tok] ++ refsOf s.ents := hi
    simp only [List.mem_append, List.mem_singleton] at hi
    rcases hi with (h1 | h1) | h1
    · exact h.core.kn i (by simp [h1])
    · subst h1; exact List.mem_append_left _ hk
    · exact h.core.kn i (by simp [h1])

theorem PSim.resolveAsync (h : PSim cfg p s bs x) (hx : p.nextId ∉ x) (hn : s.opens.Nodup) (hd : s.destroyed = false)
    (env : Env V) (k : K) (b : Beh V E) :
    ∃ p' bs', p.resolveAsync cfg env k b = some (p', s.nextId) ∧
      PSim cfg p' (Hoard.resolveAsync cfg env s k b).1 bs' (s.nextId :: x) ∧ s.nextId ∈ bs'.flatten := by
  have hpe : (Mapped.pending {} : Mapped V E).cbs = [] := rfl
  have ha := h.alloc hx k hpe
  have hobj := h.alloc_obj k (.pending {})
  obtain ⟨p2, e2, h2, o2, hd2, n2⟩ := ha.inc (j := p.nextId) (alloc_rc k _) (Or.inr ⟨rfl, by rw [hobj]; rfl⟩)
  have n2' : p2.nextId = p.nextId := n2
  have hd2' : p2.handles = p.handles := hd2
  have hobj2 : p2.obj p2.nextId = newEntry s k (.pending {}) := by rw [n2', o2, hobj]
  rw [← n2'] at h2
  obtain ⟨p3, bs3, e3, h3, m3, d3, g3, q3⟩ := h2.link env (by rw [hobj2]; simp [newEntry, h2.core.nid]) (by rw [hobj2]; rfl)
  rw [hobj2] at h3 g3 q3
  have hnn : p2.nextId = s.nextId := h2.core.nid
  rw [hnn] at h3 m3 g3 q3
  have q3 := q3 rfl
  obtain ⟨p4, e4, h4, o4, d4, n4⟩ := h3.inc (j := s.nextId) (h3.core.pos_ls m3) (Or.inl (by simp [m3]))
  have hnh : s.nextId ∉ p4.handles := by
    rw [d4, d3, hd2']
    intro hm
    have := h.known_lt (i := s.nextId) (by simp [hm])
    rw [h.core.nid] at this; omega
  have h5 := h4.handle m3 hnh
  have hno : s.nextId ∉ s.opens := by
    intro hm
    have := h.known_lt (i := s.nextId) (by simp [h.core.opn _ hm])
    rw [h.core.nid] at this; omega
  unfold PSt.resolveAsync Hoard.resolveAsync
  have e2' : (p.alloc k (.pending {})).inc s.nextId = some p2 := by rw [← h.core.nid]; exact e2
  simp only [h.core.nid, e2', e3, e4, Option.bind_eq_bind, Option.bind_some]
  cases b with
  | later => exact ⟨_, bs3, rfl, h5, m3⟩
  | now r =>
    obtain ⟨p6, e6, h6, _⟩ := h5.complete env (tok := s.nextId) r (fun _ => ⟨fun _ => ⟨m3, q3⟩, fun hdd => by
      exfalso
      have : (Hoard.link cfg env s (newEntry s k (.pending {}))).destroyed = true := hdd
      rw [link_des, hd] at this; cases this⟩)
    exact ⟨p6, bs3, by simp only [e6, Option.bind_some], h6, m3⟩
  | drop =>
    obtain ⟨p6, e6, h6, _⟩ := h5.dropTok (by
      show ((Hoard.link cfg env s (newEntry s k (.pending {}))).opens ++ [s.nextId]).Nodup
      rw [link_opens, List.nodup_append]
      refine ⟨hn, by simp, ?_⟩
      rintro a ha c hc rfl
      obtain rfl : a = s.nextId := by simpa using hc
      exact hno ha) s.nextId
    exact ⟨p6, bs3, by simp only [e6, Option.bind_some], h6, m3⟩

theorem addCb_olds (w : Nat) (e : Entry K V E) : olds (e.upd (.addCb (.user w))).mapped.cbs = olds e.mapped.cbs := by
  cases h : e.mapped <;> simp [Entry.upd, Mapped.addCb, h, Mapped.cbs, olds]

theorem PSim.answer (h : PSim cfg p s bs x) {i : Nat} (hi : i ∈ bs.flatten) (w : Nat) (l : Look V E) :
    ∃ p', p.answer i w l = some (p', (Hoard.answer s i w l).2) ∧ PSim cfg p' (Hoard.answer s i w l).1 bs x := by
  cases l with
  | val v => exact ⟨p, rfl, h⟩
  | err v => exact ⟨p, rfl, h⟩
  | none => exact ⟨p, rfl, h⟩
  | pend =>
    have hk : ∀ j ∈ olds (p.obj i).mapped.cbs, j ∈ bs.flatten ++ s.limbo.map (·.id) := fun j hj =>
      h.core.kn j (by simp [h.olds_known hi hj])
    have c1 := h.of_set (IdKey.upd _) (h.core.set (i := i) (x' := x) (f := (·.upd (.addCb (.user w)))) (fun _ => rfl)
      (fun _ => by rw [addCb_olds]) (fun hn => absurd hi hn) (by
        intro j hj _
        rw [addCb_olds] at hj
        rcases List.mem_append.1 hj with hj | hj
        · exact Or.inl (hk j hj)
        · rcases h.core.kx j hj with h1 | h1
          · exact Or.inl h1
          · refine Or.inr ⟨hj, ?_, h1⟩
            rintro rfl
            have := h.core.lt j (by simp [hi])
            rw [← h.core.nid, h1.1] at this; omega) (by intro _ j hj; rw [addCb_olds] at hj; exact hk j hj))
    refine ⟨_, ?_, c1⟩
    simp only [PSt.answer, PSt.wr_eq (h.core.pos_ls hi), Option.bind_eq_bind, Option.bind_some]
    rfl

theorem PSim.asyncGet (h : PSim cfg p s bs []) (hn : s.opens.Nodup) (hd : s.destroyed = false) (env : Env V) (k : K) (w : Nat) (b : Beh V E) :
    ∃ p' bs', p.asyncGet cfg env k w b = some (p', (Hoard.asyncGet cfg env s k w b).2) ∧
      PSim cfg p' (Hoard.asyncGet cfg env s k w b).1 bs' [] := by
  obtain ⟨p1, bs1, e1, h1, m1⟩ := h.get_ env k true
  unfold PSt.asyncGet Hoard.asyncGet
  simp only [e1, Option.bind_eq_bind, Option.bind_some]
  cases hh : lookup cfg env s k true with
  | some il =>
    obtain ⟨i, l⟩ := il
    rw [show (getWalk cfg env k true (s.bucket (s.bucketFor (cfg.hash k)))).hit = some (i, l) from hh]
    obtain ⟨p2, e2, h2⟩ := h1.answer (m1 i l hh) w l
    exact ⟨p2, bs1, e2, h2⟩
  | none =>
    rw [show (getWalk cfg env k true (s.bucket (s.bucketFor (cfg.hash k)))).hit = none from hh]
    simp only
    obtain ⟨p2, bs2, e2, h2, m2⟩ := h1.resolveAsync (by simp) (by rw [get__opens]; exact hn) (by rw [get__des]; exact hd) env k b
    have hf := h2.core.find m2
    have htok : (Hoard.resolveAsync cfg env (Hoard.get_ cfg env s k true).1 k b).2 = (Hoard.get_ cfg env s k true).1.nextId := by
      unfold Hoard.resolveAsync; cases b <;> rfl
    simp only [e2, Option.bind_some, PSt.rd_eq (h2.core.pos_ls m2), htok, hf]
    obtain ⟨p3, e3, h3⟩ := h2.answer m2 w ((p2.obj (Hoard.get_ cfg env s k true).1.nextId).mapped.get env true)
    obtain ⟨p4, e4, h4, _⟩ := h3.dec
    exact ⟨p4, bs2, by simp only [e3, e4, Option.bind_some], h4⟩

end Hoard
