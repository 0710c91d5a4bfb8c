import Verif.MachineAsync
/-! Helper lemmas: refreshing and destruction in the pointer-level cache. -/
namespace Hoard
open Chain (Rep slotOf Slot Path)
variable {K V E : Type}
variable {cfg : Cfg K} {p : PSt K V E} {s : St K V E} {bs : List (List Nat)} {x : List Nat}

theorem PSim.resolve (h : PSim cfg p s bs x) (hx : p.nextId ∉ x) (hn : s.opens.Nodup) (hd : s.destroyed = false)
    (env : Env V) (k : K) (r : Res V E) (b : Beh V E) :
    ∃ p' bs', p.resolve cfg env k r b = some (p', s.nextId) ∧
      PSim cfg p' (if cfg.resolver = .async then Hoard.resolveAsync cfg env s k b else Hoard.resolveSync cfg env s k r).1 bs' (s.nextId :: x) ∧
      s.nextId ∈ bs'.flatten := by
  unfold PSt.resolve
  by_cases ha : cfg.resolver = .async
  · simp only [if_pos ha]; exact h.resolveAsync hx hn hd env k b
  · simp only [if_neg ha]
    obtain ⟨p', bs', e, h', m, _⟩ := h.resolveSync hx env k r
    exact ⟨p', bs', e, h', m⟩

theorem addCb_refresh_olds {e : Entry K V E} (hp : e.isPending = true) (i : Nat) :
    olds (e.upd (.addCb (.refresh i))).mapped.cbs = olds e.mapped.cbs ++ [i] := by
  unfold Entry.isPending at hp
  cases h : e.mapped <;> rw [h] at hp <;> simp [Mapped.isPending] at hp
  simp [Entry.upd, Mapped.addCb, h, Mapped.cbs, olds]

theorem PSim.hook (h : PSim cfg p s bs x) {tok i : Nat} (ht : tok ∈ bs.flatten) (hi : 0 < p.rc i)
    (hk : i ∈ bs.flatten ++ s.limbo.map (·.id)) :
    ∃ p', p.hook tok i = some p' ∧
      PSim cfg p' (if (p.obj tok).isPending then s.modify tok (·.upd (.addCb (.refresh i))) else Hoard.runCb s tok (.refresh i)) bs x := by
  unfold PSt.hook
  simp only [PSt.rd_eq (h.core.pos_ls ht), Option.bind_eq_bind, Option.bind_some]
  by_cases hp : (p.obj tok).isPending = true
  · simp only [hp, if_true]
    obtain ⟨q, e1, h1, o1, d1, n1⟩ := h.inc hi (Or.inl hk)
    have hko : ∀ j ∈ olds (q.obj tok).mapped.cbs, j ∈ bs.flatten ++ s.limbo.map (·.id) := fun j hj =>
      h1.core.kn j (by simp [h1.olds_known ht hj])
    have hpq : (q.obj tok).isPending = true := by rw [o1]; exact hp
    have c1 := h1.of_set (IdKey.upd _) (h1.core.set (i := tok) (x' := x) (f := (·.upd (.addCb (.refresh i)))) (fun _ => rfl)
      (fun _ => by
        rw [addCb_refresh_olds hpq, List.append_assoc]
        exact .refl _) (fun hn => absurd ht hn) (by
        intro j hj _
        rw [addCb_refresh_olds hpq] at hj
        simp only [List.append_assoc, List.mem_append, List.mem_singleton] at hj
        rcases hj with hj | hj | hj
        · exact Or.inl (hko j hj)
        · subst hj; exact Or.inl hk
        · rcases h.core.kx j hj with h2 | h2
          · exact Or.inl h2
          · refine Or.inr ⟨hj, ?_, by rw [n1]; exact h2.1, by rw [o1]; exact h2.2⟩
            rintro rfl
            have := h.core.lt j (by simp [ht])
            rw [← h.core.nid, h2.1] at this; omega) (by
        intro _ j hj
        rw [addCb_refresh_olds hpq] at hj
        rcases List.mem_append.1 hj with hj | hj
        · exact hko j hj
        · obtain rfl : j = i := by simpa using hj
          exact hk))
    refine ⟨_, ?_, c1⟩
    simp only [e1, Option.bind_some, PSt.wr_eq (h1.core.pos_ls ht)]
  · simp only [hp, Bool.false_eq_true, if_false]
    obtain ⟨p', e1, h1, _⟩ := h.runCb (h.core.pos_ls ht) (.refresh i) (by
      intro j hj; cases hj; exact ⟨hk, hi⟩)
    exact ⟨p', e1, h1⟩

theorem PSim.refresh (h : PSim cfg p s bs []) (hn : s.opens.Nodup) (hd : s.destroyed = false) (env : Env V) {i : Nat}
    (hi : i ∈ bs.flatten) (r : Res V E) (b : Beh V E) :
    ∃ p' bs', p.refresh cfg env i r b = some (p', (Hoard.refresh cfg env s (p.obj i) r b).2) ∧
      PSim cfg p' (Hoard.refresh cfg env s (p.obj i) r b).1 bs' [] := by
  have hoid := h.core.oid i hi
  have hilt : i < s.nextId := h.core.lt i (by simp [hi])
  unfold PSt.refresh Hoard.refresh
  simp only [PSt.rd_eq (h.core.pos_ls hi), Option.bind_eq_bind, Option.bind_some, hoid]
  by_cases hc : ((p.obj i).refreshing || (p.obj i).expired env) = true
  · simp only [hc, if_true]; exact ⟨p, bs, rfl, h⟩
  · simp only [hc, Bool.false_eq_true, if_false]
    obtain ⟨p0, e0, h0, o0, _, n0⟩ := h.inc (h.core.pos_ls hi) (Or.inl (by simp [hi]))
    obtain ⟨p1, bs1, e1, h1, m1⟩ := h0.resolve (by rw [n0, h.core.nid]; simp; omega) hn hd env (p.obj i).key r b
    have htok : (if cfg.resolver = .async then Hoard.resolveAsync cfg env s (p.obj i).key b
        else Hoard.resolveSync cfg env s (p.obj i).key r).2 = s.nextId := by
      split
      · unfold Hoard.resolveAsync; cases b <;> rfl
      · rfl
    generalize hg : (if cfg.resolver = .async then Hoard.resolveAsync cfg env s (p.obj i).key b
        else Hoard.resolveSync cfg env s (p.obj i).key r) = g at h1 htok
    obtain ⟨s1, tok⟩ := g
    simp only at h1 htok
    subst htok
    have hik : i ∈ bs1.flatten ++ s1.limbo.map (·.id) := by
      rcases h1.core.kx i (by simp) with h2 | h2
      · exact h2
      · have := h1.core.lt s.nextId (by simp [m1])
        rw [← h1.core.nid, ← h2.1] at this; omega
    obtain ⟨w1, w2⟩ := h1.wr (i := i) (f := fun x => { x with refreshing := true }) (h1.core.pos_x (by simp)) (fun _ => ⟨rfl, rfl⟩) (fun _ => rfl)
    have hf := w2.core.find m1
    have hik2 : i ∈ bs1.flatten ++ (s1.modify i (fun x => { x with refreshing := true })).limbo.map (·.id) := by
      rw [modify_limbo_ids (f := fun x => { x with refreshing := true }) (fun _ => rfl)]; exact hik
    obtain ⟨p2, e2, h2⟩ := w2.hook m1 (i := i) (w2.core.pos_x (by simp)) hik2
    obtain ⟨p3, e3, h3, _⟩ := h2.dec
    obtain ⟨p4, e4, h4, _⟩ := h3.dec
    refine ⟨p4, bs1, ?_, ?_⟩
    · simp only [e0, e1, w1, e2, e3, e4, Option.bind_some, hf]
      split <;> rfl
    · simp only [hf]
      split
      · rename_i hp; rw [if_pos hp] at h4; exact h4
      · rename_i hp; rw [if_neg hp] at h4; exact h4

theorem PSim.tick (h : PSim cfg p s bs []) (hn : s.opens.Nodup) (hd : s.destroyed = false) (env : Env V) (r : Res V E) (b : Beh V E) :
    ∃ p' bs', p.tick cfg env r b = some (p', (Hoard.tick cfg env s r b).2) ∧ PSim cfg p' (Hoard.tick cfg env s r b).1 bs' [] := by
  have hs := (linkRep_ptrs (l1 := []) (l2 := s.delayQ) h.core.dqr).1
  unfold PSt.tick Hoard.tick
  have hs : p.dq.succ 0 = some (addr s.delayQ.head?) := hs
  simp only [hs, Option.bind_eq_bind, Option.bind_some]
  cases hq : s.delayQ with
  | nil => exact ⟨p, bs, rfl, h⟩
  | cons i q =>
    have hi : i ∈ bs.flatten := h.core.dqm i (by simp [hq])
    have hf := h.core.find hi
    simp only [List.head?_cons, addr, hf, PSt.rd_eq (h.core.pos_ls hi), Option.bind_some]
    by_cases hr : reached env.now (p.obj i).refTp = true
    · simp only [hr, if_true]
      have hdq := h.core.dqr
      rw [hq] at hdq
      obtain ⟨H, e1, r1⟩ := linkRep_unlink (l1 := []) hdq
      have h1 : PSim cfg { p with dq := H } { s with delayQ := q } bs [] := by
        refine { core := { h.core with dqr := r1, dqn := ?_, dqm := ?_, dqe := ?_ }, rep := h.rep, size := h.size, tbl := h.tbl, hsh := h.hsh, nxt := h.nxt }
        · have := h.core.dqn; rw [hq, List.nodup_cons] at this; exact this.2
        · intro j hj; exact h.core.dqm j (by rw [hq]; simp [show j ∈ q from hj])
        · intro hh; have := h.core.dqe hh; rw [hq] at this; cases this
      obtain ⟨p2, bs2, e2, h2⟩ := h1.refresh hn hd env hi r b
      exact ⟨p2, bs2, by simp only [e1, Option.bind_some, e2], h2⟩
    · simp only [hr, Bool.false_eq_true, if_false]
      exact ⟨p, bs, rfl, h⟩

theorem destroyLoop_spec : ∀ (l : List Nat) (fuel : Nat) (p : PSt K V E) (s : St K V E), l.length ≤ fuel →
    Path p.tab.next p.tab.head l → Core cfg p { s with tbl := [l.map p.obj] } l x →
    ∃ p', PSt.destroyLoop cfg fuel p = some (p', (l.map p.obj).flatMap (fun e => users e.mapped.cbs)) ∧
      Core cfg p' (dispose cfg { s with tbl := [[]] } (l.map p.obj)) [] x ∧
      p'.tab.slots = p.tab.slots ∧ p'.tab.own = p.tab.own ∧ (∀ j, p'.tab.next j = if j ∈ l then none else p.tab.next j) := by
  intro l
  induction l with
  | nil =>
    intro fuel p s _ hp hc
    have hh : p.tab.head = none := hp
    refine ⟨p, ?_, hc, rfl, rfl, by simp⟩
    unfold PSt.destroyLoop; rw [hh]; rfl
  | cons i l ih =>
    intro fuel p s hf hp hc
    obtain ⟨hh, hp⟩ := hp
    obtain ⟨fuel, rfl⟩ : ∃ n, fuel = n + 1 := ⟨fuel - 1, by simp at hf; omega⟩
    let t : Chain.Tab := { p.tab with head := p.tab.next i, next := fun y => if y = i then none else p.tab.next y }
    have hni : i ∉ l := by
      have := (List.nodup_append.1 hc.nd).1
      exact (List.nodup_cons.1 this).1
    obtain ⟨p1, e1, c1, t1, o1, d1⟩ := hc.dispose (l1 := []) (l2 := l) [l.map p.obj] (by simp) t
    have hom : l.map p1.obj = l.map p.obj := List.map_congr_left (fun j hj => o1 j (by rintro rfl; exact hni hj))
    have hp1 : Path p1.tab.next p1.tab.head l := by
      rw [t1]
      exact Path.congr hp (fun y hy => by show (if y = i then _ else _) = _; rw [if_neg (by rintro rfl; exact hni hy)])
    obtain ⟨p2, e2, c2, s2, w2, n2⟩ := ih fuel p1 (disposeOne cfg s (p.obj i)) (by simp at hf; omega) hp1 (by rw [hom]; exact c1)
    rw [hom] at e2 c2
    refine ⟨p2, ?_, ?_, by rw [s2, t1], by rw [w2, t1], ?_⟩
    · rw [PSt.destroyLoop.eq_def]; simp only [hh]
      simp only [PSt.rd_eq (hc.pos_ls (by simp : i ∈ i :: l)), Option.bind_eq_bind, Option.bind_some, List.map_cons, List.flatMap_cons]
      show ((PSt.disposeElem cfg { p with tab := t } i).bind _) = _
      rw [e1]; simp only [Option.bind_some, e2]
    · rw [List.map_cons, dispose_cons]; exact c2
    · intro j
      rw [n2, t1]
      show (if j ∈ l then none else if j = i then none else p.tab.next j) = _
      by_cases hji : j = i
      · subst hji; simp
      · simp [hji]

theorem PSim.destroy (h : PSim cfg p s bs x) :
    ∃ p' bs', p.destroy cfg = some (p', (Hoard.destroy cfg s).2) ∧ PSim cfg p' (Hoard.destroy cfg s).1 bs' x := by
  have hc : Core cfg p { s with tbl := [bs.flatten.map p.obj] } bs.flatten x := by
    have := h.core.reorder (.refl _) [bs.flatten.map p.obj] (by simp) p.tab
    exact this
  obtain ⟨p1, e1, c1, s1, w1, n1⟩ := destroyLoop_spec bs.flatten p.tab.size p s (by rw [h.size]; exact Nat.le_refl _) h.rep.path hc
  refine ⟨{ p1 with tab := p1.tab.clear, destroyed := true }, List.replicate bs.length [], ?_, ?_⟩
  · unfold PSt.destroy Hoard.destroy
    simp only [e1, Option.bind_eq_bind, Option.bind_some, h.core.ents]
  · have hfl : (List.replicate bs.length ([] : List Nat)).flatten = [] := by simp
    have htb : s.tbl.map (fun _ => ([] : List (Entry K V E))) = List.replicate bs.length [] := by
      rw [h.tbl, List.map_map, List.eq_replicate_iff]; simp
    refine ⟨?_, ?_, ?_, ?_, ?_, ?_⟩
    · rw [hfl]
      unfold Hoard.destroy
      simp only
      have c2 := c1.reorder (.refl _) (List.replicate bs.length []) (by simp) p1.tab.clear
      rw [dispose_withTbl, ← h.core.ents] at c2
      rw [htb]
      exact { c2 with des := rfl }
    · exact Chain.rep_empty _ _ rfl (by show List.replicate p1.tab.slots.length _ = _; rw [s1, h.rep.length]; rfl)
    · show 0 = _; rw [hfl]; rfl
    · show (dispose cfg { s with tbl := s.tbl.map (fun _ => []) } s.ents).tbl = _
      rw [dispose_tbl, htb]; simp
    · rw [hfl]; simp
    · intro j _
      show p1.tab.next j = none
      rw [n1]
      split
      · rfl
      · rename_i hj; exact h.nxt j hj

/-- Every operation. -/
theorem PSim.step (h : PSim cfg p s bs []) (w2 : WF2 cfg s) (env : Env V) (o : Op K V E) (ho : o.ok cfg s) :
    ∃ p' bs', p.step cfg env o = some (p', (Hoard.step cfg env s o).2) ∧ PSim cfg p' (Hoard.step cfg env s o).1 bs' [] := by
  cases o with
  | getIfExists k => exact ⟨p, bs, by simp only [PSt.step, h.getIfExists env k, Option.bind_eq_bind, Option.bind_some]; rfl, h⟩
  | get k r => exact h.get env k r
  | asyncGet k w b => exact h.asyncGet w2.opN ho.2 env k w b
  | emplace k v f => exact h.emplace env k v f
  | getOrEmplace k v f => exact h.getOrEmplace env k v f
  | erase k =>
    obtain ⟨p', bs', e, h'⟩ := h.expire_ env k
    exact ⟨p', bs', by simp only [PSt.step, e, Option.bind_eq_bind, Option.bind_some]; rfl, h'⟩
  | clear =>
    obtain ⟨p', bs', e, h'⟩ := h.clear
    exact ⟨p', bs', by simp only [PSt.step, e, Option.bind_eq_bind, Option.bind_some]; rfl, h'⟩
  | count => exact ⟨p, bs, by simp only [PSt.step, h.count env, Option.bind_eq_bind, Option.bind_some]; rfl, h⟩
  | complete tok r =>
    obtain ⟨p', e, h', _⟩ := h.complete env r (tok := tok) (by
      intro hop
      refine ⟨fun hd => ?_, fun hd => ?_⟩
      · obtain ⟨e, he, rfl, hp⟩ := w2.opE hd tok hop
        refine ⟨?_, (w2.pen e he hp).2.2.2.1⟩
        rw [h.core.ents] at he
        obtain ⟨j, hj, rfl⟩ := List.mem_map.1 he
        rw [h.core.oid j hj]; exact hj
      · have := w2.opD hd
        rw [h.core.ents, List.map_eq_nil_iff] at this
        rw [this]; simp)
    exact ⟨p', bs, e, h'⟩
  | drop tok =>
    obtain ⟨p', e, h', _⟩ := h.dropTok w2.opN tok
    exact ⟨p', bs, e, h'⟩
  | tick r b => exact h.tick w2.opN ho.2.2 env r b
  | destroy => exact h.destroy

theorem psim_init (cfg : Cfg K) (obj : Nat → Entry K V E) : PSim cfg (PSt.init obj) (St.init : St K V E) [] [] := by
  refine ⟨?_, ?_, rfl, rfl, by simp, fun _ _ => rfl⟩
  · refine
      { ents := rfl, oid := by simp, nd := by simp [St.init], lt := by simp [St.init], lim := by simp [St.init], lcb := by simp [St.init],
        bqr := PQ.rel_init, bqi := ?_, dqr := linkRep_init, dqn := by simp [St.init], dqm := by simp [St.init], dqe := fun _ => rfl,
        nid := rfl, ops := rfl, des := rfl, rc := ?_, hnd := by simp [PSt.init], opn := by simp [St.init], kn := ?_, kx := by simp }
    · intro _; exact ⟨BQ.inv_init, by simp [St.init, BQ.init]⟩
    · intro i; simp [PSt.init, St.init, St.ents, refsOf]
    · simp [PSt.init, St.init, St.ents, refsOf]
  · exact Chain.rep_empty _ 0 rfl rfl

end Hoard
