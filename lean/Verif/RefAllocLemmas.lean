import Verif.Spec.RefAlloc
import Verif.RefcountLemmas
/-! # Lemmas about counted pointers and their allocators -/
namespace Hoard.RefAlloc
open Hoard.Refcount

/-- The invariant: counters are right, every living object has one block, and every pointer variable
has the allocator of its object. -/
structure AInv (t : A) : Prop where
  inv : Inv t.s
  keys : (t.blocks.map (·.1)).Nodup
  al : ∀ o, (∃ a, (o, a) ∈ t.blocks) ↔ t.s.alive o = true
  own : ∀ x o, (x, some o) ∈ t.s.vars → (o, t.alloc x) ∈ t.blocks

theorem key_unique : ∀ {l : List (Nat × Nat)}, (l.map (·.1)).Nodup → ∀ {o a b}, (o, a) ∈ l → (o, b) ∈ l → a = b := by
  intro l
  induction l with
  | nil => intro _ o a b h; cases h
  | cons v l ih =>
    intro hn o a b ha hb
    rw [List.map_cons, List.nodup_cons] at hn
    rcases List.mem_cons.1 ha with e | ha
    · rcases List.mem_cons.1 hb with e' | hb
      · rw [← e] at e'; exact (congrArg Prod.snd e').symm
      · exact absurd (List.mem_map.2 ⟨_, hb, by rw [← e]⟩) hn.1
    · rcases List.mem_cons.1 hb with e' | hb
      · exact absurd (List.mem_map.2 ⟨_, ha, by rw [← e']⟩) hn.1
      · exact ih hn.2 ha hb

theorem alive_iff {s : St} (h : Inv s) (o : Nat) : s.alive o = true ↔ o < s.next ∧ o ∉ s.killed := by
  constructor
  · intro q
    refine ⟨h.e.lt o q, fun hk => ?_⟩
    have := ((h.e.km o).1 hk).2
    rw [q] at this; cases this
  · rintro ⟨q1, q2⟩
    cases e : s.alive o
    · exact absurd ((h.e.km o).2 ⟨q1, e⟩) q2
    · rfl

theorem fin_ok {t : A} (h : AInv t) {s' : St} {a : Nat} {al : Nat → Nat} (hi : Inv s') (hn : s'.next = t.s.next)
    (hk : s'.killed = t.s.killed ∨ ∃ o, (o, a) ∈ t.blocks ∧ s'.killed = t.s.killed ++ [o])
    (hv : ∀ z o, (z, some o) ∈ s'.vars → (o, al z) ∈ t.blocks) :
    ∃ t', fin t s' a al = some t' ∧ AInv t' ∧ t'.s = s' ∧ (∀ v ∈ t'.blocks, v ∈ t.blocks) ∧ t'.leaked = t.leaked := by
  have key : ∃ b, (s'.killed.drop t.s.killed.length).foldlM (fun b o => giveBack b o a) t.blocks = some b ∧
      (b.map (·.1)).Nodup ∧ (∀ v ∈ b, v ∈ t.blocks) ∧ ∀ o, (∃ a, (o, a) ∈ b) ↔ s'.alive o = true := by
    rcases hk with hk | ⟨o, ho, hk⟩
    · refine ⟨t.blocks, by rw [hk, List.drop_length]; rfl, h.keys, fun v hv => hv, fun o => ?_⟩
      rw [h.al o, alive_iff h.inv, alive_iff hi, hn, hk]
    · refine ⟨t.blocks.erase (o, a), ?_, h.keys.sublist (List.erase_sublist.map _), fun v hv => List.mem_of_mem_erase hv, fun z => ?_⟩
      · rw [hk, List.drop_left]
        simp [giveBack, ho]
      · rw [alive_iff hi, hn, hk]
        have hz := h.al z
        rw [alive_iff h.inv] at hz
        have hnd : t.blocks.Nodup := (List.pairwise_map.1 h.keys).imp fun q e => q (congrArg _ e)
        by_cases e : z = o
        · subst e
          constructor
          · rintro ⟨b, hb⟩
            rw [hnd.mem_erase_iff] at hb
            exact absurd (by rw [key_unique h.keys hb.2 ho]) hb.1
          · rintro ⟨_, q⟩
            exact absurd (by simp) q
        · constructor
          · rintro ⟨b, hb⟩
            have := hz.1 ⟨b, List.mem_of_mem_erase hb⟩
            exact ⟨this.1, by simp [this.2, e]⟩
          · rintro ⟨q1, q2⟩
            obtain ⟨b, hb⟩ := hz.2 ⟨q1, fun q => q2 (List.mem_append_left _ q)⟩
            exact ⟨b, hnd.mem_erase_iff.2 ⟨fun q => e (congrArg Prod.fst q), hb⟩⟩
  obtain ⟨b, k1, k2, k3, k4⟩ := key
  refine ⟨{ t with s := s', alloc := al, blocks := b }, by simp only [fin, k1, bind, Option.bind], ⟨hi, k2, k4, ?_⟩, rfl, k3, rfl⟩
  intro x o hx
  have hal : s'.alive o = true := by
    rw [hi.e.pos, owners_eq]
    have := vown_ind hx o
    simp only [ind, if_true] at this
    omega
  obtain ⟨c, hc⟩ := (k4 o).2 hal
  have e := key_unique h.keys (k3 _ hc) (hv x o hx)
  show (o, al x) ∈ b
  rw [← e]; exact hc

theorem filter_key {a b : Nat} : ∀ {l : List (Nat × Nat)}, (l.map (·.1)).Nodup → (b, a) ∈ l → l.filter (fun v => decide (v.1 = b)) = [(b, a)] := by
  intro l
  induction l with
  | nil => intro _ q; cases q
  | cons v l ih =>
    intro hn q
    rw [List.map_cons, List.nodup_cons] at hn
    rcases List.mem_cons.1 q with e | q
    · subst e
      rw [List.filter_cons_of_pos (by simp)]
      congr 1
      rw [List.filter_eq_nil_iff]
      intro w hw e
      exact hn.1 (List.mem_map.2 ⟨w, hw, by simpa using e⟩)
    · rw [List.filter_cons_of_neg, ih hn.2 q]
      intro e
      exact hn.1 (List.mem_map.2 ⟨_, q, by simpa using (of_decide_eq_true e).symm⟩)

theorem finThrow_ok {t : A} (h : AInv t) {s' : St} (hi : Inv s') (hn : s'.next = t.s.next)
    (hk : s'.killed = t.s.killed ∨ ∃ o a, (o, a) ∈ t.blocks ∧ s'.killed = t.s.killed ++ [o])
    (hv : ∀ z o, (z, some o) ∈ s'.vars → (o, t.alloc z) ∈ t.blocks) :
    ∃ t', finThrow t s' = some t' ∧ AInv t' ∧ t'.s = s' ∧ (∀ v ∈ t'.blocks, v ∈ t.blocks) ∧
      (t'.leaked = t.leaked ∨ ∃ v ∈ t.blocks, t'.leaked = t.leaked ++ [v] ∧ v.1 ∈ s'.killed) ∧
      t'.leaked.map (·.1) = t.leaked.map (·.1) ++ s'.killed.filter (fun o => o ∉ t.s.killed) := by
  have hal : ∀ x o, (x, some o) ∈ s'.vars → s'.alive o = true := by
    intro x o hx
    rw [hi.e.pos, owners_eq]
    have := vown_ind hx o
    simp only [ind, if_true] at this
    omega
  have lk : t.leaked ++ t.blocks.filter (fun v => v.1 ∈ s'.killed.drop t.s.killed.length) = t.leaked ∧ s'.killed.filter (fun o => o ∉ t.s.killed) = [] ∨
      ∃ v ∈ t.blocks, t.leaked ++ t.blocks.filter (fun v => v.1 ∈ s'.killed.drop t.s.killed.length) = t.leaked ++ [v] ∧ v.1 ∈ s'.killed ∧
        s'.killed.filter (fun o => o ∉ t.s.killed) = [v.1] := by
    rcases hk with hk | ⟨b, a, hb, hk⟩
    · left
      rw [hk, List.drop_length]
      refine ⟨by simp, ?_⟩
      rw [List.filter_eq_nil_iff]
      simp
    · right
      refine ⟨(b, a), hb, ?_, by rw [hk]; simp, ?_⟩
      · rw [hk, List.drop_left]
        congr 1
        simp only [List.mem_singleton]
        exact filter_key h.keys hb
      · have hnk : b ∉ t.s.killed := by
          have := hi.e.kn
          rw [hk, List.nodup_append] at this
          intro q
          exact this.2.2 b q b (by simp) rfl
        rw [hk, List.filter_append]
        have e : t.s.killed.filter (fun o => decide (o ∉ t.s.killed)) = [] := by
          rw [List.filter_eq_nil_iff]; simp
        rw [e]
        simp [hnk]
  refine ⟨_, rfl, ⟨hi, h.keys.sublist (List.filter_sublist.map _), ?_, ?_⟩, rfl, fun v hv => (List.mem_filter.1 hv).1,
    lk.imp (·.1) (fun ⟨v, h1, h2, h3, _⟩ => ⟨v, h1, h2, h3⟩), ?_⟩
  · intro o
    have ho := h.al o
    show (∃ a, (o, a) ∈ t.blocks.filter _) ↔ s'.alive o = true
    simp only [List.mem_filter, decide_eq_true_eq, exists_and_right]
    rw [ho, alive_iff h.inv, alive_iff hi, hn]
    rcases hk with hk | ⟨b, a, _, hk⟩
    · rw [hk, List.drop_length]; simp
    · rw [hk, List.drop_left]; simp [and_assoc]
  · intro x o hx
    show (o, t.alloc x) ∈ t.blocks.filter _
    simp only [List.mem_filter, decide_eq_true_eq]
    refine ⟨hv x o hx, fun hd => ?_⟩
    exact ((alive_iff hi o).1 (hal x o hx)).2 (List.mem_of_mem_drop hd)
  · show (t.leaked ++ t.blocks.filter _).map _ = _
    rcases lk with ⟨q1, q2⟩ | ⟨v, _, q1, _, q2⟩
    · rw [q1, q2]; simp
    · rw [q1, q2]; simp

theorem inc_shape {s s' : St} {p : Option Nat} (h : s.inc p = some s') : s'.vars = s.vars ∧ s'.next = s.next ∧ s'.killed = s.killed := by
  cases p with
  | none => cases h; exact ⟨rfl, rfl, rfl⟩
  | some o =>
    simp only [St.inc] at h
    split at h
    · cases h; exact ⟨rfl, rfl, rfl⟩
    · cases h

theorem kill_shape {s s' : St} {o : Nat} (h : s.kill o = some s') : s'.vars = s.vars ∧ s'.next = s.next ∧ s'.killed = s.killed ++ [o] := by
  simp only [St.kill] at h
  split at h
  · cases h; exact ⟨rfl, rfl, rfl⟩
  · cases h

theorem unref_shape {s s' : St} {p : Option Nat} (h : s.unref p = some s') :
    s'.vars = s.vars ∧ s'.next = s.next ∧ (s'.killed = s.killed ∨ ∃ o, p = some o ∧ s'.killed = s.killed ++ [o]) := by
  cases p with
  | none => cases h; exact ⟨rfl, rfl, Or.inl rfl⟩
  | some o =>
    simp only [St.unref, St.dec] at h
    by_cases ha : s.alive o = true
    · simp only [ha, if_true, bind, Option.bind] at h
      split at h
      · obtain ⟨q1, q2, q3⟩ := kill_shape h
        exact ⟨q1, q2, Or.inr ⟨o, rfl, q3⟩⟩
      · cases h; exact ⟨rfl, rfl, Or.inl rfl⟩
    · simp [ha] at h

theorem mem_of_set {s : St} {x z : Nat} {p q : Option Nat} (h : (z, q) ∈ (s.set x p).vars) : (z = x ∧ q = p) ∨ (z ≠ x ∧ (z, q) ∈ s.vars) := by
  simp only [St.set, List.mem_map] at h
  obtain ⟨v, hv, e⟩ := h
  split at e
  · cases e; exact Or.inl ⟨rfl, rfl⟩
  · next hne => subst e; exact Or.inr ⟨hne, hv⟩

theorem lost_ok {t : A} (h : AInv t) {x : Nat} {p : Option Nat} (hx : (x, p) ∈ t.s.vars) :
    ∃ t', lost t x = some t' ∧ AInv t' ∧ t'.s.next = t.s.next ∧ (∀ v ∈ t'.blocks, v ∈ t.blocks) ∧
      t'.s.vars = (t.s.set x none).vars ∧ t'.s.raw = t.s.raw ∧ t'.leaked = t.leaked := by
  have hn := h.inv.nd
  obtain ⟨s', r1, r2, r3, r4, r5, r6⟩ := unref_ok (s := t.s.set x none) (h.inv.e.congr rfl rfl rfl rfl fun _ => rfl) p (by
    intro o e
    have := vown_ind hx o
    rw [owners_eq]; simp only [ind, e, if_true] at this; omega)
  have hi : Inv s' := by
    refine ⟨by rw [r3]; simp only [St.set, keys_set]; exact hn, r2.congr rfl rfl rfl rfl ?_⟩
    intro a
    have h1 := vown_set hn hx none a
    rw [owners_eq, owners_eq, r3, r4]
    simp only [St.set]
    simp only [ind, reduceCtorEq, if_false] at *
    omega
  obtain ⟨_, _, w3⟩ := unref_shape r1
  obtain ⟨t', g1, g2, g3, g4, g5⟩ := fin_ok h (a := t.alloc x) (al := t.alloc) hi r5 (by
      rcases w3 with w | ⟨o, e, w⟩
      · exact Or.inl w
      · exact Or.inr ⟨o, h.own x o (e ▸ hx), w⟩) (by
      intro z o hz
      rw [r3] at hz
      rcases mem_of_set hz with ⟨_, q⟩ | ⟨_, q⟩
      · cases q
      · exact h.own z o q)
  refine ⟨t', by simp only [lost, mem_get hn hx, bind, Option.bind, r1]; exact g1, g2, by rw [g3]; exact r5, g4, by rw [g3, r3], by rw [g3, r4]; rfl, g5⟩

/-- What a step says about the objects made. -/
structure Made (t t' : A) (op : AOp) : Prop where
  next : t'.s.next = t.s.next + (makers [op]).length
  blk : ∀ v ∈ t'.blocks, v ∈ t.blocks ∨ ∃ a, makers [op] = [a] ∧ v = (t.s.next, a)
  leak : t'.leaked = t.leaked ∨ (throwing [op] = 1 ∧ ∃ v ∈ t.blocks, t'.leaked = t.leaked ++ [v] ∧ v.1 ∈ t'.s.killed)
  killed : t.s.killed <+: t'.s.killed
  exact : t'.leaked.map (·.1) = t.leaked.map (·.1) ++ if throwing [op] = 1 then t'.s.killed.filter (fun o => o ∉ t.s.killed) else []

theorem lost_killed {t t' : A} {x : Nat} (h : lost t x = some t') : t.s.killed <+: t'.s.killed := by
  simp only [lost, bind, Option.bind_eq_some_iff] at h
  obtain ⟨p, _, s', h2, h3⟩ := h
  simp only [fin, bind, Option.bind_eq_some_iff, Option.some.injEq] at h3
  obtain ⟨b, _, rfl⟩ := h3
  rcases (unref_shape h2).2.2 with w | ⟨o, _, w⟩
  · show _ <+: s'.killed
    rw [w]; exact List.prefix_refl _
  · show _ <+: s'.killed
    rw [w]; exact List.prefix_append _ _

theorem astep_ok {t : A} (h : AInv t) {op : AOp} (ho : AOp.ok t op) : ∃ t', astep t op = some t' ∧ AInv t' ∧ Made t t' op := by
  have hn := h.inv.nd
  have same : ∀ {op : AOp}, makers [op] = [] → throwing [op] = 0 → Made t t op := fun e e' => ⟨by rw [e]; rfl, fun v hv => Or.inl hv, Or.inl rfl, List.prefix_refl _, by rw [e']; simp⟩
  -- an operation that is one of `Verif.Refcount`
  have main : ∀ {rop : Op} {op : AOp} {a : Nat} {al : Nat → Nat}, Op.ok t.s rop → makers [op] = [] → throwing [op] = 0 →
      (∀ s', step t.s rop = some s' → s'.next = t.s.next ∧
        (s'.killed = t.s.killed ∨ ∃ o, (o, a) ∈ t.blocks ∧ s'.killed = t.s.killed ++ [o]) ∧
        ∀ z o, (z, some o) ∈ s'.vars → (o, al z) ∈ t.blocks) →
      ∃ t', (do let s' ← step t.s rop; fin t s' a al) = some t' ∧ AInv t' ∧ Made t t' op := by
    intro rop op a al hr hm h0 hs
    obtain ⟨s', h1, h2, _, hp⟩ := step_ok h.inv hr
    obtain ⟨q1, q2, q3⟩ := hs s' h1
    obtain ⟨t', g1, g2, g3, g4, g5⟩ := fin_ok h h2 q1 q2 q3
    exact ⟨t', by rw [h1]; exact g1, g2, by rw [g3, q1, hm]; rfl, fun v hv => Or.inl (g4 v hv), Or.inl g5, by rw [g3]; exact hp, by rw [h0, g5]; simp⟩
  have mainT : ∀ {rop : Op} {op : AOp} {x : Nat} {thr : Bool}, Op.ok t.s rop → makers [op] = [] → throwing [op] = (if thr then 1 else 0) →
      (∀ s', step t.s rop = some s' → s'.next = t.s.next ∧
        (s'.killed = t.s.killed ∨ ∃ o, (o, t.alloc x) ∈ t.blocks ∧ s'.killed = t.s.killed ++ [o]) ∧
        ∀ z o, (z, some o) ∈ s'.vars → (o, t.alloc z) ∈ t.blocks) →
      ∃ t', (do let s' ← step t.s rop; if thr then finThrow t s' else fin t s' (t.alloc x) t.alloc) = some t' ∧ AInv t' ∧ Made t t' op := by
    intro rop op x thr hr hm ht hs
    cases thr with
    | false => exact main hr hm ht hs
    | true =>
      obtain ⟨s', h1, h2, _, hp⟩ := step_ok h.inv hr
      obtain ⟨q1, q2, q3⟩ := hs s' h1
      obtain ⟨t', g1, g2, g3, g4, g5, g6⟩ := finThrow_ok h h2 q1 (q2.imp id fun ⟨o, w⟩ => ⟨o, _, w⟩) q3
      refine ⟨t', by rw [h1]; exact g1, g2, by rw [g3, q1, hm]; rfl, fun v hv => Or.inl (g4 v hv), ?_, by rw [g3]; exact hp, by rw [g6, ht, g3]; simp⟩
      rw [g3]
      exact g5.imp id fun w => ⟨ht, w⟩
  have low : ∀ {x : Nat} {p : Option Nat} {op : AOp}, (x, p) ∈ t.s.vars → makers [op] = [] → throwing [op] = 0 → ∃ t', lost t x = some t' ∧ AInv t' ∧ Made t t' op := by
    intro x p op hx hm h0
    obtain ⟨t', g1, g2, g3, g4, _, _, g7⟩ := lost_ok h hx
    exact ⟨t', g1, g2, by rw [g3, hm]; rfl, fun v hv => Or.inl (g4 v hv), Or.inl g7, lost_killed g1, by rw [h0, g7]; simp⟩
  have upd_ne : ∀ {x z a : Nat}, z ≠ x → upd t.alloc x a z = t.alloc z := fun e => by simp [upd, e]
  have upd_eq : ∀ {x a : Nat}, upd t.alloc x a x = a := by simp [upd]
  cases op with
  | make x a f =>
    cases f with
    | some f =>
      cases f with
      | copy => exact ⟨t, rfl, h, same rfl rfl⟩
      | allocate => exact ⟨t, rfl, h, same rfl rfl⟩
      | construct => exact ⟨t, by simp [astep, giveBack], h, same rfl rfl⟩
    | none =>
      obtain ⟨s', h1, h2, _, _⟩ := step_ok h.inv (op := .alloc x) ho
      cases h1
      have fresh : ∀ b, (t.s.next, b) ∉ t.blocks := fun b hb => absurd (h.inv.e.lt _ ((h.al _).1 ⟨b, hb⟩)) (Nat.lt_irrefl _)
      refine ⟨_, rfl, ⟨h2, ?_, ?_, ?_⟩, ⟨rfl, ?_, Or.inl rfl, List.prefix_refl _, by simp [throwing]⟩⟩
      · show (((t.s.next, a) :: t.blocks).map (·.1)).Nodup
        rw [List.map_cons, List.nodup_cons]
        refine ⟨fun q => ?_, h.keys⟩
        obtain ⟨v, hv, e⟩ := List.mem_map.1 q
        have e' : v.1 = t.s.next := e
        exact fresh v.2 (by rw [← e']; exact hv)
      · intro o
        show (∃ b, (o, b) ∈ (t.s.next, a) :: t.blocks) ↔ (if o = t.s.next then true else t.s.alive o) = true
        by_cases e : o = t.s.next
        · simp only [e, if_true, iff_true]
          exact ⟨a, List.mem_cons_self⟩
        · simp only [e, if_false]
          rw [← h.al o]
          constructor
          · rintro ⟨b, hb⟩
            rcases List.mem_cons.1 hb with q | q
            · exact absurd (congrArg Prod.fst q) e
            · exact ⟨b, q⟩
          · rintro ⟨b, hb⟩
            exact ⟨b, List.mem_cons_of_mem _ hb⟩
      · intro z o hz
        rcases List.mem_cons.1 hz with q | q
        · cases q
          show (t.s.next, upd t.alloc x a x) ∈ _
          rw [upd_eq]; exact List.mem_cons_self
        · have e : z ≠ x := fun e => ho (some o) (e ▸ q)
          show (o, upd t.alloc x a z) ∈ _
          rw [upd_ne e]; exact List.mem_cons_of_mem _ (h.own z o q)
      · intro v hv
        rcases List.mem_cons.1 hv with q | q
        · exact Or.inr ⟨a, rfl, q⟩
        · exact Or.inl q
  | null x a =>
    refine ⟨_, rfl, ⟨⟨?_, h.inv.e.congr rfl rfl rfl rfl ?_⟩, h.keys, h.al, ?_⟩, ⟨rfl, fun v hv => Or.inl hv, Or.inl rfl, List.prefix_refl _, by simp [throwing]⟩⟩
    · simp only [St.decl, List.map_cons, List.nodup_cons]
      exact ⟨fun hm => by obtain ⟨v, hv, e⟩ := List.mem_map.1 hm; exact ho v.2 (by rw [← e]; exact hv), hn⟩
    · intro o
      rw [owners_eq, owners_eq]
      simp only [St.decl, vown_cons, ind, reduceCtorEq, if_false]
      rfl
    · intro z o hz
      rcases List.mem_cons.1 hz with q | q
      · cases q
      · have e : z ≠ x := fun e => ho (some o) (e ▸ q)
        show (o, upd t.alloc x a z) ∈ _
        rw [upd_ne e]; exact h.own z o q
  | copy x y fail =>
    cases fail with
    | true => exact ⟨t, rfl, h, same rfl rfl⟩
    | false =>
      refine main (rop := .copy x y) ho rfl rfl fun s' hs => ?_
      obtain ⟨hx, p, hy⟩ := ho
      simp only [step, mem_get hn hy, bind, Option.bind] at hs
      obtain ⟨q1, q2, q3⟩ := inc_shape hs
      refine ⟨q2, Or.inl q3, fun z o hz => ?_⟩
      rw [q1] at hz
      rcases List.mem_cons.1 hz with q | q
      · cases q; rw [upd_eq]; exact h.own _ _ hy
      · rw [upd_ne fun e => hx _ (e ▸ q)]; exact h.own z o q
  | move x y fail =>
    cases fail with
    | true => exact ⟨t, rfl, h, same rfl rfl⟩
    | false =>
      refine main (rop := .move x y) ho rfl rfl fun s' hs => ?_
      obtain ⟨hx, p, hy⟩ := ho
      simp only [step, mem_get hn hy, bind, Option.bind] at hs
      cases hs
      refine ⟨rfl, Or.inl rfl, fun z o hz => ?_⟩
      rcases List.mem_cons.1 hz with q | q
      · cases q; rw [upd_eq]; exact h.own _ _ hy
      · rcases mem_of_set q with ⟨_, q⟩ | ⟨_, q⟩
        · cases q
        · rw [upd_ne fun e => hx _ (e ▸ q)]; exact h.own z o q
  | dtor x =>
    refine main (rop := .dtor x) ho rfl rfl fun s' hs => ?_
    obtain ⟨p, hx⟩ := ho
    simp only [step, mem_get hn hx, bind, Option.bind] at hs
    obtain ⟨q1, q2, q3⟩ := unref_shape hs
    refine ⟨q2, ?_, fun z o hz => ?_⟩
    · rcases q3 with w | ⟨o, e, w⟩
      · exact Or.inl w
      · exact Or.inr ⟨o, h.own x o (e ▸ hx), w⟩
    · rw [q1] at hz
      exact h.own z o (List.mem_filter.1 hz).1
  | copyAssign x y f =>
    by_cases exy : x = y
    · exact ⟨t, by simp [astep, exy], h, same rfl rfl⟩
    simp only [astep, exy, if_false]
    cases f with
    | some f =>
      obtain ⟨⟨p, hx⟩, _⟩ := ho
      cases f with
      | orig => exact ⟨t, rfl, h, same rfl rfl⟩
      | assign => exact low hx rfl rfl
    | none =>
      refine main (rop := .copyAssign x y) ho rfl rfl fun s' hs => ?_
      obtain ⟨⟨p, hx⟩, r, hy⟩ := ho
      simp only [step, mem_get hn hx, mem_get hn hy, bind, Option.bind, exy, if_false] at hs
      split at hs
      · cases hs
      · next s1 e1 =>
        obtain ⟨p1, p2, p3⟩ := inc_shape e1
        obtain ⟨q1, q2, q3⟩ := unref_shape hs
        refine ⟨by rw [q2, p2]; rfl, ?_, fun z o hz => ?_⟩
        · rw [p3] at q3
          rcases q3 with w | ⟨o, e, w⟩
          · exact Or.inl w
          · exact Or.inr ⟨o, h.own x o (e ▸ hx), w⟩
        · rw [q1, p1] at hz
          rcases mem_of_set hz with ⟨e, q⟩ | ⟨e, q⟩
          · subst e; rw [upd_eq]; exact h.own y o (q ▸ hy)
          · rw [upd_ne e]; exact h.own z o q
  | moveAssign x y f =>
    by_cases exy : x = y
    · exact ⟨t, by simp [astep, exy], h, same rfl rfl⟩
    simp only [astep, exy, if_false]
    cases f with
    | some f =>
      obtain ⟨⟨p, hx⟩, _⟩ := ho
      cases f with
      | orig => exact ⟨t, rfl, h, same rfl rfl⟩
      | assign => exact low hx rfl rfl
    | none =>
      refine main (rop := .moveAssign x y) ho rfl rfl fun s' hs => ?_
      obtain ⟨⟨p, hx⟩, r, hy⟩ := ho
      simp only [step, mem_get hn hx, mem_get hn hy, bind, Option.bind, exy, if_false] at hs
      obtain ⟨q1, q2, q3⟩ := unref_shape hs
      refine ⟨q2, ?_, fun z o hz => ?_⟩
      · rcases q3 with w | ⟨o, e, w⟩
        · exact Or.inl w
        · exact Or.inr ⟨o, h.own x o (e ▸ hx), w⟩
      · rw [q1] at hz
        rcases mem_of_set hz with ⟨_, q⟩ | ⟨_, w⟩
        · cases q
        · rcases mem_of_set w with ⟨e, q⟩ | ⟨e, q⟩
          · subst e; rw [upd_eq]; exact h.own y o (q ▸ hy)
          · rw [upd_ne e]; exact h.own z o q
  | adopt x b =>
    obtain ⟨ho, hb⟩ := ho
    refine main (rop := .adopt x b) ho rfl rfl fun s' hs => ?_
    obtain ⟨⟨p, hx⟩, _⟩ := ho
    simp only [step, mem_get hn hx, bind, Option.bind] at hs
    obtain ⟨q1, q2, q3⟩ := unref_shape hs
    refine ⟨q2, ?_, fun z o hz => ?_⟩
    · rcases q3 with w | ⟨o, e, w⟩
      · exact Or.inl w
      · exact Or.inr ⟨o, h.own x o (e ▸ hx), w⟩
    · rw [q1] at hz
      rcases mem_of_set hz with ⟨e, q⟩ | ⟨e, q⟩
      · cases q; subst e; exact hb
      · exact h.own z o q
  | release x =>
    refine main (rop := .release x) ho rfl rfl fun s' hs => ?_
    obtain ⟨p, hx⟩ := ho
    simp only [step, mem_get hn hx, bind, Option.bind] at hs
    cases p with
    | none => cases hs; exact ⟨rfl, Or.inl rfl, h.own⟩
    | some o =>
      cases hs
      refine ⟨rfl, Or.inl rfl, fun z o hz => ?_⟩
      rcases mem_of_set hz with ⟨_, q⟩ | ⟨_, q⟩
      · cases q
      · exact h.own z o q
  | reset x thr =>
    refine mainT (rop := .reset x) (x := x) ho rfl (by cases thr <;> rfl) fun s' hs => ?_
    have : ∃ p, (x, p) ∈ t.s.vars := by
      rcases ho with ho | ⟨o, ho, _⟩
      · exact ⟨_, ho⟩
      · exact ⟨_, ho⟩
    obtain ⟨p, hx⟩ := this
    simp only [step, mem_get hn hx, bind, Option.bind] at hs
    cases p with
    | none => cases hs; exact ⟨rfl, Or.inl rfl, h.own⟩
    | some o =>
      simp only [St.dec] at hs
      by_cases ha : t.s.alive o = true
      · simp only [ha, if_true] at hs
        split at hs
        · obtain ⟨q1, q2, q3⟩ := kill_shape hs
          refine ⟨q2, Or.inr ⟨o, h.own x o hx, q3⟩, fun z o hz => ?_⟩
          rw [q1] at hz
          rcases mem_of_set hz with ⟨_, q⟩ | ⟨_, q⟩
          · cases q
          · exact h.own z o q
        · cases hs; exact ⟨rfl, Or.inl rfl, h.own⟩
      · simp [ha] at hs
  | resetPtr x p thr =>
    obtain ⟨ho, hb⟩ := ho
    refine mainT (rop := .resetPtr x p) (x := x) ho rfl (by cases thr <;> rfl) fun s' hs => ?_
    have : ∃ p, (x, p) ∈ t.s.vars := by
      rcases ho.1 with ho | ⟨o, ho, _⟩
      · exact ⟨_, ho⟩
      · exact ⟨_, ho⟩
    obtain ⟨old, hx⟩ := this
    simp only [step, mem_get hn hx, bind, Option.bind] at hs
    split at hs
    · cases hs
    · next s1 e1 =>
      obtain ⟨p1, p2, p3⟩ := inc_shape e1
      have hv : ∀ z o, (z, some o) ∈ (s1.set x p).vars → (o, t.alloc z) ∈ t.blocks := by
        intro z o hz
        rcases mem_of_set hz with ⟨e, q⟩ | ⟨e, q⟩
        · subst e; exact hb o q.symm
        · rw [p1] at q; exact h.own z o q
      cases old with
      | none => cases hs; exact ⟨p2, Or.inl p3, hv⟩
      | some o =>
        obtain ⟨q1, q2, q3⟩ := kill_shape hs
        refine ⟨by rw [q2]; exact p2, Or.inr ⟨o, h.own x o hx, by rw [q3]; show s1.killed ++ [o] = _; rw [p3]⟩, fun z o hz => hv z o (q1 ▸ hz)⟩
  | dispose b a =>
    obtain ⟨ho, hb⟩ := ho
    refine main (rop := .dispose b) ho rfl rfl fun s' hs => ?_
    obtain ⟨q1, q2, q3⟩ := unref_shape (show St.unref _ (some b) = some s' from hs)
    refine ⟨q2, ?_, fun z o hz => h.own z o (q1 ▸ hz)⟩
    rcases q3 with w | ⟨o, e, w⟩
    · exact Or.inl w
    · cases e; exact Or.inr ⟨b, hb, w⟩

theorem makers_cons (op : AOp) (os : List AOp) : makers (op :: os) = makers [op] ++ makers os := by
  cases op with
  | make x a f => cases f <;> rfl
  | _ => rfl

theorem throwing_cons (op : AOp) (os : List AOp) : throwing (op :: os) = throwing [op] + throwing os := by
  cases op with
  | reset x b => cases b <;> simp [throwing, Nat.add_comm]
  | resetPtr x p b => cases b <;> simp [throwing, Nat.add_comm]
  | _ => simp [throwing]

/-- The blocks and the leaked blocks are from the makers `m`; leaked blocks are of destroyed objects. -/
structure From (t : A) (m : List Nat) : Prop where
  len : t.s.next = m.length
  blk : ∀ o a, (o, a) ∈ t.blocks → m[o]? = some a
  leak : ∀ o a, (o, a) ∈ t.leaked → m[o]? = some a ∧ o ∈ t.s.killed

theorem arun_ok : ∀ (os : List AOp) {t : A} (m : List Nat), AInv t → From t m → AProg.ok t os →
    ∃ t', arun t os = some t' ∧ AInv t' ∧ From t' (m ++ makers os) ∧ t'.leaked.length ≤ t.leaked.length + throwing os ∧
      t'.leaked.map (·.1) = t.leaked.map (·.1) ++ thrown t os := by
  intro os
  induction os with
  | nil => intro t m h hm _; exact ⟨t, rfl, h, by simpa [makers] using hm, Nat.le_refl _, by simp [thrown]⟩
  | cons op os ih =>
    intro t m h hm ho
    obtain ⟨t1, h1, h2, h3⟩ := astep_ok h ho.1
    have grow : ∀ {o a : Nat}, m[o]? = some a → (m ++ makers [op])[o]? = some a := by
      intro o a q
      rw [List.getElem?_append_left (List.getElem?_eq_some_iff.1 q).1]; exact q
    obtain ⟨t2, g1, g2, g3, g4, g5⟩ := ih (m ++ makers [op]) h2 ⟨by rw [h3.next, hm.len, List.length_append], by
      intro o a hb
      rcases h3.blk _ hb with q | ⟨b, e, q⟩
      · exact grow (hm.blk o a q)
      · cases q; rw [e, hm.len]; simp, by
      intro o a hb
      rcases h3.leak with q | ⟨_, v, hv, q, hk⟩
      · rw [q] at hb
        have := hm.leak o a hb
        exact ⟨grow this.1, h3.killed.subset this.2⟩
      · rw [q] at hb
        rcases List.mem_append.1 hb with hb | hb
        · have := hm.leak o a hb
          exact ⟨grow this.1, h3.killed.subset this.2⟩
        · rw [List.mem_singleton] at hb
          subst hb
          exact ⟨grow (hm.blk _ _ hv), hk⟩⟩ (ho.2 t1 h1)
    rw [List.append_assoc, ← makers_cons] at g3
    refine ⟨t2, by simp only [arun, h1, bind, Option.bind]; exact g1, g2, g3, ?_, by rw [g5, h3.exact, List.append_assoc]; simp only [thrown, h1]⟩
    rw [throwing_cons]
    rcases h3.leak with q | ⟨q', v, hv, q, hk⟩
    · rw [q] at g4; omega
    · rw [q, List.length_append, List.length_singleton] at g4; omega

theorem ainit : AInv {} := ⟨init_inv, by simp, by simp, by simp⟩

theorem from_init : From {} [] := ⟨rfl, by simp, by simp⟩

theorem ainit_one (a : Nat) : AInv { alloc := fun _ => a } := ⟨init_inv, by simp, by simp, by simp⟩

theorem from_init_one (a : Nat) : From { alloc := fun _ => a } [] := ⟨rfl, by simp, by simp⟩

theorem fin_alloc {t t' : A} {s' : St} {a : Nat} {al : Nat → Nat} (h : fin t s' a al = some t') : t'.alloc = al := by
  simp only [fin, bind, Option.bind_eq_some_iff, Option.some.injEq] at h
  obtain ⟨b, _, rfl⟩ := h
  rfl

theorem upd_const {a x : Nat} : upd (fun _ => a) x a = fun _ => a := by
  funext z; simp [upd]

theorem astep_one {a : Nat} {t t' : A} {op : AOp} (h : t.alloc = fun _ => a) (ho : op.only a) (hs : astep t op = some t') : t'.alloc = fun _ => a := by
  have lo : ∀ {x}, lost t x = some t' → t'.alloc = fun _ => a := by
    intro x q
    simp only [lost, bind, Option.bind_eq_some_iff] at q
    obtain ⟨_, _, _, _, q⟩ := q
    rw [fin_alloc q, h]
  cases op with
  | make x b f =>
    have : b = a := ho
    subst this
    cases f with
    | some f =>
      cases f with
      | copy => cases hs; exact h
      | allocate => cases hs; exact h
      | construct =>
        simp only [astep, bind, Option.bind_eq_some_iff, Option.some.injEq] at hs
        obtain ⟨_, _, rfl⟩ := hs
        exact h
    | none =>
      simp only [astep, bind, Option.bind_eq_some_iff, Option.some.injEq] at hs
      obtain ⟨_, _, rfl⟩ := hs
      show upd t.alloc x b = _
      rw [h, upd_const]
  | null x b =>
    have : b = a := ho
    subst this
    cases hs
    show upd t.alloc x b = _
    rw [h, upd_const]
  | copy x y fail =>
    cases fail with
    | true => cases hs; exact h
    | false =>
      simp only [astep, Bool.false_eq_true, if_false, bind, Option.bind_eq_some_iff] at hs
      obtain ⟨_, _, q⟩ := hs
      rw [fin_alloc q, h, upd_const]
  | move x y fail =>
    cases fail with
    | true => cases hs; exact h
    | false =>
      simp only [astep, Bool.false_eq_true, if_false, bind, Option.bind_eq_some_iff] at hs
      obtain ⟨_, _, q⟩ := hs
      rw [fin_alloc q, h, upd_const]
  | copyAssign x y f =>
    simp only [astep] at hs
    split at hs
    · cases hs; exact h
    · cases f with
      | some f =>
        cases f with
        | orig => cases hs; exact h
        | assign => exact lo hs
      | none =>
        simp only [bind, Option.bind_eq_some_iff] at hs
        obtain ⟨_, _, q⟩ := hs
        rw [fin_alloc q, h, upd_const]
  | moveAssign x y f =>
    simp only [astep] at hs
    split at hs
    · cases hs; exact h
    · cases f with
      | some f =>
        cases f with
        | orig => cases hs; exact h
        | assign => exact lo hs
      | none =>
        simp only [bind, Option.bind_eq_some_iff] at hs
        obtain ⟨_, _, q⟩ := hs
        rw [fin_alloc q, h, upd_const]
  | reset x thr =>
    simp only [astep, bind, Option.bind_eq_some_iff] at hs
    obtain ⟨_, _, q⟩ := hs
    split at q
    · cases q; exact h
    · rw [fin_alloc q, h]
  | resetPtr x p thr =>
    simp only [astep, bind, Option.bind_eq_some_iff] at hs
    obtain ⟨_, _, q⟩ := hs
    split at q
    · cases q; exact h
    · rw [fin_alloc q, h]
  | _ =>
    simp only [astep, bind, Option.bind_eq_some_iff] at hs
    obtain ⟨_, _, q⟩ := hs
    rw [fin_alloc q, h]

theorem one_step {a : Nat} {t : A} (h : AInv t) (ha : t.alloc = fun _ => a) (hb : ∀ v ∈ t.blocks, v.2 = a) {op : AOp} (ho : Op.ok t.s op.plain) (hu : op.only a) :
    AOp.ok t op := by
  have blk : ∀ o, 0 < owners t.s o → (o, a) ∈ t.blocks := by
    intro o q
    obtain ⟨b, w⟩ := (h.al o).2 ((h.inv.e.pos o).2 q)
    have : b = a := hb _ w
    rw [← this]; exact w
  have raw : ∀ o, o ∈ t.s.raw → (o, a) ∈ t.blocks := by
    intro o q
    refine blk o ?_
    have := rown_erase q o
    rw [owners_eq]; simp only [ind, if_true] at this; omega
  cases op with
  | adopt x o => exact ⟨ho, by rw [ha]; exact raw o ho.2⟩
  | resetPtr x p thr => exact ⟨ho, fun o e => by rw [ha]; exact blk o (ho.2 o e)⟩
  | dispose o b =>
    have : b = a := hu
    subst this
    exact ⟨ho, raw o ho⟩
  | _ => exact ho

theorem one_ok {a : Nat} : ∀ (os : List AOp) {t : A}, AInv t → (t.alloc = fun _ => a) → (∀ v ∈ t.blocks, v.2 = a) → OneProg.ok a t os → AProg.ok t os := by
  intro os
  induction os with
  | nil => intro t _ _ _ _; trivial
  | cons op os ih =>
    intro t h ha hb ho
    have hok := one_step h ha hb ho.1.1 ho.1.2
    refine ⟨hok, fun t' ht => ?_⟩
    obtain ⟨t1, h1, h2, h3⟩ := astep_ok h hok
    rw [ht] at h1; cases h1
    refine ih h2 (astep_one ha ho.1.2 ht) (fun v hv => ?_) (ho.2 t' ht)
    rcases h3.blk v hv with q | ⟨b, e, q⟩
    · exact hb v q
    · subst q
      have hu := ho.1.2
      cases op with
      | make x c f =>
        cases f with
        | none => cases e; exact hu
        | some f => cases e
      | _ => cases e

end Hoard.RefAlloc
