import Verif.Spec.Retable
import Verif.NonInt
import Verif.Settle
import Verif.ReclaimLemmas
/-! What is visible does not depend on the hash table. -/
namespace Hoard
open Spec
variable {K V E : Type} {cfg : Cfg K} {L : Ledger K V} {s s' : St K V E}

/-- The number of the next lookup or value, from what was visible. -/
def NextAfter (n : Nat) (p : St K V E × Out K V E) : Prop := p.1.nextId = n + (if p.2.calls.isEmpty && !p.2.made then 0 else 1)

theorem step_next (env : Env V) (s : St K V E) (o : Op K V E) (ht : isTick o = false) : NextAfter s.nextId (step cfg env s o) := by
  have tl : ∀ (s : St K V E) e f, (tryLink cfg env s e f).1.nextId = s.nextId + (if (tryLink cfg env s e f).2 then 1 else 0) := by
    intro s e f
    cases f <;> simp [tryLink]
    split <;> simp
  cases o with
  | getIfExists k => simp [step, getIfExists, NextAfter]
  | count => simp [step, NextAfter]
  | get k r => simp only [step, get]; split <;> simp [resolveSync, NextAfter]
  | asyncGet k w b =>
    simp only [step, asyncGet]; split
    · rename_i l _; cases l <;> simp [answer, NextAfter]
    · unfold NextAfter
      have hm : ∀ (s : St K V E) i l, (answer s i w l).2.made = false := by intro s i l; cases l <;> rfl
      simp [hm]
  | emplace k v f =>
    simp only [step, emplace]; split
    · rename_i h; simp [tl, h, NextAfter]
    · rename_i h; simp [tl, h, NextAfter]
  | getOrEmplace k v f =>
    simp only [step, getOrEmplace]; split
    · simp [NextAfter]
    · split
      · rename_i h; simp [tl, h, NextAfter]
      · rename_i h; simp [tl, h, NextAfter]
    · simp [NextAfter]
  | erase k => simp [step, erase, NextAfter]
  | clear => simp [step, NextAfter]
  | complete t r =>
    simp only [NextAfter, step, complete_nextId]
    unfold complete; simp only; repeat' split
    all_goals simp_all
  | drop t =>
    simp only [NextAfter, step, drop_nextId]
    unfold drop; simp only; repeat' split
    all_goals simp_all
  | tick r b => cases ht
  | destroy => simp [step, destroy, NextAfter]

/-- The open lookups after a step, from what was visible. -/
def opensAfter (n : Nat) (l : List Nat) (o : Op K V E) (out : Out K V E) : List Nat :=
  match o with
  | .asyncGet _ _ b => if out.calls.isEmpty then l else match b with
    | .later => l ++ [n]
    | _ => (l ++ [n]).erase n
  | .complete t _ => l.erase t
  | .drop t => l.erase t
  | _ => l

def OpensAfter (n : Nat) (l : List Nat) (o : Op K V E) (p : St K V E × Out K V E) : Prop := p.1.opens = opensAfter n l o p.2

theorem step_opens (env : Env V) (s : St K V E) (o : Op K V E) (ht : isTick o = false) : OpensAfter s.nextId s.opens o (step cfg env s o) := by
  cases o with
  | getIfExists k => rfl
  | count => rfl
  | get k r => simp only [step, get]; split <;> simp [resolveSync, OpensAfter, opensAfter]
  | asyncGet k w b =>
    simp only [step, asyncGet]; split
    · rename_i l _; cases l <;> simp [answer, OpensAfter, opensAfter]
    · cases b <;> simp [resolveAsync, complete_opens, drop_opens, OpensAfter, opensAfter]
  | emplace k v f => simp only [step, emplace]; split <;> simp [OpensAfter, opensAfter]
  | getOrEmplace k v f =>
    simp only [step, getOrEmplace]; split
    · simp [OpensAfter, opensAfter]
    · split <;> simp [OpensAfter, opensAfter]
    · simp [OpensAfter, opensAfter]
  | erase k => simp [step, erase, OpensAfter, opensAfter]
  | clear => simp [step, OpensAfter, opensAfter]
  | complete t r => exact complete_opens cfg env s t r
  | drop t => exact drop_opens s t
  | tick r b => cases ht
  | destroy => simp [step, destroy, OpensAfter, opensAfter]

/-- The value of a key that is neither too old nor idle for too long. -/
def living (cfg : Cfg K) (env : Env V) (L : Ledger K V) (k : K) : Option V :=
  if env.now.past (L.ageLimit cfg.maxAge cfg.wall k) = true ∨ reached env.now (L.idleLimit cfg.refresh k) = true then none else L.cur k

theorem Valid.living {env : Env V} {mo ex tm : Prop} {k u} (h : Valid cfg ⟨mo, ex, env, tm⟩ L k u) : living cfg env L k = some u := by
  unfold Hoard.living
  rw [if_neg h.2.1, h.1]

theorem dead_living (hs : cfg.NoWeak) {env : Env V} {k} (h : ∀ u, L.cur k = some u → DeadL cfg env L k u) : living cfg env L k = none := by
  unfold living
  split
  · rfl
  · rename_i hn
    cases hcur : L.cur k with
    | none => rfl
    | some u =>
      rcases h u hcur with h | h | h
      · exact absurd (.inl h) hn
      · exact absurd (.inr h) hn
      · rcases hs with hs | hs | hs <;> simp [hs] at h

/-- Lists of keys that cover a list. -/
theorem cover (hc : cfg.Ok) : ∀ l : List K, ∃ ks : List K, ks.Pairwise (fun a b => cfg.eqv a b = false) ∧ ∀ a ∈ l, ∃ k ∈ ks, cfg.eqv a k = true
  | [] => ⟨[], .nil, fun _ h => by cases h⟩
  | a :: l => by
    obtain ⟨ks, h1, h2⟩ := cover hc l
    by_cases h : ∃ k ∈ ks, cfg.eqv a k = true
    · exact ⟨ks, h1, fun b hb => (List.mem_cons.1 hb).elim (fun e => e ▸ h) (h2 b)⟩
    · refine ⟨a :: ks, List.pairwise_cons.2 ⟨fun b hb => ?_, h1⟩, fun b hb => ?_⟩
      · cases hh : cfg.eqv a b
        · rfl
        · exact absurd ⟨b, hb, hh⟩ h
      · rcases List.mem_cons.1 hb with rfl | hb
        · exact ⟨b, List.mem_cons_self .., hc.refl b⟩
        · obtain ⟨k, hk, he⟩ := h2 b hb
          exact ⟨k, List.mem_cons_of_mem _ hk, he⟩


section
variable {hash : K → Nat} {over : Nat → Nat → Bool} {mb : Nat} {env : Env V} {mo tm : Prop}

theorem holds_living (hc : cfg.Ok) (hs : cfg.NoWeak) {X} (g : Good cfg ⟨mo, True, env, tm⟩ X s L) (a : K) :
    holds cfg env s a = (living cfg env L a).isSome := by
  rw [Bool.eq_iff_iff, holds_iff hc g env a]
  rcases (getIfExists_ok hc g a).2 with ⟨u, h1, h2⟩ | ⟨h1, h2⟩
  · simp only [h1, h2.living]; simp
  · rw [dead_living hs (h2 trivial)]
    simp only [Option.isSome_none, Bool.false_eq_true, iff_false]
    rintro ⟨v, hv⟩
    rw [show (getIfExists cfg env s a).ret = .miss from h1] at hv; cases hv

theorem joins_valid {X} (g : Good cfg ⟨mo, True, env, tm⟩ X s L) (hd : s.destroyed = false) (a : K) :
    joins cfg s a = (L.valid a).isSome := by
  rw [Bool.eq_iff_iff, joins, List.any_eq_true]
  constructor
  · rintro ⟨e, he, hl⟩
    simp only [Bool.and_eq_true] at hl
    rw [(g.p a).c2 e he hl.2 hl.1]; rfl
  · intro hv
    obtain ⟨t, ht⟩ := Option.isSome_iff_exists.1 hv
    obtain ⟨_, T, hT, _, _, hk, hl, _⟩ := (g.p a).c3 hd t ht
    exact ⟨T, hT, by simp [hl trivial, hk]⟩

theorem gie_living (hc : cfg.Ok) (hs : cfg.NoWeak) {X} (g : Good cfg ⟨mo, True, env, True⟩ X s L) (k : K) :
    getIfExists cfg env s k = { ret := found (living cfg env L k) } := by
  have hh : (getIfExists cfg env s k) = ({ ret := (getIfExists cfg env s k).ret } : Out K V E) := rfl
  rw [hh]
  rcases (getIfExists_ok hc g k).2 with ⟨u, h1, h2⟩ | ⟨h1, h2⟩
  · rw [show (getIfExists cfg env s k).ret = _ from h1, h2.living]; rfl
  · rw [show (getIfExists cfg env s k).ret = _ from h1, dead_living hs (h2 trivial)]; rfl

theorem get_living (hc : cfg.Ok) (hs : cfg.NoWeak) (hr : cfg.resolver ≠ .async) (hd : s.destroyed = false) {X}
    (g : Good cfg ⟨mo, True, env, True⟩ X s L) (k : K) (r : Res V E) :
    (get cfg env s k r).2 = match living cfg env L k with
      | some u => { ret := .val u }
      | none => if cfg.resolver = .sync then { ret := resRet r, calls := [(k, s.nextId)] } else { ret := .miss } := by
  have hh : (get cfg env s k r).2 = { ret := (get cfg env s k r).2.ret, calls := (get cfg env s k r).2.calls } := by
    simp only [get]; split <;> rfl
  rcases (get_ok hc g hd hr k r).2 with ⟨u, h1, h2, h3⟩ | ⟨⟨h1, h2, h3⟩ | ⟨h1, h2, h3⟩, h4⟩
  · rw [hh, show (get cfg env s k r).2.ret = _ from h1, show (get cfg env s k r).2.calls = _ from h3, h2.living]
  · rw [hh, show (get cfg env s k r).2.ret = _ from h1, show (get cfg env s k r).2.calls = _ from h2, dead_living hs (h4 trivial)]
    simp [h3]
  · rw [hh, show (get cfg env s k r).2.ret = _ from h1, show (get cfg env s k r).2.calls = _ from h2, dead_living hs (h4 trivial)]
    simp [h3]

theorem goe_living (hc : cfg.Ok) (hs : cfg.NoWeak) (hd : s.destroyed = false) {X}
    (g : Good cfg ⟨mo, True, env, True⟩ X s L) (k : K) (v : V) (f : Fail) (hg : f ≠ .grow) :
    (getOrEmplace cfg env s k v f).2 = match living cfg env L k with
      | some u => { ret := .val u }
      | none => if (L.valid k).isSome || !f.isNone then { ret := .throws } else { ret := .val v, made := true } := by
  obtain ⟨d1, n1, hk⟩ := get__ok hc g k true (.inl rfl)
  unfold getOrEmplace
  simp only at hk d1
  generalize get_ cfg env s k true = q at *
  obtain ⟨s1, l⟩ := q
  simp only at hk d1 ⊢
  rcases hk with ⟨u, rfl, hu, hna, hgo, g1⟩ | ⟨rfl, _, ⟨t, ht⟩, g1, hdp⟩ | ⟨rfl, g1, c1, hdd⟩
  · rw [Valid.living (mo := mo) (ex := True) (tm := True) ⟨hu, hna, hgo⟩]
  · rw [dead_living hs (hdp trivial), ht]; rfl
  · have hv : L.valid k = none := by
      cases ht : L.valid k with
      | none => rfl
      | some t =>
        obtain ⟨_, T, hT, _, _, hk, hl, _⟩ := (g1.p k).c3 (d1.trans hd) t ht
        rw [(c1 T hT hk).2] at hl
        exact absurd (hl trivial) (by simp)
    rw [dead_living hs (hdd trivial), hv]
    cases f <;> first | rfl | exact absurd rfl hg

theorem async_living (hc : cfg.Ok) (hs : cfg.NoWeak) (hr : cfg.resolver = .async) (hd : s.destroyed = false) {X}
    (g : Good cfg ⟨mo, True, env, True⟩ X s L) (k : K) (w : Nat) (b : Beh V E) :
    (asyncGet cfg env s k w b).2 = match living cfg env L k with
      | some u => { fired := [(w, .ok u)] }
      | none => if (L.valid k).isSome then {}
        else { fired := match b with | .now r => [(w, r)] | _ => [], calls := [(k, s.nextId)] } := by
  have hm : (asyncGet cfg env s k w b).2.made = false := by
    simp only [asyncGet]; split
    · rename_i l _; cases l <;> rfl
    · have hm : ∀ (s : St K V E) i l, (answer s i w l).2.made = false := by intro s i l; cases l <;> rfl
      exact hm _ _ _
  obtain ⟨-, a1, a2, a3⟩ := asyncGet_ok hc g hd hr k w b
  generalize hA : asyncGet cfg env s k w b = A at *
  obtain ⟨A, ⟨r1, f1, k1, c1, m1⟩⟩ := A
  simp only at a1 a2 a3 hm ⊢
  subst a1 a2 hm
  rcases a3 with ⟨u, p1, p2, p3⟩ | ⟨⟨p1, p2, t, p3⟩, p4⟩ | ⟨p1, p2, p3, p4⟩
  · rw [p3.living]; subst p1 p2; rfl
  · rw [dead_living hs (p4 trivial), p3]; subst p1 p2; rfl
  · have hv : L.valid k = none := by
      cases ht : L.valid k with
      | none => rfl
      | some t => exact absurd trivial (p2 t ht)
    rw [dead_living hs (p3 trivial), hv]; subst p1 p4; rfl

/-- Two hash tables with the same contents according to the ledger show the same. -/
theorem out_same (hc : cfg.Ok) (hc' : (cfg.retable hash over mb).Ok) (hs : cfg.NoWeak) {X X'}
    (g : Good cfg ⟨mo, True, env, True⟩ X s L) (g' : Good (cfg.retable hash over mb) ⟨mo, True, env, True⟩ X' s' L)
    (hd : s.destroyed = false) (hd' : s'.destroyed = false) (hn : s.nextId = s'.nextId) (ho : s.opens = s'.opens)
    (o : Op K V E) (hok : o.ok cfg s) (ht : isTick o = false) (hg : growFails o = false) (hx : o ≠ .destroy) :
    (step cfg env s o).2 = (step (cfg.retable hash over mb) env s' o).2 := by
  have hs' : (cfg.retable hash over mb).NoWeak := hs
  have hl : ∀ k, living (cfg.retable hash over mb) env L k = living cfg env L k := fun _ => rfl
  cases o with
  | getIfExists k =>
    show getIfExists cfg env s k = getIfExists _ env s' k
    rw [gie_living hc hs g, gie_living hc' hs' g', hl]
  | count =>
    obtain ⟨ks, hks, hcov⟩ := cover hc (s.ents.map (·.key))
    have hj := joins_valid g hd
    have hj' := joins_valid g' hd'
    have hh := holds_living hc hs g
    have hh' := holds_living hc' hs' g'
    have hcov' : ∀ a, (living cfg env L a).isSome = true ∨ (L.valid a).isSome = true → ∃ k ∈ ks, cfg.eqv a k = true := by
      intro a ha
      have : ∃ e ∈ s.ents, cfg.eqv e.key a = true := by
        rcases ha with ha | ha
        · rw [← hh, holds, List.any_eq_true] at ha
          obtain ⟨e, he, h1⟩ := ha
          simp only [Bool.and_eq_true] at h1
          exact ⟨e, he, h1.2⟩
        · rw [← hj, joins, List.any_eq_true] at ha
          obtain ⟨e, he, h1⟩ := ha
          simp only [Bool.and_eq_true] at h1
          exact ⟨e, he, h1.2⟩
      obtain ⟨e, he, h1⟩ := this
      obtain ⟨k, hk, h2⟩ := hcov e.key (List.mem_map_of_mem he)
      exact ⟨k, hk, hc.trans _ _ _ (hc.symm _ _ h1) h2⟩
    have c1 := count_keys hc g trivial env ks hks (by intro a ha; rw [hh, hj] at ha; exact hcov' a ha)
    have c2 := count_keys hc' g' trivial env ks hks (by intro a ha; rw [hh', hj'] at ha; exact hcov' a ha)
    have : count env s = count env s' := by
      rw [c1, c2]
      congr 2
      · apply List.filter_congr; intro k _; rw [hh, hh', hl]
      · apply List.filter_congr; intro k _; rw [hj, hj']
    simp only [step, this]
  | get k r =>
    show (get cfg env s k r).2 = (get _ env s' k r).2
    rw [get_living hc hs hok.1 hd g, get_living hc' hs' hok.1 hd' g', hl, hn]
    rfl
  | asyncGet k w b =>
    show (asyncGet cfg env s k w b).2 = (asyncGet (cfg.retable hash over mb) env s' k w b).2
    rw [async_living hc hs hok.1 hd g, async_living hc' hs' hok.1 hd' g', hl, hn]
  | emplace k v f => cases f <;> first | rfl | cases hg
  | getOrEmplace k v f =>
    have hf : f ≠ .grow := by rintro rfl; cases hg
    show (getOrEmplace cfg env s k v f).2 = (getOrEmplace _ env s' k v f).2
    rw [goe_living hc hs hd g _ _ _ hf, goe_living hc' hs' hd' g' _ _ _ hf, hl]
  | erase k => rfl
  | clear => rfl
  | complete t r =>
    show (complete cfg env s t r).2 = (complete _ env s' t r).2
    by_cases h : t ∈ s.opens
    · rw [(complete_ok hc g hd h r).2, (complete_ok hc' g' hd' (ho ▸ h) r).2]
    · unfold complete
      rw [if_neg h, if_neg (ho ▸ h)]
  | drop t =>
    show (drop s t).2 = (drop s' t).2
    by_cases h : t ∈ s.opens
    · obtain ⟨-, p1, p2, p3⟩ := drop_ok hc g h
      obtain ⟨-, q1, q2, q3⟩ := drop_ok hc' g' (show t ∈ s'.opens from ho ▸ h)
      have hh : ∀ s : St K V E, (drop s t).2 = { ret := (drop s t).2.ret, fired := (drop s t).2.fired, broken := (drop s t).2.broken } := by
        intro s; unfold drop; split <;> rfl
      rw [hh s, hh s', p1, p2, p3 hd, q1, q2, q3 hd']
    · unfold drop
      rw [if_neg h, if_neg (ho ▸ h)]
  | tick r b => cases ht
  | destroy => exact absurd rfl hx

end

/-- Two caches that differ in the hash table, after the same history. -/
structure SameTo (cfg cfg' : Cfg K) (mo : Prop) (env : Env V) (s s' : St K V E) (L : Ledger K V) : Prop where
  g : Good cfg ⟨mo, True, env, True⟩ (fun _ => False) s L
  g' : Good cfg' ⟨mo, True, env, True⟩ (fun _ => False) s' L
  d : s.destroyed = s'.destroyed
  n : s.nextId = s'.nextId
  o : s.opens = s'.opens
  w : ∀ w, Wt w s = Wt w s'

theorem ok_retable {hash : K → Nat} {over : Nat → Nat → Bool} {mb : Nat} {o : Op K V E} (hd : s.destroyed = s'.destroyed) (h : o.ok cfg s) :
    o.ok (cfg.retable hash over mb) s' := by
  unfold Op.ok at h ⊢
  rw [← hd]
  exact h

theorem SameTo.step {hash : K → Nat} {over : Nat → Nat → Bool} {mb : Nat} {mo : Prop} {env0 env : Env V} (hc : cfg.Ok) (hc' : (cfg.retable hash over mb).Ok)
    (hs : cfg.NoWeak) (r : SameTo cfg (cfg.retable hash over mb) mo env0 s s' L) (hem : mo ∨ cfg.Untimed) (hle : mo → env0.le env)
    (o : Op K V E) (hok : o.ok cfg s) (ht : isTick o = false) (hg : growFails o = false)
    (ne : NoEvict cfg (step cfg env s o).1) (ne' : NoEvict (cfg.retable hash over mb) (step (cfg.retable hash over mb) env s' o).1) :
    SameOut (step cfg env s o).2 (step (cfg.retable hash over mb) env s' o).2 ∧
    (o ≠ .destroy → (step cfg env s o).2 = (step (cfg.retable hash over mb) env s' o).2) ∧
    SameTo cfg (cfg.retable hash over mb) mo env (step cfg env s o).1 (step (cfg.retable hash over mb) env s' o).1
      (L.after cfg.eqv cfg.resolver env.now o (step cfg env s o).2) := by
  have g : Good cfg ⟨mo, True, env, True⟩ (fun _ => False) s L := r.g.advance (env := env) (fun _ => hem) hle
  have g' : Good (cfg.retable hash over mb) ⟨mo, True, env, True⟩ (fun _ => False) s' L := r.g'.advance (env := env) (fun _ => hem) hle
  have hok' : o.ok (cfg.retable hash over mb) s' := ok_retable r.d hok
  have G := step_ok hc g o hok (fun _ => ne)
  have G' := step_ok hc' g' o hok' (fun _ => ne')
  have w1 := Wt_step (env := env) hc g rfl o hok
  have w2 := Wt_step (env := env) hc' g' rfl o hok'
  have n1 := step_next (cfg := cfg) env s o ht
  have n2 := step_next (cfg := cfg.retable hash over mb) env s' o ht
  have o1 := step_opens (cfg := cfg) env s o ht
  have o2 := step_opens (cfg := cfg.retable hash over mb) env s' o ht
  have dd : (Hoard.step cfg env s o).1.destroyed = (Hoard.step (cfg.retable hash over mb) env s' o).1.destroyed := by
    by_cases hx : o = .destroy
    · subst hx; rfl
    · rw [step_destroyed _ _ _ _ hx, step_destroyed _ _ _ _ hx, r.d]
  by_cases hx : o = .destroy
  · subst hx
    have e1 : ∀ w, (Hoard.step cfg env s .destroy).2.broken.count w = (Hoard.step (cfg.retable hash over mb) env s' .destroy).2.broken.count w := by
      intro w
      have a := w1 w
      have b := w2 w
      rw [Wt_gone G.wf2 rfl] at a
      rw [Wt_gone G'.wf2 rfl] at b
      have := r.w w
      simp only [Hoard.step, destroy, List.map_nil, List.count_nil] at a b ⊢
      omega
    refine ⟨⟨rfl, rfl, List.perm_iff_count.2 e1, rfl, rfl⟩, fun h => absurd rfl h, ⟨G, G', rfl, ?_, ?_, fun w => ?_⟩⟩
    · exact n1.trans ((congrArg (· + 0) r.n).trans n2.symm)
    · exact o1.trans (r.o.trans o2.symm)
    · rw [Wt_gone G.wf2 rfl, Wt_gone G'.wf2 rfl]
  · have e : (Hoard.step cfg env s o).2 = (Hoard.step (cfg.retable hash over mb) env s' o).2 := by
      cases hd : s.destroyed
      · exact out_same hc hc' hs g g' hd (r.d ▸ hd) r.n r.o o hok ht hg hx
      · have hd' : s'.destroyed = true := r.d ▸ hd
        have bn : ∀ {l : List Nat}, (∀ w, l.count w = 0) → l = [] := by
          intro l h
          cases l with
          | nil => rfl
          | cons a l => have := h a; simp at this
        have wz := Wt_gone g.wf2 hd
        have wz' := Wt_gone g'.wf2 hd'
        cases o with
        | complete t x =>
          have hb : (complete cfg env s t x).2 = { ret := .bool false, broken := (complete cfg env s t x).2.broken } := by
            unfold complete; simp only [hd]; split <;> rfl
          have hb' : (complete (cfg.retable hash over mb) env s' t x).2 = { ret := .bool false, broken := (complete (cfg.retable hash over mb) env s' t x).2.broken } := by
            unfold complete; simp only [hd']; split <;> rfl
          have z : (complete cfg env s t x).2.broken = [] := bn (fun w => by
            have a := w1 w; rw [wz w] at a
            simp only [Hoard.step, asked, List.count_nil] at a; omega)
          have z' : (complete (cfg.retable hash over mb) env s' t x).2.broken = [] := bn (fun w => by
            have a := w2 w; rw [wz' w] at a
            simp only [Hoard.step, asked, List.count_nil] at a; omega)
          show (complete cfg env s t x).2 = (complete _ env s' t x).2
          rw [hb, hb', z, z']
        | drop t =>
          have hb : ∀ s : St K V E, (drop s t).2 = { ret := .bool (decide (t ∈ s.opens)), broken := (drop s t).2.broken } := by
            intro s; unfold drop; split <;> simp_all
          have z : (drop s t).2.broken = [] := bn (fun w => by
            have a := w1 w; rw [wz w] at a
            simp only [Hoard.step, asked, List.count_nil] at a; omega)
          have z' : (drop s' t).2.broken = [] := bn (fun w => by
            have a := w2 w; rw [wz' w] at a
            simp only [Hoard.step, asked, List.count_nil] at a; omega)
          show (drop s t).2 = (drop s' t).2
          rw [hb s, hb s', z, z', r.o]
        | tick x b => cases ht
        | get k x => exact absurd (hd.symm.trans hok.2) (by simp)
        | asyncGet k w b => exact absurd (hd.symm.trans hok.2) (by simp)
        | _ => exact absurd (hd.symm.trans hok) (by simp)
    refine ⟨⟨by rw [e], by rw [e], by rw [e], by rw [e], by rw [e]⟩, fun _ => e, ⟨G, ?_, dd, ?_, ?_, fun w => ?_⟩⟩
    · rw [e]; exact G'
    · unfold NextAfter at n1 n2
      rw [n1, n2, e, r.n]
    · unfold OpensAfter at o1 o2
      rw [o1, o2, e, r.n, r.o]
    · have a := w1 w
      have b := w2 w
      rw [e] at a
      have := r.w w
      omega

theorem noEvict_head {h : Hist K V E} (hh : NoEvictH cfg s h) : NoEvict cfg s := by
  cases h with
  | nil => exact hh
  | cons p h => exact hh.1

theorem SameTo.run {hash : K → Nat} {over : Nat → Nat → Bool} {mb : Nat} {mo : Prop} (hc : cfg.Ok) (hc' : (cfg.retable hash over mb).Ok)
    (hs : cfg.NoWeak) (hem : mo ∨ cfg.Untimed) : ∀ (h : Hist K V E) {env0 : Env V} {s s' : St K V E} {L : Ledger K V},
    SameTo cfg (cfg.retable hash over mb) mo env0 s s' L → (mo → Mono (env0 :: h.map (·.1))) → HistOk cfg s h →
    (∀ p ∈ h, isTick p.2 = false ∧ growFails p.2 = false) → NoEvictH cfg s h → NoEvictH (cfg.retable hash over mb) s' h →
    HistOk (cfg.retable hash over mb) s' h ∧
    SameOuts (Hoard.run cfg s h).2 (Hoard.run (cfg.retable hash over mb) s' h).2 ∧
    ((∀ p ∈ h, p.2 ≠ .destroy) → (Hoard.run cfg s h).2 = (Hoard.run (cfg.retable hash over mb) s' h).2)
  | [], _, _, _, _, _, _, _, _, _, _ => ⟨trivial, trivial, fun _ => rfl⟩
  | (env, o) :: h, env0, s, s', L, r, hm, hok, hp, ne, ne' => by
    have hp1 := hp (env, o) (List.mem_cons_self ..)
    have hle : mo → env0.le env := fun x => by
      have := hm x; simp only [Mono, List.map_cons, List.pairwise_cons] at this
      exact this.1 env (List.mem_cons_self ..)
    obtain ⟨s1, s2, s3⟩ := r.step hc hc' hs hem hle o hok.1 hp1.1 hp1.2 (noEvict_head ne.2) (noEvict_head ne'.2)
    obtain ⟨i1, i2, i3⟩ := SameTo.run hc hc' hs hem h s3 (fun x => by
      have := hm x; simp only [Mono, List.map_cons, List.pairwise_cons] at this ⊢
      exact this.2) hok.2 (fun p hh => hp p (List.mem_cons_of_mem _ hh)) ne.2 ne'.2
    refine ⟨⟨ok_retable r.d hok.1, i1⟩, ⟨s1, i2⟩, fun hx => ?_⟩
    have a := s2 (hx _ (List.mem_cons_self ..))
    have b := i3 (fun p hh => hx p (List.mem_cons_of_mem _ hh))
    simp only [Hoard.run, a, b]

end Hoard
