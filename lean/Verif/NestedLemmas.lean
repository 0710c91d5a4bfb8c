import Verif.Spec.Nested
import Verif.InvAll
import Verif.MachineRun
import Verif.FillLemmas
import Verif.HistLemmas
/-! Helper lemmas about nested calls. -/
namespace Hoard.Nested
open Spec
variable {K V E : Type} {cfg : Cfg K} {M : Md V} {L : Ledger K V} {env : Env V}

/-- The invariant: the one of the flat model, and nothing is stored under the keys whose resolvers run. -/
structure NGood (cfg : Cfg K) (M : Md V) (n : NSt K V E) (L : Ledger K V) : Prop where
  good : Good cfg M (fun _ => False) n.s L
  opn : ∀ a ∈ n.stack, L.cur a = none
  des : n.stack ≠ [] → n.s.destroyed = false
  sep : n.stack.Pairwise (fun a b => cfg.eqv a b = false)

theorem next_none {n : NSt K V E} {k : K} {s1 : St K V E} (h : get_ cfg env n.s k false = (s1, .none)) :
    next cfg env n (.get k) = ({ s := s1, stack := k :: n.stack }, .called k) := by
  simp only [next, h]

theorem next_some {n : NSt K V E} {k : K} {s1 : St K V E} {l : Look V E} (h : get_ cfg env n.s k false = (s1, l)) (hl : l ≠ .none) :
    next cfg env n (.get k) = ({ n with s := s1 }, .out { ret := syncRet l }) := by
  simp only [next, h]

theorem clean_of_cur {s : St K V E} (hr : cfg.resolver ≠ .async) {X} (h : Good cfg M X s L) {a : K} (ha : L.cur a = none) : Clean cfg s a := by
  intro e he hk
  constructor
  · cases hv : e.mapped.val? with
    | none => rfl
    | some v => have := ((h.v a).c1 e he hk v hv).1; rw [ha] at this; cases this
  · cases hl : e.mapped.live
    · rfl
    · have := (h.wf2.noA hr).2 e he
      rw [Entry.isPending, Mapped.live_pending hl] at this; cases this

theorem after_cur {s : St K V E} (hr : cfg.resolver = .sync) {X} (h : Good cfg M X s L) (o : Op K V E) (stack : List K) (hap : Apart cfg.eqv stack (.op o : Ev K V E))
    (hok : o.ok cfg s) (hsy : cfg.Ok) (hng : ∀ k r, o ≠ .get k r) (ht : ∀ r b, o ≠ .tick r b) {a : K} (ha : a ∈ stack) (hcur : L.cur a = none) :
    (L.after cfg.eqv cfg.resolver M.env.now o (step cfg M.env s o).2).cur a = none := by
  have hput : ∀ (k : K) (v : Option V) (now : Time), (cfg.eqv k a = false ∨ v = none) → (L.write cfg.eqv now k v).cur a = none := by
    intro k v now hk
    simp only [Ledger.write, Ledger.put]
    split
    · rename_i hh
      rcases hk with hk | hk
      · rw [hsy.symm _ _ hh] at hk; cases hk
      · exact hk
    · exact hcur
  cases o with
  | getIfExists k => simp only [Ledger.after]; split <;> exact hcur
  | get k r => exact absurd rfl (hng k r)
  | asyncGet k w b => exact absurd hok.1 (by rw [hr]; simp)
  | emplace k v f => exact hput _ _ _ (.inl (hap a ha))
  | getOrEmplace k v f =>
    simp only [Ledger.after]
    split
    · exact hput _ _ _ (.inl (hap a ha))
    · split <;> exact hcur
  | erase k => exact hput _ _ _ (.inr rfl)
  | clear => rfl
  | count => exact hcur
  | complete t r =>
    have hop := (h.wf2.noA (by rw [hr]; simp)).1
    have : (step cfg M.env s (.complete t r)).2.ret = .bool false := by simp [step, complete, hop]
    simp only [Ledger.after, this]; exact hcur
  | drop t =>
    have hop := (h.wf2.noA (by rw [hr]; simp)).1
    have : (step cfg M.env s (.drop t)).2.ret = .bool false := by simp [step, drop, hop]
    simp only [Ledger.after, this]; exact hcur
  | tick r b => exact absurd rfl (ht r b)
  | destroy => rfl

/-- What a `get` in a nested call sees. -/
theorem nget_ok (hc : cfg.Ok) (hr : cfg.resolver = .sync) {n : NSt K V E} (h : NGood cfg M n L) (k : K) (hd : n.s.destroyed = false)
    (hap : ∀ a ∈ n.stack, cfg.eqv k a = false) :
    NGood cfg M (next cfg M.env n (.get k)).1 (after cfg.eqv cfg.resolver M.env.now L n.stack (.get k) (next cfg M.env n (.get k)).2) ∧
    ((∃ v, (next cfg M.env n (.get k)).2 = .out { ret := .val v } ∧ Valid cfg M L k v ∧ (next cfg M.env n (.get k)).1.stack = n.stack) ∨
     ((next cfg M.env n (.get k)).2 = .called k ∧ (next cfg M.env n (.get k)).1.stack = k :: n.stack ∧
        (M.ex → ∀ u, L.cur k = some u → DeadL cfg M.env L k u))) := by
  have hra : cfg.resolver ≠ .async := by rw [hr]; simp
  obtain ⟨d1, n1, hg⟩ := get__ok hc h.good k false (.inr hra)
  generalize hgg : get_ cfg M.env n.s k false = g at *
  obtain ⟨s1, l⟩ := g
  simp only at *
  rcases hg with ⟨u, rfl, hu, hna, hgo, g1⟩ | ⟨rfl, hf, _⟩ | ⟨rfl, g1, c1, hdd⟩
  · rw [next_some hgg (by simp)]
    exact ⟨⟨g1, h.opn, fun hh => d1.trans (h.des hh), h.sep⟩, .inl ⟨u, rfl, ⟨hu, hna, hgo⟩, rfl⟩⟩
  · cases hf
  · rw [next_none hgg]
    refine ⟨⟨?_, ?_, fun _ => d1.trans hd, List.pairwise_cons.2 ⟨hap, h.sep⟩⟩, .inr ⟨rfl, rfl, hdd⟩⟩
    · exact g1.erased hc g1.wf1 (F := ({} : Eff K V)) (.refl _) ⟨fun _ h => h, fun _ _ h => h.elim, fun _ _ h => h.elim, fun _ _ _ => .inr (fun h => h)⟩ (fun _ h => h) c1
    · intro a ha
      simp only [after, Ledger.write, Ledger.put]
      split
      · rfl
      · rcases List.mem_cons.1 ha with rfl | ha
        · rename_i hh; exact absurd (hc.refl _) hh
        · exact h.opn a ha

theorem nret_ok (hc : cfg.Ok) (hr : cfg.resolver = .sync) {n : NSt K V E} (h : NGood cfg M n L) {k : K} {st : List K} (hs : n.stack = k :: st) (r : Res V E) :
    NGood cfg M (next cfg M.env n (.ret r)).1 (after cfg.eqv cfg.resolver M.env.now L n.stack (.ret r) (next cfg M.env n (.ret r)).2) := by
  have hd := h.des (by rw [hs]; simp)
  have hra : cfg.resolver ≠ .async := by rw [hr]; simp
  have hcl := clean_of_cur hra h.good (h.opn k (by rw [hs]; simp))
  have hsep := h.sep
  rw [hs, List.pairwise_cons] at hsep
  obtain ⟨f1, f2, f3⟩ := syncMapped_facts r
  have g2 := insert_ok hc h.good hd hcl f1 f3 (by cases r <;> rfl)
  rw [f2] at g2
  simp only [next, hs, after]
  refine ⟨g2, ?_, fun _ => by simp only [resolveSync]; simp [hd], hsep.2⟩
  intro a ha
  simp only [Ledger.write, Ledger.put]
  split
  · rename_i hh; have := hsep.1 a ha; rw [hc.symm _ _ hh] at this; cases this
  · exact h.opn a (by rw [hs]; simp [ha])

theorem nop_ok (hc : cfg.Ok) (hr : cfg.resolver = .sync) {n : NSt K V E} (h : NGood cfg M n L) (o : Op K V E) (ho : (Ev.op o).ok cfg n)
    (hap : Apart cfg.eqv n.stack (.op o : Ev K V E)) (hn : M.ex → NoEvict cfg (step cfg M.env n.s o).1) :
    NGood cfg M (next cfg M.env n (.op o)).1 (after cfg.eqv cfg.resolver M.env.now L n.stack (.op o) (next cfg M.env n (.op o)).2) := by
  obtain ⟨h1, h2, h3⟩ := ho
  refine ⟨step_ok hc h.good o h1 hn, ?_, ?_, h.sep⟩
  · intro a ha
    refine after_cur hr h.good o n.stack hap h1 hc h2 ?_ ha (h.opn a ha)
    rintro r b rfl
    have := h3 (.inl ⟨r, b, rfl⟩)
    rw [show (next cfg M.env n (.op (.tick r b))).1.stack = n.stack from rfl, this] at ha; cases ha
  · intro hh
    have hh : n.stack ≠ [] := hh
    have := h.des hh
    show (step cfg M.env n.s o).1.destroyed = false
    rw [step_destroyed cfg M.env n.s o (by rintro rfl; exact hh (h3 (.inr rfl)))]
    exact this

theorem nstep_ok (hc : cfg.Ok) (hr : cfg.resolver = .sync) {n : NSt K V E} (h : NGood cfg M n L) (e : Ev K V E) (he : e.ok cfg n)
    (hap : Apart cfg.eqv n.stack e) (hn : M.ex → NoEvict cfg (next cfg M.env n e).1.s) :
    NGood cfg M (next cfg M.env n e).1 (after cfg.eqv cfg.resolver M.env.now L n.stack e (next cfg M.env n e).2) := by
  cases e with
  | op o => exact nop_ok hc hr h o he hap hn
  | get k => exact (nget_ok hc hr h k he.2 hap).1
  | ret r =>
    cases hs : n.stack with
    | nil => exact absurd hs he
    | cons k st => rw [← hs]; exact nret_ok hc hr h hs r

theorem running_eq (env : Env V) (n : NSt K V E) (e : Ev K V E) : (next cfg env n e).1.stack = running n.stack e (next cfg env n e).2 := by
  cases e with
  | op o => rfl
  | get k =>
    generalize hgg : get_ cfg env n.s k false = g
    obtain ⟨s1, l⟩ := g
    by_cases hl : l = .none
    · subst hl; rw [next_none hgg]; rfl
    · rw [next_some hgg hl]; rfl
  | ret r =>
    simp only [next]
    cases hs : n.stack with
    | nil => simp [running, hs]
    | cons k st => simp [running]

theorem NGood.advance {mo ex : Prop} {env0 : Env V} {n : NSt K V E} (h : NGood cfg ⟨mo, ex, env0, True⟩ n L) (hem : ex → mo ∨ cfg.Untimed) {env : Env V} (hle : mo → env0.le env) :
    NGood cfg ⟨mo, ex, env, True⟩ n L := ⟨h.good.advance hem hle, h.opn, h.des, h.sep⟩

/-- The invariant along a history. -/
theorem runN_good (hc : cfg.Ok) (hr : cfg.resolver = .sync) {mo ex : Prop} (hem : ex → mo ∨ cfg.Untimed) (env : Env V) : ∀ (h : NHist K V E) (env0 : Env V) {n : NSt K V E} {L : Ledger K V},
    NGood cfg ⟨mo, ex, env0, True⟩ n L → NOk cfg n h → AllApart cfg n h → (mo → Mono (env0 :: (h.map (·.1) ++ [env]))) → (ex → NoEvictN cfg n h) →
    NGood cfg ⟨mo, ex, env, True⟩ (runN cfg n h).1 (ledgerN cfg.eqv cfg.resolver (L, n.stack) h (runN cfg n h).2).1 ∧
    (ledgerN cfg.eqv cfg.resolver (L, n.stack) h (runN cfg n h).2).2 = (runN cfg n h).1.stack
  | [], env0, n, L, g, _, _, hm, _ => ⟨g.advance hem (fun hmo => by
      have := hm hmo; simp [Mono] at this; exact this), rfl⟩
  | (e, o) :: h, env0, n, L, g, hok, hap, hm, hx => by
    have hm1 : mo → env0.le e := fun hmo => by
      have := hm hmo; simp only [Mono, List.map_cons, List.cons_append, List.pairwise_cons] at this
      exact this.1 e (List.mem_cons_self ..)
    have g1 := g.advance (env := e) hem hm1
    have hne : ∀ (n : NSt K V E) h, NoEvictN cfg n h → NoEvict cfg n.s := by
      intro s h hh; cases h with
      | nil => exact hh
      | cons p h => exact hh.1
    have g2 := nstep_ok hc hr (M := ⟨mo, ex, e, True⟩) g1 o hok.1 hap.1 (fun hex => hne _ h (hx hex).2)
    have := runN_good hc hr hem env h e g2 hok.2 hap.2 (fun hmo => by
      have := hm hmo; simp only [Mono, List.map_cons, List.cons_append, List.pairwise_cons] at this ⊢
      exact this.2) (fun hex => (hx hex).2)
    rw [running_eq e n o] at this
    exact this

theorem reachN_good (hc : cfg.Ok) (hr : cfg.resolver = .sync) {mo ex : Prop} (hem : ex → mo ∨ cfg.Untimed) (h : NHist K V E) (env : Env V)
    (hok : NOk cfg {} h) (hap : AllApart cfg {} h) (hm : mo → Mono (h.map (·.1) ++ [env])) (hx : ex → NoEvictN cfg {} h) :
    NGood cfg ⟨mo, ex, env, True⟩ (runN cfg ({} : NSt K V E) h).1 (ledgerAfterN cfg h) ∧
    (ledgerN cfg.eqv cfg.resolver (({} : Ledger K V), []) h (runN cfg {} h).2).2 = (runN cfg {} h).1.stack := by
  have hf : ∃ e0 : Env V, mo → Mono (e0 :: (h.map (·.1) ++ [env])) := by
    cases h with
    | nil => exact ⟨env, fun _ => by simp [Mono, Env.le.refl]⟩
    | cons p h =>
      refine ⟨p.1, fun hmo => ?_⟩
      have := hm hmo
      simp only [Mono, List.map_cons, List.cons_append] at this ⊢
      refine List.pairwise_cons.2 ⟨?_, this⟩
      intro a ha
      rcases List.mem_cons.1 ha with rfl | ha
      · exact .refl _
      · exact (List.pairwise_cons.1 this).1 a ha
  obtain ⟨e0, he0⟩ := hf
  exact runN_good hc hr hem env h e0 (n := {}) ⟨good_init _ _ _, by simp, by simp, by simp⟩ hok hap he0 hx

end Hoard.Nested
