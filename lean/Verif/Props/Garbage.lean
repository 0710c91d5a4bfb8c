import Verif.GarbageLemmas
import Verif.Props.Load
import Verif.Demo
/-! # Dead entries: C27 (what makes the table grow), C90 (how many there can be)

`s.size` is the number of entries linked, `s.tbl.length` the number of buckets. -/
namespace Hoard.Props
open Hoard Spec Demo
variable {K V E : Type} {cfg : Cfg K}

/-- The number of entries in use at a time: not expired, or a lookup that has not been
answered. -/
def inUse (env : Env V) (s : St K V E) : Nat := (s.ents.filter (fun e => !e.expired env || e.isPending)).length

theorem inUse_needed (env : Env V) (s : St K V E) : inUse env s = needed env s := by
  unfold inUse needed
  congr 1
  refine List.filter_congr fun e _ => ?_
  unfold stale
  cases e.expired env <;> cases e.isPending <;> rfl

/-! ## C27 -/

theorem kept2_ratio (hc : cfg.Ok) {p q : Nat} (hov : cfg.over = fun n b => decide (n * q > p * b)) (hpq : q ≤ 4 * p) (h : Hist K V E) (hok : HistOk cfg St.init h) :
    (stateAfter cfg h).size * q ≤ p * (stateAfter cfg h).tbl.length ∨ cfg.maxBuckets ≤ (stateAfter cfg h).tbl.length :=
  C27_load_factor_kept_partial hc hov hpq h hok

/-- C27.  With a load factor limit `p / q` of at least 1/4, a table that has buckets gets more
only if no entry is dead: every entry is alive, or a lookup that was not answered. -/
theorem C27_grows_only_for_entries_in_use (hc : cfg.Ok) {p q : Nat} (hov : cfg.over = fun n b => decide (n * q > p * b)) (hpq : q ≤ 4 * p)
    (h : Hist K V E) (hok : HistOk cfg St.init h) (env : Env V) (o : Op K V E) (hb : (stateAfter cfg h).tbl.length ≠ 0)
    (hg : (stateAfter cfg (h ++ [(env, o)])).tbl.length ≠ (stateAfter cfg h).tbl.length) :
    ∀ e ∈ (stateAfter cfg h).ents, e.expired env = true → e.isPending = true := by
  have hk := kept2_ratio hc hov hpq h hok
  have hlt := (C27_grows_only_when_needed hc h hok env o hg).1.resolve_left hb
  rw [stateAfter_snoc] at hg hlt
  have g := good_any hc h hok env
  rcases step_mv2 (env := env) hc g.wf1 o with r | ⟨s1, r1, r2, r3, r4⟩
  · exact absurd r.1 hg
  · obtain ⟨_, m⟩ := maybeRehash_shape (cfg := cfg) (env := env) s1
    rw [r1.1] at m
    rcases m with m | m | m
    · exact absurd (r3.trans m) hg
    · exact absurd m.1 hb
    · have h1 := m.2.2.1
      rw [hov] at h1
      simp only [gt_iff_lt, decide_eq_true_eq] at h1
      have hk := hk.resolve_right (by omega)
      have h2 : (stateAfter cfg h).size < needed env s1 + 1 := Nat.lt_of_mul_lt_mul_right (Nat.lt_of_le_of_lt hk h1)
      have h3 : needed env (stateAfter cfg h) = (stateAfter cfg h).ents.length := by
        have := List.length_filter_le (fun e => !stale env e) (stateAfter cfg h).ents
        unfold needed St.size at *; omega
      intro e he hx
      have h4 := List.length_filter_eq_length_iff.1 h3 e he
      simpa [stale, hx] using h4

/-- The same seen from the other side: as long as there is a dead entry, nothing makes the table
grow. -/
theorem C27_dead_entry_prevents_growth (hc : cfg.Ok) {p q : Nat} (hov : cfg.over = fun n b => decide (n * q > p * b)) (hpq : q ≤ 4 * p)
    (h : Hist K V E) (hok : HistOk cfg St.init h) (env : Env V) (o : Op K V E) (e : Entry K V E) (he : e ∈ (stateAfter cfg h).ents)
    (hx : e.expired env = true) (hp : e.isPending = false) :
    (stateAfter cfg (h ++ [(env, o)])).tbl.length = (stateAfter cfg h).tbl.length := by
  apply Classical.byContradiction
  intro hg
  have hb : (stateAfter cfg h).tbl.length ≠ 0 := by
    intro h0
    have : (stateAfter cfg h).tbl = [] := List.eq_nil_of_length_eq_zero h0
    simp [St.ents, this] at he
  have := C27_grows_only_for_entries_in_use hc hov hpq h hok env o hb hg e he hx
  rw [hp] at this; cases this

/-- A limit of 1/2, the default number of 4 buckets: two live entries and a third make the table
grow; if one of the two is dead, the third does not. -/
example := C27_grows_only_for_entries_in_use (cfg := { plain with over := fun n b => decide (n * 2 > 1 * b), maxAge := some 5 }) (nat_ok rfl (by intro d i h; cases h)) (p := 1) (q := 2) rfl (by decide)
  ([(at_ 0, .emplace 1 1 .none), (at_ 4, .emplace 2 2 .none)] : Hist Nat Nat Nat) (by decide) (at_ 4) (.emplace 3 3 .none) (by decide) (by decide)

example := C27_dead_entry_prevents_growth (cfg := { plain with over := fun n b => decide (n * 2 > 1 * b), maxAge := some 5 }) (nat_ok rfl (by intro d i h; cases h)) (p := 1) (q := 2) rfl (by decide)
  ([(at_ 0, .emplace 1 1 .none), (at_ 4, .emplace 2 2 .none)] : Hist Nat Nat Nat) (by decide) (at_ 5) (.emplace 3 3 .none)
  ((stateAfter { plain with over := fun n b => decide (n * 2 > 1 * b), maxAge := some 5 } ([(at_ 0, .emplace 1 1 .none), (at_ 4, .emplace 2 2 .none)] : Hist Nat Nat Nat)).ents[0]'(by decide)) (List.getElem_mem _)
  (by decide) (by decide)

/-! ## C90 -/

/-- C90.  If at every call at most `M` entries were in use, then the table has never more buckets
than twice the number for `M + 1` entries, or 4; and never more entries than these buckets are meant for, or `M + 1`.
Here `p / q` is the load factor limit. -/
theorem C90_dead_entries_do_not_pile_up (hc : cfg.Ok) {p q : Nat} (hov : cfg.over = fun n b => decide (n * q > p * b)) (hq : 0 < q) (M : Nat)
    (h : Hist K V E) (hok : HistOk cfg St.init h) (hM : ∀ h1 env o h2, h = h1 ++ (env, o) :: h2 → inUse env (stateAfter cfg h1) ≤ M) :
    ((stateAfter cfg h).tbl.length ≤ 4 ∨ p * (stateAfter cfg h).tbl.length + 2 ≤ 2 * (M + 1) * q) ∧
    ((stateAfter cfg h).size ≤ M + 1 ∨ (stateAfter cfg h).size * q ≤ p * (stateAfter cfg h).tbl.length) := by
  induction h using snoc_ind with
  | h0 => exact ⟨.inl (Nat.zero_le 4), .inl (Nat.zero_le (M + 1))⟩
  | h1 l a ih =>
    obtain ⟨env, o⟩ := a
    have hok1 := (HistOk_append.1 hok).1
    obtain ⟨i1, i2⟩ := ih hok1 (fun h1 env' o' h2 hh => hM h1 env' o' (h2 ++ [(env, o)]) (by rw [hh]; simp))
    have hm := hM l env o [] rfl
    rw [inUse_needed] at hm
    rw [stateAfter_snoc]
    have g := good_any hc l hok1 env
    rcases step_mv2 (env := env) hc g.wf1 o with r | ⟨s1, r1, r2, r3, r4⟩
    · refine ⟨by rw [r.1]; exact i1, ?_⟩
      rcases i2 with i2 | i2
      · exact .inl (Nat.le_trans r.2 i2)
      · exact .inr (by rw [r.1]; exact Nat.le_trans (Nat.mul_le_mul_right q r.2) i2)
    · obtain ⟨m1, m2⟩ := maybeRehash_shape (cfg := cfg) (env := env) s1
      rw [← r3, r1.1] at m2
      rw [hov] at m1 m2
      simp only [gt_iff_lt, decide_eq_true_eq, decide_eq_false_iff_not, Nat.not_lt] at m1 m2
      refine ⟨?_, ?_⟩
      · rcases m2 with m | m | m
        · rw [m]; exact i1
        · exact .inl (by omega)
        · right
          have h1 : p * (stateAfter cfg l).tbl.length + 1 ≤ (M + 1) * q := Nat.le_trans m.2.2.1 (Nat.mul_le_mul_right q (by omega))
          have h2 : p * (step cfg env (stateAfter cfg l) o).1.tbl.length ≤ 2 * (p * (stateAfter cfg l).tbl.length) := by
            have := Nat.mul_le_mul_left p m.2.1
            rwa [Nat.mul_left_comm] at this
          rw [Nat.mul_assoc]; omega
      · rcases m1 with m | m
        · exact .inl (by omega)
        · right
          have hl : (step cfg env (stateAfter cfg l) o).1.tbl.length = (stateAfter cfg l).tbl.length := by
            rcases m2 with m' | m' | m'
            · exact m'
            · rw [r1.1, m'.1, Nat.mul_zero] at m
              have := Nat.mul_pos (Nat.succ_pos s1.size) hq
              have hm2 := m.2
              rw [Nat.add_one] at hm2; omega
            · exfalso
              have h6 : needed env s1 ≤ s1.size := List.length_filter_le _ _
              have h7 := Nat.mul_le_mul_right q (Nat.add_le_add_right h6 1)
              rw [r1.1] at m; omega
          rw [r4, m.1, hl, ← r1.1]; exact m.2

/-- C90 with the default limit of 1: the table never has more than `2 * M` entries, or 4, and as
many buckets. -/
theorem C90_default_limit (hc : cfg.Ok) (hov : cfg.over = fun n b => decide (n * 1 > 1 * b)) (M : Nat)
    (h : Hist K V E) (hok : HistOk cfg St.init h) (hM : ∀ h1 env o h2, h = h1 ++ (env, o) :: h2 → inUse env (stateAfter cfg h1) ≤ M) :
    (stateAfter cfg h).tbl.length ≤ max 4 (2 * M) ∧ (stateAfter cfg h).size ≤ max 4 (2 * M) := by
  obtain ⟨h1, h2⟩ := C90_dead_entries_do_not_pile_up hc hov (by decide) M h hok hM
  omega

/-- C90 in terms of the interface, for a cache without asynchronous lookups: `M` bounds what `count` returns. -/
theorem C90_count_bounds_memory (hc : cfg.Ok) (hr : cfg.resolver ≠ .async) (hov : cfg.over = fun n b => decide (n * 1 > 1 * b)) (M : Nat)
    (h : Hist K V E) (hok : HistOk cfg St.init h) (hM : ∀ h1 env o h2, h = h1 ++ (env, o) :: h2 → ∃ n, (outAt cfg h1 env .count).ret = .num n ∧ n ≤ M) :
    (stateAfter cfg h).tbl.length ≤ max 4 (2 * M) ∧ (stateAfter cfg h).size ≤ max 4 (2 * M) := by
  refine C90_default_limit hc hov M h hok fun h1 env o h2 hh => ?_
  obtain ⟨n, hn, hle⟩ := hM h1 env o h2 hh
  have hok1 : HistOk cfg St.init h1 := by rw [hh] at hok; exact (HistOk_append.1 hok).1
  have g := good_any hc h1 hok1 env
  have : inUse env (stateAfter cfg h1) = count env (stateAfter cfg h1) := by
    unfold inUse count
    congr 1
    exact List.filter_congr fun e he => by rw [(g.wf2.noA hr).2 e he]; simp
  simp only [outAt, step, Ret.num.injEq] at hn
  omega

theorem each_call {P : Hist K V E → Env V → Prop} {h : Hist K V E} (hh : ∀ i : Fin h.length, P (h.take i) h[i].1) :
    ∀ h1 env o h2, h = h1 ++ (env, o) :: h2 → P h1 env := by
  intro h1 env o h2 he
  have := hh ⟨h1.length, by rw [he]; simp⟩
  simpa [he] using this

/-- A cache whose values live for 5, with the default limit. -/
def brief : Cfg Nat := { plain with hash := id, over := fun n b => decide (n * 1 > 1 * b), maxAge := some 5 }

/-- Five values at once, then three more when the previous ones are dead. -/
def briefHist : Hist Nat Nat Nat :=
  [(at_ 0, .emplace 1 1 .none), (at_ 0, .emplace 2 1 .none), (at_ 0, .emplace 3 1 .none), (at_ 0, .emplace 4 1 .none), (at_ 0, .emplace 5 1 .none),
   (at_ 10, .emplace 6 1 .none), (at_ 20, .emplace 7 1 .none), (at_ 30, .emplace 8 1 .none)]

/-- At each call at most four entries are in use, so there are at most eight; and there are. -/
example := C90_default_limit (cfg := brief) (nat_ok rfl (by intro d i h; cases h)) rfl 4 briefHist (by decide) (each_call (by decide))
example : (stateAfter brief briefHist).size = 8 ∧ (stateAfter brief briefHist).tbl.length = 8 := by decide +kernel
example := C90_dead_entries_do_not_pile_up (cfg := brief) (nat_ok rfl (by intro d i h; cases h)) rfl (by decide) 4 briefHist (by decide) (each_call (by decide))
example := C90_count_bounds_memory (cfg := brief) (nat_ok rfl (by intro d i h; cases h)) (by decide) rfl 4 briefHist (by decide)
  (each_call (P := fun h1 env => ∃ n, (outAt brief h1 env .count).ret = .num n ∧ n ≤ 4) (fun i => ⟨_, rfl, by revert i; decide +kernel⟩))

/-- A cache with an asynchronous resolver. -/
def fickle : Cfg Nat := { plain with resolver := .async }

theorem fickle_fills (m : Nat) (env : Env Nat) :
    let h : Hist Nat Nat Nat := List.replicate m (env, .asyncGet 1 0 .drop)
    HistOk fickle St.init h ∧ WF1 fickle (stateAfter fickle h) ∧ (∀ e ∈ (stateAfter fickle h).ents, ∃ p, e.mapped = .pending p ∧ p.expired = true ∧ e.key = 1) ∧
    (stateAfter fickle h).size = m ∧ (stateAfter fickle h).destroyed = false := by
  have hc : fickle.Ok := nat_ok rfl (by intro d i h; cases h)
  induction m with
  | zero => exact ⟨trivial, wf1_init _, by simp [stateAfter, run, St.init, St.ents], rfl, rfl⟩
  | succ m ih =>
    obtain ⟨h1, w, h3, h4, h5⟩ := ih
    simp only [List.replicate_succ'] at h1 ⊢
    have hok : HistOk fickle St.init (List.replicate m (env, Op.asyncGet 1 0 Beh.drop) ++ [(env, Op.asyncGet 1 0 Beh.drop)] : Hist Nat Nat Nat) := by
      rw [HistOk_append]; exact ⟨h1, ⟨rfl, h5⟩, trivial⟩
    have wf := (good_any hc _ hok env).wf1
    refine ⟨hok, wf, ?_⟩
    rw [stateAfter_snoc]
    generalize stateAfter fickle (List.replicate m (env, Op.asyncGet 1 0 Beh.drop)) = s at *
    have hf : s.ents.find? (isHit fickle env 1 true) = none := by
      rw [List.find?_eq_none]; intro e he hh
      obtain ⟨p, hp, hx, _⟩ := h3 e he
      simp [isHit, Entry.expired, hp, Mapped.expired, hx] at hh
    have hg : get_ fickle env s 1 true = (walked fickle env s 1 true, .none) := by rw [get__eq hc w.placed, hf]
    have hdrop : ∀ {l l' : List (Entry Nat Nat Nat)}, (∀ e ∈ l, ∃ p, e.mapped = .pending p ∧ p.expired = true ∧ e.key = 1) → Drops env l l' → l.Perm l' := by
      intro l l' hl ⟨rem, hp, hs⟩
      cases rem with
      | nil => simpa using hp
      | cons x rem =>
        obtain ⟨p, hq, _, _⟩ := hl x (hp.mem_iff.2 (by simp))
        have := hs x (by simp)
        simp [stale, Entry.isPending, hq, Mapped.isPending] at this
    have p1 := hdrop h3 (walked_drops (cfg := fickle) s env 1 true)
    have w1 := walked_wf1 w env 1 true
    have hds := (walked_same fickle s env 1 true).destroyed
    simp only [step]
    rw [asyncGet_eq hc w.placed, hf, hg]
    simp only
    generalize walked fickle env s 1 true = s1 at *
    have h31 : ∀ e ∈ s1.ents, ∃ p, e.mapped = .pending p ∧ p.expired = true ∧ e.key = 1 := fun e he => h3 e (p1.mem_iff.2 he)
    obtain ⟨wl, _, hd, _, kept, o, hdr, hp, ho, _⟩ := link_spec env w1 (e := newEntry s1 1 (.pending {})) rfl
    have p2 := hdrop h31 hdr
    have ho : o = none := ho rfl
    subst ho
    have hcre : kept.map (creUpd none env) = kept := by
      conv => rhs; rw [← List.map_id kept]
      exact List.map_congr_left fun e _ => rfl
    rw [hcre] at hp
    have fin : ∀ (X : St Nat Nat Nat) (l : Look Nat Nat), (∀ e ∈ X.ents, ∃ p, e.mapped = .pending p ∧ p.expired = true ∧ e.key = 1) → X.size = m + 1 → X.destroyed = false →
        (∀ e ∈ (answer X s1.nextId 0 l).1.ents, ∃ p, e.mapped = .pending p ∧ p.expired = true ∧ e.key = 1) ∧ (answer X s1.nextId 0 l).1.size = m + 1 ∧ (answer X s1.nextId 0 l).1.destroyed = false := by
      intro X l h hz hd
      refine ⟨?_, (answer_same2 _ _ _).2.trans hz, by cases l <;> exact hd⟩
      cases l
      case pend =>
        intro e he
        simp only [answer, ents_modify] at he
        obtain ⟨e0, he0, rfl⟩ := List.mem_map.1 he
        obtain ⟨p, hq, hx, hk⟩ := h e0 he0
        unfold atId
        split
        · exact ⟨{ p with cbs := p.cbs ++ [.user 0] }, by simp only [Entry.upd, hq, Mapped.addCb], hx, hk⟩
        · exact ⟨p, hq, hx, hk⟩
      all_goals exact h
    have hsz : (link fickle env s1 (newEntry s1 1 (.pending {}))).size = m + 1 := by
      have e1 := hp.length_eq
      have e2 := p1.length_eq
      have e3 := p2.length_eq
      simp only [List.length_append, List.length_singleton] at e1
      unfold St.size at *; omega
    unfold resolveAsync drop
    simp only
    generalize link fickle env s1 (newEntry s1 1 (.pending {})) = L at *
    rw [if_pos (by simp)]
    refine fin _ _ ?_ ?_ ?_
    · intro e he
      rw [ents_modify] at he
      obtain ⟨e0, he0, rfl⟩ := List.mem_map.1 he
      rcases List.mem_append.1 (hp.mem_iff.1 he0) with hh | hh
      · obtain ⟨p, hq, hx, hk⟩ := h31 e0 (p2.mem_iff.2 hh)
        unfold atId
        split
        · exact ⟨{ p with cbs := [], expired := true }, by simp only [Entry.upd, hq, Mapped.cancel], rfl, hk⟩
        · exact ⟨p, hq, hx, hk⟩
      · simp only [List.mem_singleton] at hh
        subst hh
        exact ⟨{ cbs := [], expired := true }, by simp [atId, linkUpd, newEntry, Entry.isPending, Mapped.isPending, Entry.upd, Mapped.cancel], rfl, by simp [atId, linkUpd, newEntry, Entry.isPending, Mapped.isPending, Entry.upd]⟩
    · rw [(modify_same2 _ _ _).2]; exact hsz
    · exact hd.trans (hds.trans h5)

/-- Lookups that were not answered must be counted: if the resolver drops its callbacks, the table
grows without bound though no entry is alive at any time (`count` is always 0). -/
theorem C90_dropped_lookups_pile_up (m : Nat) (env : Env Nat) :
    ∃ h : Hist Nat Nat Nat, (∀ p ∈ h, p = (env, .asyncGet 1 0 .drop)) ∧ fickle.Ok ∧ HistOk fickle St.init h ∧
      (stateAfter fickle h).size = m ∧ (∀ h1 h2, h = h1 ++ h2 → (outAt fickle h1 env .count).ret = .num 0) := by
  obtain ⟨h1, _, h3, h4, _⟩ := fickle_fills m env
  refine ⟨_, fun p hp => List.eq_of_mem_replicate hp, nat_ok rfl (by intro d i h; cases h), h1, h4, fun a b hab => ?_⟩
  have ha : a = List.replicate a.length (env, .asyncGet 1 0 .drop) := by
    rw [List.eq_replicate_iff]
    exact ⟨rfl, fun x hx => List.eq_of_mem_replicate (n := m) (by rw [hab]; exact List.mem_append_left _ hx)⟩
  rw [ha]
  obtain ⟨_, _, h3, _, _⟩ := fickle_fills a.length env
  simp only [outAt, step, count, Ret.num.injEq, List.length_eq_zero_iff, List.filter_eq_nil_iff]
  intro e he
  obtain ⟨p, hq, hx, _⟩ := h3 e he
  simp [Entry.expired, hq, Mapped.expired, hx]

end Hoard.Props
