import Verif.Spec.Reference
import Verif.HashFree
/-! The cache against the small reference cache. -/
namespace Hoard
open Spec
variable {K V E : Type} {cfg : Cfg K} {L : Ledger K V} {s : St K V E} {R : Ref K V} {env : Env V} {mo : Prop}

/-- No value of the key can become visible any more without a write. -/
def DeadK (cfg : Cfg K) (mo : Prop) (env : Env V) (L : Ledger K V) (k : K) : Prop :=
  ∀ env' : Env V, (mo → env.le env') → living cfg env' L k = none

theorem living_norefresh (hr : cfg.refresh = none) (env : Env V) (L : Ledger K V) (k : K) :
    living cfg env L k = if isYoung cfg env.now (L.time k) then L.cur k else none := by
  unfold living isYoung Ledger.ageLimit Ledger.idleLimit
  rw [hr]
  cases cfg.maxAge with
  | none => simp [reached]
  | some a =>
    cases cfg.wall <;> simp only [Option.map_some, Time.past, reached] <;> by_cases h1 : env.now.steady < (L.time k).steady + a <;>
      by_cases h2 : env.now.wall < (L.time k).wall + a <;> simp [h1, h2] <;> omega

theorem isYoung_mono {env' : Env V} {t : Time} (hem : mo ∨ cfg.Untimed) (hle : mo → env.le env') (h : isYoung cfg env.now t = false) : isYoung cfg env'.now t = false := by
  unfold isYoung at h ⊢
  rcases hem with hm | hu
  · have := hle hm
    cases ha : cfg.maxAge with
    | none => rw [ha] at h; cases h
    | some a =>
      rw [ha] at h
      cases hw : cfg.wall <;> simp [hw] at h ⊢
      · have := this.now; omega
      · have := this.now; have := (hle hm).wall; intro h2; have := h (by omega); omega
  · rw [hu.1] at h; cases h

theorem dead_of (hr : cfg.refresh = none) (hem : mo ∨ cfg.Untimed) {k} (h : L.cur k = none ∨ isYoung cfg env.now (L.time k) = false) : DeadK cfg mo env L k := by
  intro env' hle
  rw [living_norefresh hr]
  rcases h with h | h
  · rw [h]; split <;> rfl
  · rw [isYoung_mono hem hle h]; rfl

/-- A slot of the reference tells what the ledger says. -/
def SlotOk (cfg : Cfg K) (mo : Prop) (env : Env V) (L : Ledger K V) (k : K) : Option (Slot V) → Prop
  | some (.value v t) => L.cur k = some v ∧ L.time k = t ∧ L.valid k = none
  | some (.lookup t) => L.valid k = some t ∧ DeadK cfg mo env L k
  | none => L.valid k = none ∧ DeadK cfg mo env L k

theorem SlotOk.advance {env' : Env V} (hle : mo → env.le env') {k x} (h : SlotOk cfg mo env L k x) : SlotOk cfg mo env' L k x := by
  have hl : ∀ e : Env V, (mo → env'.le e) → (mo → env.le e) := fun e he m =>
    ⟨Int.le_trans (hle m).now (he m).now, Int.le_trans (hle m).wall (he m).wall, fun v hv => (hle m).alive v ((he m).alive v hv)⟩
  match x, h with
  | some (.value v t), h => exact h
  | some (.lookup t), h => exact ⟨h.1, fun e he => h.2 e (hl e he)⟩
  | none, h => exact ⟨h.1, fun e he => h.2 e (hl e he)⟩

theorem SlotOk.congr (hr : cfg.refresh = none) {L' : Ledger K V} {k x} (h : SlotOk cfg mo env L k x) (h1 : L'.cur k = L.cur k) (h2 : L'.time k = L.time k)
    (h3 : L'.valid k = L.valid k) : SlotOk cfg mo env L' k x := by
  have hd : DeadK cfg mo env L k → DeadK cfg mo env L' k := fun h e he => by
    have := h e he
    rw [living_norefresh hr] at this ⊢
    rw [h1, h2]; exact this
  match x, h with
  | some (.value v t), h => exact ⟨h1 ▸ h.1, h2 ▸ h.2.1, h3 ▸ h.2.2⟩
  | some (.lookup t), h => exact ⟨h3 ▸ h.1, hd h.2⟩
  | none, h => exact ⟨h3 ▸ h.1, hd h.2⟩

theorem SlotOk.found (hr : cfg.refresh = none) {k x} (h : SlotOk cfg mo env L k x) :
    match Slot.found cfg env.now x with
    | .value v => living cfg env L k = some v ∧ L.valid k = none
    | .lookup t => living cfg env L k = none ∧ L.valid k = some t
    | .nothing => living cfg env L k = none ∧ L.valid k = none := by
  match x, h with
  | some (.value v t), h =>
    simp only [Slot.found]
    have := living_norefresh hr env L k
    rw [h.1, h.2.1] at this
    cases hy : isYoung cfg env.now t
    · rw [hy] at this; exact ⟨this, h.2.2⟩
    · rw [hy] at this; exact ⟨this, h.2.2⟩
  | some (.lookup t), h => exact ⟨h.2 env (fun _ => .refl _), h.1⟩
  | none, h => exact ⟨h.2 env (fun _ => .refl _), h.1⟩

theorem SlotOk.dead (hr : cfg.refresh = none) (hem : mo ∨ cfg.Untimed) {k x} (h : SlotOk cfg mo env L k x) (hx : Slot.found cfg env.now x = .nothing) :
    L.valid k = none ∧ DeadK cfg mo env L k := by
  have := h.found hr
  rw [hx] at this
  refine ⟨this.2, dead_of hr hem ?_⟩
  have := this.1
  rw [living_norefresh hr] at this
  split at this
  · exact .inl this
  · rename_i h; exact .inr (by simpa using h)

section find
variable (hc : cfg.Ok)
include hc

theorem eqv_l {a b c : K} (h : cfg.eqv a b = true) : cfg.eqv a c = cfg.eqv b c := by
  rw [Bool.eq_iff_iff]
  exact ⟨fun h' => hc.trans _ _ _ (hc.symm _ _ h) h', fun h' => hc.trans _ _ _ h h'⟩

theorem eqv_r {a b c : K} (h : cfg.eqv a b = true) : cfg.eqv c a = cfg.eqv c b := by
  rw [Bool.eq_iff_iff]
  exact ⟨fun h' => hc.trans _ _ _ h' h, fun h' => hc.trans _ _ _ h' (hc.symm _ _ h)⟩

theorem eqv_c (a b : K) : cfg.eqv a b = cfg.eqv b a := by
  rw [Bool.eq_iff_iff]
  exact ⟨hc.symm _ _, hc.symm _ _⟩

theorem find_congr {a b : K} (h : cfg.eqv a b = true) : R.find cfg.eqv a = R.find cfg.eqv b := by
  unfold Ref.find
  congr 2
  funext p
  exact eqv_r hc h

theorem find_remove (k a : K) : (R.remove cfg.eqv k).find cfg.eqv a = if cfg.eqv a k then none else R.find cfg.eqv a := by
  unfold Ref.find Ref.remove
  rw [List.find?_filter]
  split
  · rename_i h
    rw [List.find?_eq_none.2]
    · rfl
    · intro p _
      rw [eqv_r hc h]
      cases cfg.eqv p.1 k <;> simp
  · rename_i h
    congr 2
    funext p
    cases hp : cfg.eqv p.1 a
    · simp
    · rw [eqv_l hc hp]; simp at h; simp [h]

theorem find_put (k a : K) (x : Slot V) : (R.put cfg.eqv k x).find cfg.eqv a = if cfg.eqv a k then some x else R.find cfg.eqv a := by
  have := find_remove (R := R) hc k a
  unfold Ref.find Ref.put at *
  simp only [List.find?_cons]
  rw [eqv_c hc k a]
  cases h : cfg.eqv a k
  · rw [h] at this; exact this
  · rfl

theorem find_keep (g : Slot V → Option (Slot V)) {l : List (K × Slot V)} (hl : l.Pairwise (fun p q => cfg.eqv p.1 q.1 = false)) (a : K) :
    ((l.filterMap (fun p => (g p.2).map (fun y => (p.1, y)))).find? (fun p => cfg.eqv p.1 a)).map (·.2) =
      ((l.find? (fun p => cfg.eqv p.1 a)).map (·.2)).bind g := by
  induction l with
  | nil => rfl
  | cons p l ih =>
    have hl := List.pairwise_cons.1 hl
    cases hp : cfg.eqv p.1 a
    · rw [List.find?_cons_of_neg (by simp [hp]), ← ih hl.2, List.filterMap_cons]
      cases hg : g p.2 with
      | none => rfl
      | some y => simp [hp]
    · rw [List.find?_cons_of_pos (p := fun q : K × Slot V => cfg.eqv q.1 a) hp, List.filterMap_cons]
      have hn : ∀ q ∈ l, cfg.eqv q.1 a = false := by
        intro q hq
        rw [eqv_c hc, ← eqv_l hc hp]; exact hl.1 q hq
      cases hg : g p.2 with
      | none =>
        simp only [Option.map_none, Option.map_some, Option.bind_some, hg]
        rw [List.find?_eq_none.2]
        · rfl
        · intro q hq
          rw [List.mem_filterMap] at hq
          obtain ⟨p', hp', e⟩ := hq
          cases hg' : g p'.2 with
          | none => rw [hg'] at e; cases e
          | some y => rw [hg'] at e; cases e; simp [hn p' hp']
      | some y => simp [hp, hg]

/-- What `settle` makes of a slot. -/
def settled (tok : Nat) (x : Option (Slot V)) : Slot V → Option (Slot V)
  | .lookup t => if t = tok then x else some (.lookup t)
  | y => some y

omit hc in
theorem settle_slots (tok : Nat) (x : Option (Slot V)) :
    (R.settle tok x).slots = R.slots.filterMap (fun p => (settled tok x p.2).map (fun y => (p.1, y))) := by
  unfold Ref.settle
  simp only
  congr 1
  funext p
  obtain ⟨k, y⟩ := p
  cases y with
  | value v t => rfl
  | lookup t => simp only [settled]; split <;> rfl

theorem find_settle (hl : R.slots.Pairwise (fun p q => cfg.eqv p.1 q.1 = false)) (tok : Nat) (x : Option (Slot V)) (a : K) :
    (R.settle tok x).find cfg.eqv a = (R.find cfg.eqv a).bind (settled tok x) := by
  unfold Ref.find
  rw [settle_slots]
  exact find_keep hc _ hl a

end find

/-- At most one slot for each key. -/
def OneEach (cfg : Cfg K) (R : Ref K V) : Prop := R.slots.Pairwise (fun p q => cfg.eqv p.1 q.1 = false)

theorem OneEach.remove (h : OneEach cfg R) (k : K) : OneEach cfg (R.remove cfg.eqv k) := List.Pairwise.sublist List.filter_sublist h

theorem OneEach.put (hc : cfg.Ok) (h : OneEach cfg R) (k : K) (x : Slot V) : OneEach cfg (R.put cfg.eqv k x) := by
  refine List.pairwise_cons.2 ⟨fun p hp => ?_, h.remove k⟩
  have := (List.mem_filter.1 hp).2
  rw [eqv_c hc]; simpa using this

theorem OneEach.store (hc : cfg.Ok) (h : OneEach cfg R) (now : Time) (k : K) (r : Res V E) : OneEach cfg (R.store cfg.eqv now k r) := by
  cases r
  · exact h.put hc _ _
  · exact h.remove _

theorem OneEach.settle (h : OneEach cfg R) (tok : Nat) (x : Option (Slot V)) : OneEach cfg (R.settle tok x) := by
  unfold OneEach at *
  rw [settle_slots]
  refine List.Pairwise.filterMap _ (fun a b hab a' ha b' hb => ?_) h
  have e : ∀ (a a' : K × Slot V), a' ∈ (settled tok x a.2).map (fun y => (a.1, y)) → a'.1 = a.1 := by
    intro a a' h
    cases hg : settled tok x a.2 with
    | none => rw [hg] at h; cases h
    | some y => rw [hg] at h; cases h; rfl
  rw [e a a' ha, e b b' hb]; exact hab

theorem OneEach.step (hc : cfg.Ok) (h : OneEach cfg R) (now : Time) (o : Op K V E) : OneEach cfg (refStep cfg now R o).1 := by
  cases o with
  | getIfExists k => simp only [refStep]; split <;> exact h
  | get k r =>
    simp only [refStep]; split
    · exact h
    · split
      · exact h.store hc now k r
      · exact h
  | asyncGet k w b =>
    simp only [refStep]; split
    · exact h
    · exact h
    · cases b with
      | later => exact h.put hc k _
      | now r => exact h.store hc now k r
      | drop => exact h.remove k
  | emplace k v f => cases f <;> first | exact h.put hc k _ | exact h.remove k
  | getOrEmplace k v f =>
    simp only [refStep]; split
    · exact h
    · exact h
    · cases f <;> first | exact h.put hc k _ | exact h
  | erase k => exact h.remove k
  | clear => exact .nil
  | count => exact h
  | complete t r =>
    simp only [refStep]; split
    · exact h
    · split <;> exact h.settle _ _
  | drop t =>
    simp only [refStep]; split
    · exact h
    · exact h.settle _ _
  | tick r b => exact h
  | destroy => exact .nil

/-- The number of the next lookup or value, from what was visible. -/
def RefNext (n : Nat) (p : Ref K V × Out K V E) : Prop := p.1.next = n + (if p.2.calls.isEmpty && !p.2.made then 0 else 1)

theorem ref_next (now : Time) (R : Ref K V) (o : Op K V E) : RefNext R.next (refStep cfg now R o) := by
  cases o with
  | getIfExists k => simp only [refStep]; split <;> rfl
  | get k r => simp only [refStep]; repeat' split
               all_goals rfl
  | asyncGet k w b => simp only [refStep]; repeat' split
                      all_goals rfl
  | emplace k v f => cases f <;> rfl
  | getOrEmplace k v f =>
    simp only [refStep]; split
    · rfl
    · rfl
    · cases f <;> rfl
  | complete t r => simp only [refStep]; repeat' split
                    all_goals rfl
  | drop t => simp only [refStep]; split <;> rfl
  | _ => rfl

theorem ref_destroyed (now : Time) (R : Ref K V) (o : Op K V E) (hx : o ≠ .destroy) : (refStep cfg now R o).1.destroyed = R.destroyed := by
  cases o with
  | getIfExists k => simp only [refStep]; cases Slot.found cfg now (R.find cfg.eqv k) <;> rfl
  | get k r =>
    simp only [refStep]
    cases Slot.found cfg now (R.find cfg.eqv k) <;> simp only <;> by_cases h : cfg.resolver = .sync <;> simp [h] <;> cases r <;> rfl
  | asyncGet k w b =>
    simp only [refStep]
    cases Slot.found cfg now (R.find cfg.eqv k) <;> cases b <;> first | rfl | (rename_i r; cases r <;> rfl)
  | emplace k v f => cases f <;> rfl
  | getOrEmplace k v f =>
    simp only [refStep]
    cases Slot.found cfg now (R.find cfg.eqv k) <;> cases f <;> rfl
  | complete t r =>
    simp only [refStep]
    cases R.waiting t <;> cases h : R.destroyed <;> simp [h, Ref.settle]
  | drop t =>
    simp only [refStep]
    cases R.waiting t <;> rfl
  | destroy => exact absurd rfl hx
  | _ => rfl

theorem waiting_none {tok : Nat} (h : R.waiting tok = none) : tok ∉ R.opens.map (·.1) := by
  intro hm
  obtain ⟨p, hp, rfl⟩ := List.mem_map.1 hm
  unfold Ref.waiting at h
  rw [Option.map_eq_none_iff, List.find?_eq_none] at h
  exact h p hp (by simp)

theorem waiting_some {tok : Nat} {ws} (h : R.waiting tok = some ws) : (tok, ws) ∈ R.opens := by
  unfold Ref.waiting at h
  rw [Option.map_eq_some_iff] at h
  obtain ⟨p, hp, rfl⟩ := h
  have h1 := List.mem_of_find?_eq_some hp
  have h2 := List.find?_some hp
  simp only [beq_iff_eq] at h2
  rw [← h2]; exact h1

/-- The lookups that can be completed after a step, from what was visible. -/
def RefOpens (n : Nat) (l : List Nat) (o : Op K V E) (p : Ref K V × Out K V E) : Prop := p.1.opens.map (·.1) = opensAfter n l o p.2

theorem map_fst_settle {tok : Nat} {x : Option (Slot V)} (hn : (R.opens.map (·.1)).Nodup) : (R.settle tok x).opens.map (·.1) = (R.opens.map (·.1)).erase tok := by
  rw [hn.erase_eq_filter]
  unfold Ref.settle
  simp only [List.filter_map]
  rfl

theorem store_opens (now : Time) (k : K) (r : Res V E) : (R.store cfg.eqv now k r).opens = R.opens := by cases r <;> rfl
theorem store_strays (now : Time) (k : K) (r : Res V E) : (R.store cfg.eqv now k r).strays = R.strays := by cases r <;> rfl

theorem ref_opens (now : Time) (R : Ref K V) (o : Op K V E) (hn : (R.opens.map (·.1)).Nodup) (hf : R.destroyed = false → R.next ∉ R.opens.map (·.1)) (hok : R.destroyed = true → (∃ t r, o = .complete t r) ∨ ∃ t, o = .drop t) :
    RefOpens R.next (R.opens.map (·.1)) o (refStep cfg now R o) := by
  cases o with
  | getIfExists k => simp only [refStep]; split <;> rfl
  | get k r =>
    simp only [refStep]; repeat' split
    · rfl
    · simp only [RefOpens, store_opens]; rfl
    · rfl
  | asyncGet k w b =>
    have hd : R.destroyed = false := by
      cases h : R.destroyed
      · rfl
      · rcases hok h with ⟨t, r, h⟩ | ⟨t, h⟩ <;> cases h
    simp only [refStep]; split
    · rfl
    · simp only [RefOpens, opensAfter, Ref.join, List.map_map]
      apply List.map_congr_left
      intro p _
      simp only [Function.comp]
      split <;> rfl
    · have : ((R.opens.map (·.1)) ++ [R.next]).erase R.next = R.opens.map (·.1) := by
        rw [List.erase_append_right _ (hf hd)]; simp
      cases b with
      | later => simp [RefOpens, opensAfter]
      | now r => simp only [RefOpens, opensAfter, store_opens]; exact this.symm
      | drop => simp only [RefOpens, opensAfter]; exact this.symm
  | emplace k v f => cases f <;> rfl
  | getOrEmplace k v f =>
    simp only [refStep]; split
    · rfl
    · rfl
    · cases f <;> rfl
  | complete t r =>
    simp only [refStep]; split
    · rename_i h
      simp only [RefOpens, opensAfter]
      rw [List.erase_of_not_mem (waiting_none h)]
    · split <;> exact map_fst_settle hn
  | drop t =>
    simp only [refStep]; split
    · rename_i h
      simp only [RefOpens, opensAfter]
      rw [List.erase_of_not_mem (waiting_none h)]
    · exact map_fst_settle hn
  | destroy =>
    simp only [refStep, RefOpens, opensAfter, List.map_map]
    rfl
  | _ => rfl

/-- How often somebody waits. -/
def WtR (w : Nat) (R : Ref K V) : Nat := (R.opens.flatMap (·.2)).count w + R.strays.count w

theorem count_without {tok : Nat} {ws : List Nat} {w : Nat} : ∀ {l : List (Nat × List Nat)}, (l.map (·.1)).Nodup → (tok, ws) ∈ l →
    (l.flatMap (·.2)).count w = ((l.filter (fun p => p.1 != tok)).flatMap (·.2)).count w + ws.count w
  | [], _, h => by cases h
  | p :: l, hn, h => by
    simp only [List.map_cons, List.nodup_cons] at hn
    rcases List.mem_cons.1 h with rfl | h
    · have : l.filter (fun p => p.1 != tok) = l := by
        rw [List.filter_eq_self]
        intro q hq
        have : q.1 ≠ tok := fun e => hn.1 (e ▸ List.mem_map_of_mem (f := (·.1)) hq)
        simpa using this
      rw [List.filter_cons_of_neg (by simp), this]
      simp only [List.flatMap_cons, List.count_append]; omega
    · have : p.1 ≠ tok := fun e => hn.1 (e ▸ List.mem_map_of_mem (f := (·.1)) h)
      rw [List.filter_cons_of_pos (by simpa using this)]
      simp only [List.flatMap_cons, List.count_append, count_without hn.2 h]; omega

theorem count_join {tok a w : Nat} : ∀ {l : List (Nat × List Nat)}, (l.map (·.1)).Nodup → tok ∈ l.map (·.1) →
    ((l.map (fun p => if p.1 = tok then (p.1, p.2 ++ [a]) else p)).flatMap (·.2)).count w = (l.flatMap (·.2)).count w + [a].count w
  | [], _, h => by cases h
  | p :: l, hn, h => by
    simp only [List.map_cons, List.nodup_cons] at hn
    by_cases hp : p.1 = tok
    · have : l.map (fun p => if p.1 = tok then (p.1, p.2 ++ [a]) else p) = l := by
        rw [List.map_congr_left (g := id), List.map_id]
        intro q hq
        have : q.1 ≠ tok := fun e => hn.1 (hp ▸ e ▸ List.mem_map_of_mem (f := (·.1)) hq)
        simp [this]
      rw [List.map_cons, this, if_pos hp]
      simp only [List.flatMap_cons, List.count_append]; omega
    · have h : tok ∈ l.map (·.1) := by
        rcases List.mem_cons.1 h with h | h
        · exact absurd h.symm hp
        · exact h
      rw [List.map_cons, if_neg hp]
      simp only [List.flatMap_cons, List.count_append, count_join hn.2 h]; omega

/-- Conservation of those who wait. -/
def RefWt (n : Nat) (w a : Nat) (p : Ref K V × Out K V E) : Prop :=
  WtR w p.1 + (p.2.fired.map (·.1)).count w + p.2.broken.count w = n + a

theorem ref_wt (env : Env V) (R : Ref K V) (o : Op K V E) (hn : (R.opens.map (·.1)).Nodup) (hj : ∀ k t, R.find cfg.eqv k = some (.lookup t) → t ∈ R.opens.map (·.1))
    (hd : R.destroyed = true → ∀ p ∈ R.opens, p.2 = []) (w : Nat) :
    RefWt (WtR w R) w ((asked [(env, o)]).count w) (refStep cfg env.now R o) := by
  cases o with
  | getIfExists k => simp only [refStep]; split <;> simp [RefWt, asked]
  | get k r =>
    simp only [refStep]; repeat' split
    all_goals simp [RefWt, asked, WtR, store_opens, store_strays]
  | asyncGet k a b =>
    simp only [refStep]; split
    · simp [RefWt, asked]
    · rename_i t ht
      have hs : R.find cfg.eqv k = some (.lookup t) := by
        unfold Slot.found at ht; split at ht
        · split at ht <;> cases ht
        · cases ht; assumption
        · cases ht
      simp only [RefWt, asked, WtR, Ref.join, count_join hn (hj k t hs)]
      simp; omega
    · cases b <;> simp [RefWt, asked, WtR, store_opens, store_strays, Ref.put, Ref.remove] <;> omega
  | emplace k v f => cases f <;> simp [refStep, RefWt, asked, WtR, Ref.put, Ref.remove]
  | getOrEmplace k v f =>
    simp only [refStep]; split
    · simp [RefWt, asked]
    · simp [RefWt, asked]
    · cases f <;> simp [RefWt, asked, WtR, Ref.put, Ref.remove]
  | complete t r =>
    simp only [refStep]; split
    · simp [RefWt, asked]
    · rename_i ws hw
      have hm := waiting_some hw
      have hc := count_without (w := w) hn hm
      split
      · rename_i hh
        have : ws = [] := hd hh _ hm
        subst this
        simp [RefWt, asked, WtR, Ref.settle] at hc ⊢
        omega
      · simp [RefWt, asked, WtR, Ref.settle, Function.comp_def] at hc ⊢
        omega
  | drop t =>
    simp only [refStep]; split
    · simp [RefWt, asked]
    · rename_i ws hw
      have hm := waiting_some hw
      have hc := count_without (w := w) hn hm
      simp [RefWt, asked, WtR, Ref.settle] at hc ⊢
      omega
  | destroy =>
    have hz : ∀ l : List (Nat × List Nat), l.flatMap (fun _ => ([] : List Nat)) = [] := by intro l; induction l <;> simp_all
    simp [refStep, RefWt, asked, WtR, List.flatMap_map, hz]
  | tick r b => simp [refStep, RefWt, asked]
  | erase k => simp [refStep, RefWt, asked, WtR, Ref.remove]
  | clear => simp [refStep, RefWt, asked, WtR]
  | count => simp [refStep, RefWt, asked]


section slots
variable (hc : cfg.Ok) (hr : cfg.refresh = none) (hem : mo ∨ cfg.Untimed)
include hc hr

theorem slot_put {L' : Ledger K V} {x : Slot V} {k : K} (h : ∀ a, SlotOk cfg mo env L a (R.find cfg.eqv a))
    (h1 : ∀ a, cfg.eqv a k = true → SlotOk cfg mo env L' a (some x))
    (h2 : ∀ a, cfg.eqv a k = false → L'.cur a = L.cur a ∧ L'.time a = L.time a ∧ L'.valid a = L.valid a) (a : K) :
    SlotOk cfg mo env L' a ((R.put cfg.eqv k x).find cfg.eqv a) := by
  rw [find_put hc]
  cases ha : cfg.eqv a k
  · obtain ⟨e1, e2, e3⟩ := h2 a ha
    exact (h a).congr hr e1 e2 e3
  · exact h1 a ha

theorem slot_remove {L' : Ledger K V} {k : K} (h : ∀ a, SlotOk cfg mo env L a (R.find cfg.eqv a))
    (h1 : ∀ a, cfg.eqv a k = true → SlotOk cfg mo env L' a none)
    (h2 : ∀ a, cfg.eqv a k = false → L'.cur a = L.cur a ∧ L'.time a = L.time a ∧ L'.valid a = L.valid a) (a : K) :
    SlotOk cfg mo env L' a ((R.remove cfg.eqv k).find cfg.eqv a) := by
  rw [find_remove hc]
  cases ha : cfg.eqv a k
  · obtain ⟨e1, e2, e3⟩ := h2 a ha
    exact (h a).congr hr e1 e2 e3
  · exact h1 a ha

theorem slot_write (v : V) {k : K} (h : ∀ a, SlotOk cfg mo env L a (R.find cfg.eqv a)) (a : K) :
    SlotOk cfg mo env (L.write cfg.eqv env.now k (some v)) a ((R.put cfg.eqv k (.value v env.now)).find cfg.eqv a) :=
  slot_put hc hr h (fun a ha => by simp [SlotOk, Ledger.write, Ledger.put, ha]) (fun a ha => by simp [Ledger.write, Ledger.put, ha]) a

include hem

theorem slot_erase {k : K} (h : ∀ a, SlotOk cfg mo env L a (R.find cfg.eqv a)) (a : K) :
    SlotOk cfg mo env (L.write cfg.eqv env.now k none) a ((R.remove cfg.eqv k).find cfg.eqv a) :=
  slot_remove hc hr h (fun a ha => ⟨by simp [Ledger.write, Ledger.put, ha], dead_of hr hem (.inl (by simp [Ledger.write, Ledger.put, ha]))⟩)
    (fun a ha => by simp [Ledger.write, Ledger.put, ha]) a

theorem slot_store (r : Res V E) {k : K} (h : ∀ a, SlotOk cfg mo env L a (R.find cfg.eqv a)) (a : K) :
    SlotOk cfg mo env (L.write cfg.eqv env.now k (value? r)) a ((R.store cfg.eqv env.now k r).find cfg.eqv a) := by
  cases r with
  | ok v => exact slot_write hc hr v h a
  | err e => exact slot_erase hc hr hem h a

theorem slot_settle {tok : Nat} (r : Option V) (hp : OneEach cfg R) (h : ∀ a, SlotOk cfg mo env L a (R.find cfg.eqv a)) (a : K) :
    SlotOk cfg mo env (L.finish env.now tok r) a ((R.settle tok (r.map (fun v => .value v env.now))).find cfg.eqv a) := by
  rw [find_settle hc hp]
  have ha := h a
  generalize R.find cfg.eqv a = x at ha
  match x, ha with
  | none, ha =>
    have e : L.valid a ≠ some tok := by rw [ha.1]; simp
    exact ha.congr hr (by simp [Ledger.finish, e]) (by simp [Ledger.finish, e]) (by simp [Ledger.finish, e])
  | some (.value v t), ha =>
    have e : L.valid a ≠ some tok := by rw [ha.2.2]; simp
    exact ha.congr hr (by simp [Ledger.finish, e]) (by simp [Ledger.finish, e]) (by simp [Ledger.finish, e])
  | some (.lookup t), ha =>
    by_cases ht : t = tok
    · subst ht
      simp only [Option.bind_some, settled, if_true]
      cases r with
      | none => exact ⟨by simp [Ledger.finish, ha.1], dead_of hr hem (.inl (by simp [Ledger.finish, ha.1]))⟩
      | some v => simp [SlotOk, Ledger.finish, ha.1]
    · simp only [Option.bind_some, settled, if_neg ht]
      have e : L.valid a ≠ some tok := by rw [ha.1]; simpa using ht
      exact ha.congr hr (by simp [Ledger.finish, e]) (by simp [Ledger.finish, e]) (by simp [Ledger.finish, e])

omit hem in
theorem slot_abandon {tok : Nat} (hp : OneEach cfg R) (h : ∀ a, SlotOk cfg mo env L a (R.find cfg.eqv a)) (a : K) :
    SlotOk cfg mo env (L.abandon tok) a ((R.settle tok none).find cfg.eqv a) := by
  rw [find_settle hc hp]
  have ha := h a
  generalize R.find cfg.eqv a = x at ha
  match x, ha with
  | none, ha =>
    have e : L.valid a ≠ some tok := by rw [ha.1]; simp
    exact ha.congr hr rfl rfl (by simp [Ledger.abandon, e])
  | some (.value v t), ha =>
    have e : L.valid a ≠ some tok := by rw [ha.2.2]; simp
    exact ha.congr hr rfl rfl (by simp [Ledger.abandon, e])
  | some (.lookup t), ha =>
    by_cases ht : t = tok
    · subst ht
      simp only [Option.bind_some, settled, if_true]
      exact ⟨by simp [Ledger.abandon, ha.1], fun e he => by
        have := ha.2 e he; rw [living_norefresh hr] at this ⊢; exact this⟩
    · simp only [Option.bind_some, settled, if_neg ht]
      have e : L.valid a ≠ some tok := by rw [ha.1]; simpa using ht
      exact ha.congr hr rfl rfl (by simp [Ledger.abandon, e])

/-- The slots still tell what the ledger says. -/
def RefSl (cfg : Cfg K) (mo : Prop) (env : Env V) (L : Ledger K V) (o : Op K V E) (p : Ref K V × Out K V E) : Prop :=
  ∀ a, SlotOk cfg mo env (L.after cfg.eqv cfg.resolver env.now o p.2) a (p.1.find cfg.eqv a)

theorem ref_sl (hp : OneEach cfg R) (h : ∀ a, SlotOk cfg mo env L a (R.find cfg.eqv a)) (hz : R.destroyed = true → R.slots = []) (o : Op K V E) (ht : isTick o = false) :
    RefSl cfg mo env L o (refStep cfg env.now R o) := by
  cases o with
  | getIfExists k => simp only [refStep]; split <;> exact fun a => (h a).congr hr rfl rfl rfl
  | get k r =>
    simp only [refStep]; repeat' split
    · exact fun a => (h a).congr hr rfl rfl rfl
    · exact slot_store hc hr hem r h
    · exact fun a => (h a).congr hr rfl rfl rfl
  | asyncGet k w b =>
    have hf := (h k).found hr
    simp only [refStep]; split
    · exact fun a => (h a).congr hr rfl rfl rfl
    · rename_i t ht
      rw [ht] at hf
      intro a
      simp only [Ledger.after, hf.2]
      exact (h a).congr hr rfl rfl rfl
    · rename_i hnf
      have hd : ∀ a, cfg.eqv a k = true → L.valid a = none ∧ DeadK cfg mo env L a := fun a ha =>
        (h a).dead hr hem (by rw [find_congr hc ha]; exact hnf)
      have hdd : ∀ {L' : Ledger K V} {a}, L'.cur a = L.cur a → L'.time a = L.time a → DeadK cfg mo env L a → DeadK cfg mo env L' a := by
        intro L' a e1 e2 hd e he
        have := hd e he
        rw [living_norefresh hr] at this ⊢
        rw [e1, e2]; exact this
      cases b with
      | later =>
        exact slot_put hc hr h (fun a ha => ⟨by simp [Ledger.after, Ledger.lookup, Ledger.begin, Ledger.join, ha], hdd rfl rfl (hd a ha).2⟩)
          (fun a ha => by simp [Ledger.after, Ledger.lookup, Ledger.begin, Ledger.join, ha])
      | now r => exact slot_store hc hr hem r h
      | drop =>
        exact slot_remove hc hr h (fun a ha => ⟨by simp [Ledger.after, Ledger.lookup, Ledger.forget, Ledger.join, ha], hdd rfl rfl (hd a ha).2⟩)
          (fun a ha => by simp [Ledger.after, Ledger.lookup, Ledger.forget, Ledger.join, ha])
  | emplace k v f =>
    cases f
    · exact slot_write hc hr v h
    · exact slot_erase hc hr hem h
    · exact slot_erase hc hr hem h
  | getOrEmplace k v f =>
    simp only [refStep]; split
    · exact fun a => (h a).congr hr rfl rfl rfl
    · exact h
    · cases f
      · exact slot_write hc hr v h
      · exact h
      · exact h
  | erase k => exact slot_erase hc hr hem h
  | clear => exact fun a => ⟨rfl, dead_of hr hem (.inl rfl)⟩
  | count => exact h
  | complete t r =>
    simp only [refStep]; split
    · exact h
    · split
      · rename_i hh
        have hs := hz hh
        intro a
        have := h a
        rw [show (R.settle t none).find cfg.eqv a = R.find cfg.eqv a from by rw [find_settle hc hp]; simp [Ref.find, hs]]
        exact this
      · exact slot_settle hc hr hem _ hp h
  | drop t =>
    simp only [refStep]; split
    · exact h
    · exact slot_abandon hc hr hp h
  | tick r b => cases ht
  | destroy => exact fun a => ⟨rfl, dead_of hr hem (.inl rfl)⟩

end slots

/-- Who waits for the open lookups, according to the ledger. -/
def RefWait (cfg : Cfg K) (env : Env V) (L : Ledger K V) (o : Op K V E) (p : Ref K V × Out K V E) : Prop :=
  ∀ q ∈ p.1.opens, q.2 = (L.after cfg.eqv cfg.resolver env.now o p.2).wait q.1

theorem wait_same {now : Time} {o : Op K V E} {out : Out K V E} (h : ∀ k w b, o ≠ .asyncGet k w b) (ht : isTick o = false) :
    (L.after cfg.eqv cfg.resolver now o out).wait = L.wait := by
  cases o with
  | asyncGet k w b => exact absurd rfl (h k w b)
  | tick r b => cases ht
  | getIfExists k => simp only [Ledger.after]; split <;> rfl
  | get k r =>
    simp only [Ledger.after]; split
    · unfold Ledger.read; split <;> rfl
    · rfl
  | getOrEmplace k v f => simp only [Ledger.after]; repeat' split
                          all_goals rfl
  | complete t r => simp only [Ledger.after]; split <;> rfl
  | drop t => simp only [Ledger.after]; split <;> rfl
  | _ => rfl

theorem ref_wait (hr : cfg.refresh = none) (h : ∀ a, SlotOk cfg mo env L a (R.find cfg.eqv a)) (hw : ∀ q ∈ R.opens, q.2 = L.wait q.1)
    (hf : R.next ∉ R.opens.map (·.1)) (hz : L.wait R.next = []) (o : Op K V E) (ht : isTick o = false) (hx : o ≠ .destroy) :
    RefWait cfg env L o (refStep cfg env.now R o) := by
  have lk : ∀ (k : K) (b : Beh V E), (L.lookup cfg.eqv env.now false k R.next b).wait = L.wait := by intro k b; cases b <;> rfl
  by_cases ha : ∀ k w b, o ≠ .asyncGet k w b
  · have key : ∀ p : Ref K V × Out K V E, (∀ q ∈ p.1.opens, q ∈ R.opens) → RefWait cfg env L o p := by
      intro p hp q hq
      rw [wait_same ha ht]; exact hw q (hp q hq)
    cases o with
    | asyncGet k w b => exact absurd rfl (ha k w b)
    | destroy => exact absurd rfl hx
    | getIfExists k => simp only [refStep]; split <;> exact key _ (fun q h => h)
    | get k r =>
      simp only [refStep]; repeat' split
      · exact key _ (fun q h => h)
      · exact key _ (fun q h => by simpa only [store_opens] using h)
      · exact key _ (fun q h => h)
    | getOrEmplace k v f =>
      simp only [refStep]; split
      · exact key _ (fun q h => h)
      · exact key _ (fun q h => h)
      · cases f <;> exact key _ (fun q h => h)
    | emplace k v f => cases f <;> exact key _ (fun q h => h)
    | complete t r =>
      simp only [refStep]; split
      · exact key _ (fun q h => h)
      · split <;> exact key _ (fun q h => (List.mem_filter.1 h).1)
    | drop t =>
      simp only [refStep]; split
      · exact key _ (fun q h => h)
      · exact key _ (fun q h => (List.mem_filter.1 h).1)
    | tick r b => cases ht
    | erase k => exact key _ (fun q h => h)
    | clear => exact key _ (fun q h => h)
    | count => exact key _ (fun q h => h)
  · cases o with
    | asyncGet k w b =>
      have hfd := (h k).found hr
      have hne : ∀ q ∈ R.opens, q.1 ≠ R.next := fun q hq e => hf (e ▸ List.mem_map_of_mem (f := (·.1)) hq)
      simp only [refStep]; split
      · exact hw
      · rename_i t hft
        rw [hft] at hfd
        intro q hq
        simp only [Ledger.after, hfd.2, Ledger.join]
        simp only [Ref.join, List.mem_map] at hq
        obtain ⟨q', hq', rfl⟩ := hq
        by_cases e : q'.1 = t
        · have := hw q' hq'
          rw [e] at this
          simp [e, this]
        · simp only [e, if_false]; exact hw q' hq'
      · cases b with
        | later =>
          intro q hq
          simp only [Ledger.after, Ledger.join, lk]
          rcases List.mem_append.1 hq with hq | hq
          · rw [if_neg (hne q hq)]; exact hw q hq
          · simp only [List.mem_singleton] at hq
            subst hq; simp [hz]
        | now r =>
          intro q hq
          simp only [Ledger.after, lk]
          simp only [store_opens] at hq
          exact hw q hq
        | drop =>
          intro q hq
          simp only [Ledger.after, Ledger.join, lk]
          rw [if_neg (hne q hq)]; exact hw q hq
    | _ => exact absurd (fun _ _ _ h => by cases h) ha


/-- The cache and the reference after the same history. -/
structure RefTo (cfg : Cfg K) (mo : Prop) (env : Env V) (R : Ref K V) (s : St K V E) (L : Ledger K V) : Prop where
  g : Good cfg ⟨mo, True, env, True⟩ (fun _ => False) s L
  d : R.destroyed = s.destroyed
  n : R.next = s.nextId
  o : R.opens.map (·.1) = s.opens
  pw : OneEach cfg R
  sl : ∀ a, SlotOk cfg mo env L a (R.find cfg.eqv a)
  wt : R.destroyed = false → ∀ q ∈ R.opens, q.2 = L.wait q.1
  wd : R.destroyed = true → ∀ q ∈ R.opens, q.2 = []
  sd : R.destroyed = true → R.slots = []
  w : ∀ w, Wt w s = WtR w R

theorem ref_waiting (ho : R.opens.map (·.1) = s.opens) {t : Nat} (h : t ∈ s.opens) : ∃ ws, R.waiting t = some ws := by
  cases hw : R.waiting t with
  | some ws => exact ⟨ws, rfl⟩
  | none => exact absurd (ho ▸ h) (waiting_none hw)

theorem not_mem_opens (ho : R.opens.map (·.1) = s.opens) {t : Nat} (h : t ∉ s.opens) : R.waiting t = none := by
  cases hw : R.waiting t with
  | none => rfl
  | some ws => exact absurd (ho ▸ List.mem_map_of_mem (f := (·.1)) (waiting_some hw)) h

theorem ref_out (hc : cfg.Ok) (hs : cfg.NoWeak) (hr : cfg.refresh = none) (r : RefTo cfg mo env R s L) (hd : s.destroyed = false)
    (o : Op K V E) (hok : o.ok cfg s) (ht : isTick o = false) (hg : growFails o = false) (hx : o ≠ .destroy) :
    (step cfg env s o).2 = (refStep cfg env.now R o).2 := by
  have g := r.g
  cases o with
  | getIfExists k =>
    have hf := (r.sl k).found hr
    show getIfExists cfg env s k = _
    rw [gie_living hc hs g]
    simp only [refStep]
    cases hF : Slot.found cfg env.now (R.find cfg.eqv k) <;> rw [hF] at hf <;> simp only at hf <;> rw [hf.1] <;> rfl
  | get k x =>
    have hf := (r.sl k).found hr
    show (get cfg env s k x).2 = _
    rw [get_living hc hs hok.1 hd g]
    simp only [refStep]
    cases hF : Slot.found cfg env.now (R.find cfg.eqv k) <;> rw [hF] at hf <;> simp only at hf <;> rw [hf.1] <;> simp only <;>
      by_cases hk : cfg.resolver = .sync <;> simp [hk, r.n]
  | asyncGet k w b =>
    have hf := (r.sl k).found hr
    show (asyncGet cfg env s k w b).2 = _
    rw [async_living hc hs hok.1 hd g]
    simp only [refStep]
    cases hF : Slot.found cfg env.now (R.find cfg.eqv k) <;> rw [hF] at hf <;> simp only at hf <;> rw [hf.1] <;> simp only
    · rw [hf.2]; rfl
    · rw [hf.2]
      cases b <;> simp [r.n]
  | emplace k v f => cases f <;> first | rfl | cases hg
  | getOrEmplace k v f =>
    have hfl : f ≠ .grow := by rintro rfl; cases hg
    have hf := (r.sl k).found hr
    show (getOrEmplace cfg env s k v f).2 = _
    rw [goe_living hc hs hd g _ _ _ hfl]
    simp only [refStep]
    cases hF : Slot.found cfg env.now (R.find cfg.eqv k) <;> rw [hF] at hf <;> simp only at hf <;> rw [hf.1] <;> simp only
    · rw [hf.2]; rfl
    · rw [hf.2]
      cases f <;> first | rfl | exact absurd rfl hfl
  | erase k => rfl
  | clear => rfl
  | count =>
    have hj := joins_valid g hd
    have hh := holds_living hc hs g
    have hcov : ∀ a, holds cfg env s a = true ∨ joins cfg s a = true → ∃ k ∈ R.slots.map (·.1), cfg.eqv a k = true := by
      intro a ha
      rw [hh, hj] at ha
      cases hF : R.find cfg.eqv a with
      | none =>
        have := r.sl a
        rw [hF] at this
        rw [this.1, this.2 env (fun _ => .refl _)] at ha
        simp at ha
      | some x =>
        unfold Ref.find at hF
        rw [Option.map_eq_some_iff] at hF
        obtain ⟨p, hp, -⟩ := hF
        exact ⟨p.1, List.mem_map_of_mem (List.mem_of_find?_eq_some hp), by rw [eqv_c hc]; exact List.find?_some (p := fun p : K × Slot V => cfg.eqv p.1 a) hp⟩
    have hpw : (R.slots.map (·.1)).Pairwise (fun a b => cfg.eqv a b = false) := List.pairwise_map.2 r.pw
    have c := count_keys hc g trivial env _ hpw hcov
    have hfind : ∀ p ∈ R.slots, R.find cfg.eqv p.1 = some p.2 := by
      have key : ∀ l : List (K × Slot V), l.Pairwise (fun p q => cfg.eqv p.1 q.1 = false) → ∀ p ∈ l, (l.find? (fun q => cfg.eqv q.1 p.1)).map (·.2) = some p.2 := by
        intro l
        induction l with
        | nil => intro _ p hp; cases hp
        | cons q l ih =>
          intro hl p hp
          have hl := List.pairwise_cons.1 hl
          rcases List.mem_cons.1 hp with rfl | hp
          · rw [List.find?_cons_of_pos (p := fun q : K × Slot V => cfg.eqv q.1 p.1) (hc.refl _)]; rfl
          · rw [List.find?_cons_of_neg (by simp [hl.1 p hp])]
            exact ih hl.2 p hp
      exact key _ r.pw
    have hsum : ∀ (l : List (K × Slot V)), (∀ p ∈ l, p ∈ R.slots) →
        ((l.map (·.1)).filter (holds cfg env s)).length + ((l.map (·.1)).filter (joins cfg s)).length =
          (l.filter (fun p => (Slot.found cfg env.now (some p.2)).isSome)).length := by
      intro l
      induction l with
      | nil => intro _; rfl
      | cons p l ih =>
        intro hl
        have ih := ih (fun q hq => hl q (List.mem_cons_of_mem _ hq))
        have hp := (r.sl p.1).found hr
        rw [hfind p (hl p (List.mem_cons_self ..))] at hp
        simp only [List.map_cons, List.filter_cons, hh p.1, hj p.1]
        cases hF : Slot.found cfg env.now (some p.2) <;> rw [hF] at hp <;> simp only at hp <;> rw [hp.1, hp.2] <;> simp [show (Found.nothing : Found V).isSome = false from rfl, show ∀ v : V, (Found.value v).isSome = true from fun _ => rfl, show ∀ t, (Found.lookup t : Found V).isSome = true from fun _ => rfl] <;> omega
    simp only [step, refStep, c, hsum R.slots (fun _ h => h)]
  | complete t x =>
    show (complete cfg env s t x).2 = _
    by_cases h : t ∈ s.opens
    · obtain ⟨ws, hws⟩ := ref_waiting r.o h
      have hd' : R.destroyed = false := r.d.trans hd
      have := r.wt hd' _ (waiting_some hws)
      rw [(complete_ok hc g hd h x).2]
      simp only [refStep, hws, hd', ← this]
      rfl
    · have hw := not_mem_opens r.o h
      simp only [refStep, hw]
      unfold complete
      rw [if_neg h]
  | drop t =>
    show (drop s t).2 = _
    by_cases h : t ∈ s.opens
    · obtain ⟨ws, hws⟩ := ref_waiting r.o h
      have hd' : R.destroyed = false := r.d.trans hd
      have hw := r.wt hd' _ (waiting_some hws)
      obtain ⟨-, p1, p2, p3⟩ := drop_ok hc g h
      have hh : (drop s t).2 = { ret := (drop s t).2.ret, fired := (drop s t).2.fired, broken := (drop s t).2.broken } := by
        unfold drop; split <;> rfl
      rw [hh, p1, p2, p3 hd]
      simp only [refStep, hws]
      simp only at hw
      rw [hw]
    · have hw := not_mem_opens r.o h
      simp only [refStep, hw]
      unfold drop
      rw [if_neg h]
  | tick x b => cases ht
  | destroy => exact absurd rfl hx

theorem RefTo.step {env0 : Env V} (hc : cfg.Ok) (hs : cfg.NoWeak) (hr : cfg.refresh = none) (r0 : RefTo cfg mo env0 R s L) (hem : mo ∨ cfg.Untimed) (hle : mo → env0.le env)
    (o : Op K V E) (hok : o.ok cfg s) (ht : isTick o = false) (hg : growFails o = false) (ne : NoEvict cfg (step cfg env s o).1) :
    SameOut (step cfg env s o).2 (refStep cfg env.now R o).2 ∧
    (o ≠ .destroy → (step cfg env s o).2 = (refStep cfg env.now R o).2) ∧
    RefTo cfg mo env (refStep cfg env.now R o).1 (step cfg env s o).1 (L.after cfg.eqv cfg.resolver env.now o (step cfg env s o).2) := by
  have r : RefTo cfg mo env R s L :=
    ⟨r0.g.advance (env := env) (fun _ => hem) hle, r0.d, r0.n, r0.o, r0.pw, fun a => (r0.sl a).advance hle, r0.wt, r0.wd, r0.sd, r0.w⟩
  have g := r.g
  have G := step_ok hc g o hok (fun _ => ne)
  have w1 := Wt_step (env := env) hc g rfl o hok
  have n1 := step_next (cfg := cfg) env s o ht
  have o1 := step_opens (cfg := cfg) env s o ht
  have hnd : (R.opens.map (·.1)).Nodup := r.o ▸ g.wf2.opN
  have hfr : R.destroyed = false → R.next ∉ R.opens.map (·.1) := by
    intro hd hm
    rw [r.o, r.n] at hm
    obtain ⟨e, he, hi, -⟩ := g.wf2.opE (r.d ▸ hd) _ hm
    have := g.wf1.lt e (by simp [he])
    omega
  have hdo : R.destroyed = true → (∃ t x, o = .complete t x) ∨ ∃ t, o = .drop t := by
    intro hd
    have hd' : s.destroyed = true := r.d ▸ hd
    cases o with
    | complete t x => exact .inl ⟨t, x, rfl⟩
    | drop t => exact .inr ⟨t, rfl⟩
    | tick x b => cases ht
    | get k x => exact absurd (hd'.symm.trans hok.2) (by simp)
    | asyncGet k w b => exact absurd (hd'.symm.trans hok.2) (by simp)
    | _ => exact absurd (hd'.symm.trans hok) (by simp)
  have hjo : ∀ k t, R.find cfg.eqv k = some (.lookup t) → t ∈ R.opens.map (·.1) := by
    intro k t hk
    have hd : R.destroyed = false := by
      cases hd : R.destroyed
      · rfl
      · rw [Ref.find, r.sd hd] at hk; cases hk
    have := r.sl k
    rw [hk] at this
    rw [r.o]
    exact ((g.p k).c3 (r.d ▸ hd) t this.1).1
  have n2 := ref_next (cfg := cfg) env.now R o
  have w2 := ref_wt (cfg := cfg) env R o hnd hjo r.wd
  have S := ref_sl hc hr hem r.pw r.sl r.sd o ht
  have P := r.pw.step hc env.now o
  by_cases hx : o = .destroy
  · subst hx
    have hd : R.destroyed = false := r.d.trans hok
    have z : ∀ w, WtR w (refStep cfg env.now R (.destroy : Op K V E)).1 = 0 := by
      intro w
      have := w2 w
      simp [refStep, RefWt, WtR, asked] at this ⊢
      exact this
    refine ⟨⟨rfl, rfl, List.perm_iff_count.2 (fun w => ?_), rfl, rfl⟩, fun h => absurd rfl h, ⟨G, rfl, ?_, ?_, P, ?_, (fun h => by cases h), ?_, fun _ => rfl, fun w => ?_⟩⟩
    · have a := w1 w
      have b := w2 w
      unfold RefWt at b
      rw [Wt_gone G.wf2 rfl] at a
      rw [z] at b
      have := r.w w
      simp only [Hoard.step, destroy, refStep, List.map_nil, List.count_nil] at a b ⊢
      omega
    · unfold RefNext at n2; unfold NextAfter at n1
      rw [n1, n2, r.n]; rfl
    · unfold OpensAfter at o1
      rw [o1]
      simp only [refStep, opensAfter, List.map_map]
      exact r.o
    · exact S
    · intro _ q hq
      simp only [refStep, List.mem_map] at hq
      obtain ⟨q', -, rfl⟩ := hq; rfl
    · rw [Wt_gone G.wf2 rfl, z]
  · have e : (Hoard.step cfg env s o).2 = (refStep cfg env.now R o).2 := by
      cases hd : s.destroyed
      · exact ref_out hc hs hr r hd o hok ht hg hx
      · have hd' : R.destroyed = true := r.d.trans hd
        have bn : ∀ {l : List Nat}, (∀ w, l.count w = 0) → l = [] := by
          intro l h
          cases l with
          | nil => rfl
          | cons a l => have := h a; simp at this
        have wz := Wt_gone g.wf2 hd
        rcases hdo hd' with ⟨t, x, rfl⟩ | ⟨t, rfl⟩
        · have hb : (complete cfg env s t x).2 = { ret := .bool false, broken := (complete cfg env s t x).2.broken } := by
            unfold complete; simp only [hd]; split <;> rfl
          have z : (complete cfg env s t x).2.broken = [] := bn (fun w => by
            have a := w1 w; rw [wz w] at a
            simp only [Hoard.step, asked, List.count_nil] at a; omega)
          show (complete cfg env s t x).2 = _
          rw [hb, z]
          simp only [refStep, hd']
          split <;> rfl
        · have hb : ∀ s : St K V E, (drop s t).2 = { ret := .bool (decide (t ∈ s.opens)), broken := (drop s t).2.broken } := by
            intro s; unfold drop; split <;> simp_all
          have z : (drop s t).2.broken = [] := bn (fun w => by
            have a := w1 w; rw [wz w] at a
            simp only [Hoard.step, asked, List.count_nil] at a; omega)
          show (drop s t).2 = _
          rw [hb s, z]
          by_cases h : t ∈ s.opens
          · obtain ⟨ws, hws⟩ := ref_waiting r.o h
            have : ws = [] := r.wd hd' _ (waiting_some hws)
            subst this
            simp only [refStep, hws, h, decide_true]
          · simp only [refStep, not_mem_opens r.o h, h, decide_false]
    have o2 := ref_opens (cfg := cfg) env.now R o hnd hfr hdo
    have dd := ref_destroyed (cfg := cfg) env.now R o hx
    refine ⟨⟨by rw [e], by rw [e], by rw [e], by rw [e], by rw [e]⟩, fun _ => e, ⟨G, ?_, ?_, ?_, P, ?_, ?_, ?_, ?_, fun w => ?_⟩⟩
    · rw [dd, step_destroyed _ _ _ _ hx, r.d]
    · unfold NextAfter at n1; unfold RefNext at n2
      rw [n1, n2, e, r.n]
    · unfold OpensAfter at o1; unfold RefOpens at o2
      rw [o1, o2, e, r.n, r.o]
    · rw [e]; exact S
    · rw [dd, e]
      intro hd
      exact ref_wait hr r.sl (r.wt hd) (hfr hd) (g.g.wf _ (by rw [r.n]; exact Nat.le_refl _)) o ht hx
    · rw [dd]
      intro hd q hq
      rcases hdo hd with ⟨t, x, rfl⟩ | ⟨t, rfl⟩
      · simp only [refStep, hd] at hq
        split at hq
        · exact r.wd hd q hq
        · exact r.wd hd q (List.mem_filter.1 hq).1
      · simp only [refStep] at hq
        split at hq
        · exact r.wd hd q hq
        · exact r.wd hd q (List.mem_filter.1 hq).1
    · rw [dd]
      intro hd
      have hs := r.sd hd
      rcases hdo hd with ⟨t, x, rfl⟩ | ⟨t, rfl⟩
      · simp only [refStep, hd]
        split
        · exact hs
        · simp [Ref.settle, hs]
      · simp only [refStep]
        split
        · exact hs
        · simp [Ref.settle, hs]
    · have a := w1 w
      have b := w2 w
      unfold RefWt at b
      rw [e] at a
      have := r.w w
      omega

theorem RefTo.run (hc : cfg.Ok) (hs : cfg.NoWeak) (hr : cfg.refresh = none) (hem : mo ∨ cfg.Untimed) : ∀ (h : Hist K V E) {env0 : Env V} {R : Ref K V} {s : St K V E} {L : Ledger K V},
    RefTo cfg mo env0 R s L → (mo → Mono (env0 :: h.map (·.1))) → HistOk cfg s h →
    (∀ p ∈ h, isTick p.2 = false ∧ growFails p.2 = false) → NoEvictH cfg s h →
    SameOuts (Hoard.run cfg s h).2 (refOuts cfg R h) ∧ ((∀ p ∈ h, p.2 ≠ .destroy) → (Hoard.run cfg s h).2 = refOuts cfg R h)
  | [], _, _, _, _, _, _, _, _, _ => ⟨trivial, fun _ => rfl⟩
  | (env, o) :: h, env0, R, s, L, r, hm, hok, hp, ne => by
    have hp1 := hp (env, o) (List.mem_cons_self ..)
    have hle : mo → env0.le env := fun x => by
      have := hm x; simp only [Mono, List.map_cons, List.pairwise_cons] at this
      exact this.1 env (List.mem_cons_self ..)
    obtain ⟨s1, s2, s3⟩ := r.step hc hs hr hem hle o hok.1 hp1.1 hp1.2 (noEvict_head ne.2)
    obtain ⟨i2, i3⟩ := RefTo.run hc hs hr hem h s3 (fun x => by
      have := hm x; simp only [Mono, List.map_cons, List.pairwise_cons] at this ⊢
      exact this.2) hok.2 (fun p hh => hp p (List.mem_cons_of_mem _ hh)) ne.2
    refine ⟨⟨s1, i2⟩, fun hx => ?_⟩
    have a := s2 (hx _ (List.mem_cons_self ..))
    have b := i3 (fun p hh => hx p (List.mem_cons_of_mem _ hh))
    simp only [Hoard.run, refOuts, a, b]

end Hoard
