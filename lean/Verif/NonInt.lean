import Verif.MapLemmas
/-! What is visible of one key does not depend on the other keys. -/
namespace Hoard
open Spec
variable {K V E : Type} {cfg : Cfg K} {L L' : Ledger K V} {s s' : St K V E}

/-- The value of a key that is not too old. -/
def live (cfg : Cfg K) (env : Env V) (L : Ledger K V) (k : K) : Option V :=
  if env.now.past (L.ageLimit cfg.maxAge cfg.wall k) then none else L.cur k

/-- What should be visible of a call. -/
def liveOut (memo : Bool) (m : K → Option V) : MapOp K V E → Ret V E × Bool × List K
  | .emplace _ _ => (.unit, true, [])
  | .getIfExists k => (found (m k), false, [])
  | .get k r => match m k with
    | some v => (.val v, false, [])
    | none => if memo then (resRet r, false, [k]) else (.miss, false, [])
  | .getOrEmplace k v => match m k with
    | some u => (.val u, false, [])
    | none => (.val v, true, [])
  | .erase _ => (.unit, false, [])
  | .clear => (.unit, false, [])

theorem get_made (env : Env V) (s : St K V E) (k : K) (r : Res V E) : (get cfg env s k r).2.made = false := by
  simp only [get]; split <;> rfl

theorem getOrEmplace_calls (env : Env V) (s : St K V E) (k : K) (v : V) (f : Fail) : (getOrEmplace cfg env s k v f).2.calls = [] := by
  simp only [getOrEmplace]; split
  · rfl
  · split <;> rfl
  · rfl

theorem out_live (hc : cfg.Ok) (hs : cfg.maxSize = none) (hr : cfg.refresh = none) (hk : cfg.resolver ≠ .async)
    {env : Env V} {X} (hg : Good cfg ⟨True, True, env, True⟩ X s L) (hv : ∀ k, L.valid k = none) (hd : s.destroyed = false) (o : MapOp K V E) :
    visible (step cfg env s o.toOp).2 = liveOut (cfg.resolver = .sync) (live cfg env L) o := by
  have hlive : ∀ {k u}, Valid cfg ⟨True, True, env, True⟩ L k u → live cfg env L k = some u := by
    intro k u h
    have := h.2.1
    simp at this
    simp [live, this.1, h.1]
  have hdead : ∀ {k}, (True → ∀ u, L.cur k = some u → DeadL cfg env L k u) → live cfg env L k = none := by
    intro k h
    unfold live
    split
    · rfl
    · rename_i hn
      cases hcur : L.cur k with
      | none => rfl
      | some u =>
        rcases h trivial u hcur with h | h | h
        · exact absurd h hn
        · simp [Ledger.idleLimit, hr, reached] at h
        · simp [hs] at h
  cases o with
  | emplace k v => simp [MapOp.toOp, step, emplace, tryLink, visible, liveOut]
  | getIfExists k =>
    have hh : (getIfExists cfg env s k) = ({ ret := (getIfExists cfg env s k).ret } : Out K V E) := rfl
    simp only [MapOp.toOp, step, liveOut]
    rcases (getIfExists_ok hc hg k).2 with ⟨u, h3, h4⟩ | ⟨h3, h4⟩
    · rw [hh, h3, hlive h4]; rfl
    · rw [hh, h3, hdead h4]; rfl
  | get k r =>
    simp only [MapOp.toOp, step, visible, liveOut, get_made]
    rcases (get_ok hc hg hd hk k r).2 with ⟨u, h3, h4, h6⟩ | ⟨⟨h3, h6, h7⟩ | ⟨h3, h6, h7⟩, h4⟩
    · rw [h3, h6, hlive h4]; rfl
    · rw [h3, h6, hdead h4]; simp [h7]
    · rw [h3, h6, hdead h4]; simp [h7]
  | getOrEmplace k v =>
    simp only [MapOp.toOp, step, visible, liveOut, getOrEmplace_calls]
    rcases (getOrEmplace_ok hc hg hd k v .none (fun _ => sim_noEvict hs _)).2 with ⟨u, h3, h4, h6⟩ | ⟨_, _, h6⟩ | ⟨⟨h6, h3⟩, h4⟩
    · rw [h3, h6, hlive h4]; rfl
    · obtain ⟨⟨t, ht⟩, _⟩ := h6 rfl
      rw [hv] at ht; cases ht
    · rw [h3, h6, hdead (fun _ => (h4 trivial).2)]; rfl
  | erase k => rfl
  | clear => rfl

/-- The two ledgers say the same about `a`. -/
def Agree (a : K) (L L' : Ledger K V) : Prop := L.cur a = L'.cur a ∧ L.time a = L'.time a

theorem after_valid_none {eqv : K → K → Bool} {kind : Kind} {now : Time} {out : Out K V E} (h : ∀ k, L.valid k = none) (o : MapOp K V E) (k : K) :
    (L.after eqv kind now o.toOp out).valid k = none := by
  cases hh : (L.after eqv kind now o.toOp out).valid k with
  | none => rfl
  | some t =>
    rcases after_valid hh with h1 | ⟨h1, _⟩
    · cases o <;> exact h1.elim
    · rw [h] at h1; cases h1

theorem after_agree {eqv : K → K → Bool} {kind : Kind} {now : Time} {out out' : Out K V E} {a : K} (h : Agree a L L')
    (o : MapOp K V E) (hab : about eqv a o = true) (ho : visible out = visible out') :
    Agree a (L.after eqv kind now o.toOp out) (L'.after eqv kind now o.toOp out') := by
  obtain ⟨h1, h2⟩ := h
  simp only [visible, Prod.mk.injEq] at ho
  obtain ⟨hr, hm, hcl⟩ := ho
  cases o with
  | emplace k v => simp only [MapOp.toOp, Ledger.after, hm, Ledger.write, Agree, Ledger.put, show eqv a k = true from hab, if_true, and_self]
  | getIfExists k => simp only [MapOp.toOp, Ledger.after, hr]; split <;> exact ⟨h1, h2⟩
  | get k r =>
    have hab : eqv a k = true := hab
    simp only [MapOp.toOp, Ledger.after]
    cases hc1 : out.calls with
    | nil =>
      rw [hc1] at hcl
      have hc2 : out'.calls = [] := by simpa using hcl.symm
      rw [hc2]
      simp only [hr]
      cases out'.ret <;> exact ⟨h1, h2⟩
    | cons p l =>
      rw [hc1] at hcl
      cases hc2 : out'.calls with
      | nil => rw [hc2] at hcl; cases hcl
      | cons q l' => simp [Agree, Ledger.write, Ledger.put, hab]
  | getOrEmplace k v =>
    have hab : eqv a k = true := hab
    simp only [MapOp.toOp, Ledger.after, hm, hr]
    split
    · simp [Agree, Ledger.write, Ledger.put, hab]
    · split <;> exact ⟨h1, h2⟩
  | erase k => simp only [MapOp.toOp, Ledger.after, Ledger.write, Agree, Ledger.put, show eqv a k = true from hab, if_true, and_self]
  | clear => exact ⟨rfl, h2⟩

theorem live_congr (hc : cfg.Ok) {env : Env V} {a k : K} (r : Rsp cfg L) (r' : Rsp cfg L') (h : Agree a L L') (hk : cfg.eqv a k = true) :
    live cfg env L k = live cfg env L' k := by
  obtain ⟨h1, h2, _⟩ := r a k hk
  obtain ⟨h3, h4, _⟩ := r' a k hk
  simp only [live, Ledger.ageLimit, ← h1, ← h2, ← h3, ← h4, h.1, h.2]

theorem liveOut_congr (hc : cfg.Ok) {env : Env V} {a : K} (r : Rsp cfg L) (r' : Rsp cfg L') (h : Agree a L L') (o : MapOp K V E)
    (ho : about cfg.eqv a o = true) (memo : Bool) : liveOut memo (live cfg env L) o = liveOut memo (live cfg env L') o := by
  cases o with
  | get k r1 => simp only [liveOut, live_congr hc r r' h ho]
  | getIfExists k => simp only [liveOut, live_congr hc r r' h ho]
  | getOrEmplace k v => simp only [liveOut, live_congr hc r r' h ho]
  | _ => rfl

theorem about_concerns {eqv : K → K → Bool} {a : K} {o : MapOp K V E} {out : Out K V E} (h : ¬ about eqv a o = true) : ¬ L.Concerns eqv a o.toOp out := by
  cases o <;> first | exact fun hh => h hh | exact fun _ => h rfl

theorem toOp_ok (hk : cfg.resolver ≠ .async) (hd : s.destroyed = false) (o : MapOp K V E) : o.toOp.ok cfg s := by
  cases o <;> first | exact hd | exact ⟨hk, hd⟩

theorem toOp_ne (o : MapOp K V E) : o.toOp ≠ .destroy := by cases o <;> simp [MapOp.toOp]

theorem nonint_run (hc : cfg.Ok) (hs : cfg.maxSize = none) (hr : cfg.refresh = none) (hk : cfg.resolver ≠ .async) (a : K) :
    ∀ (os : List (Env V × MapOp K V E)) {env : Env V} {s s' : St K V E} {L L' : Ledger K V},
    Good cfg ⟨True, True, env, True⟩ (fun _ => False) s L → Good cfg ⟨True, True, env, True⟩ (fun _ => False) s' L' →
    (∀ k, L.valid k = none) → (∀ k, L'.valid k = none) → s.destroyed = false → s'.destroyed = false → Agree a L L' →
    Mono (env :: os.map (·.1)) →
    outsAbout cfg.eqv a os (run cfg s (os.map (fun p => (p.1, p.2.toOp)))).2 =
    (run cfg s' ((os.filter (fun p => about cfg.eqv a p.2)).map (fun p => (p.1, p.2.toOp)))).2.map visible
  | [], _, _, _, _, _, _, _, _, _, _, _, _, _ => rfl
  | (e, o) :: os, env, s, s', L, L', g, g', v, v', d, d', ag, hm => by
    simp only [Mono, List.map_cons, List.pairwise_cons] at hm
    obtain ⟨hm1, hm2, hm3⟩ := hm
    have he : env.le e := hm1 e (List.mem_cons_self ..)
    have g1 := g.advance (env := e) (fun _ => .inl trivial) (fun _ => he)
    have g1' := g'.advance (env := e) (fun _ => .inl trivial) (fun _ => he)
    have hne := fun s : St K V E => sim_noEvict (cfg := cfg) hs s
    have gl := step_ok hc g1 o.toOp (toOp_ok hk d o) (fun _ => hne _)
    have hmono : Mono (e :: os.map (·.1)) := List.pairwise_cons.2 ⟨hm2, hm3⟩
    have dl := (step_destroyed cfg e s o.toOp (toOp_ne o)).trans d
    by_cases hab : about cfg.eqv a o = true
    · have gr := step_ok hc g1' o.toOp (toOp_ok hk d' o) (fun _ => hne _)
      have dr := (step_destroyed cfg e s' o.toOp (toOp_ne o)).trans d'
      have hout : visible (step cfg e s o.toOp).2 = visible (step cfg e s' o.toOp).2 := by
        rw [out_live hc hs hr hk g1 v d, out_live hc hs hr hk g1' v' d', liveOut_congr hc g1.g.rsp g1'.g.rsp ag o hab]
      have ih := nonint_run hc hs hr hk a os gl gr (after_valid_none v o) (after_valid_none v' o) dl dr
        (after_agree (out := (step cfg e s o.toOp).2) (out' := (step cfg e s' o.toOp).2) ag o hab hout) hmono
      simp only [outsAbout, List.filter_cons, hab, if_true, List.map_cons, run, List.zip_cons_cons] at ih ⊢
      rw [hout, ih]
    · have hsame := after_same (kind := cfg.resolver) (now := e.now) (about_concerns (L := L) (out := (step cfg e s o.toOp).2) hab)
      have ih := nonint_run hc hs hr hk a os gl g1' (after_valid_none v o) v' dl d' ⟨hsame.1.trans ag.1, hsame.2.1.trans ag.2⟩ hmono
      simp only [outsAbout, List.filter_cons, hab, Bool.false_eq_true, if_false, List.map_cons, run, List.zip_cons_cons] at ih ⊢
      exact ih

end Hoard
