import Verif.HistLemmas
/-! What lookups answer, in terms of the ledger. -/
namespace Hoard
open Spec
variable {K V E : Type} {cfg : Cfg K} {M : Md V} {L : Ledger K V} {s : St K V E}

/-- The invariant at the end of a history, without assumptions on clock and limits. -/
theorem good_any (hc : cfg.Ok) (h : Hist K V E) (hok : HistOk cfg St.init h) (env : Env V) :
    Good cfg ⟨False, False, env, True⟩ (fun _ => False) (stateAfter cfg h) (ledgerAfter cfg h) :=
  reach_good hc (fun h => h.elim) h env hok (fun h => h.elim) (fun h => h.elim)

/-- The invariant at the end of a history with a clock that does not go back. -/
theorem good_mono (hc : cfg.Ok) (h : Hist K V E) (hok : HistOk cfg St.init h) (env : Env V) (hm : Mono (h.map (·.1) ++ [env])) :
    Good cfg ⟨True, False, env, True⟩ (fun _ => False) (stateAfter cfg h) (ledgerAfter cfg h) :=
  reach_good hc (fun h => h.elim) h env hok (fun _ => hm) (fun h => h.elim)

/-- The invariant at the end of a history where in addition nothing was evicted. -/
theorem good_exact (hc : cfg.Ok) (h : Hist K V E) (hok : HistOk cfg St.init h) (env : Env V) (hm : Mono (h.map (·.1) ++ [env]))
    (hx : NoEvictH cfg St.init h) :
    Good cfg ⟨True, True, env, True⟩ (fun _ => False) (stateAfter cfg h) (ledgerAfter cfg h) :=
  reach_good hc (fun _ => .inl trivial) h env hok (fun _ => hm) (fun _ => hx)

/-- An answer from the store is the value in the ledger, and it is not too old. -/
theorem stored_valid (hc : cfg.Ok) {X} (h : Good cfg M X s L) (hex : ¬ M.ex) {o : Op K V E} (ho : o.ok cfg s) {k : K} {v : V}
    (ha : answered o (step cfg M.env s o).2 = some (k, v)) (hca : (step cfg M.env s o).2.calls = [])
    (hmd : (step cfg M.env s o).2.made = false) : Valid cfg M L k v := by
  have hret : ∀ {k' : K} {out : Out K V E}, (∃ u, out.ret = .val u) → answered (.getIfExists k' : Op K V E) out = some (k, v) → out.ret = .val v ∧ k' = k := by
    rintro k' ⟨r, f, b, c, m⟩ ⟨u, hr⟩ h; simp only at hr; subst hr; simp [answered] at h; exact ⟨by rw [h.2], h.1⟩
  cases o with
  | getIfExists k' =>
    simp only [step] at ha
    rcases (getIfExists_ok hc h k').2 with ⟨u, hu, hv⟩ | ⟨hm, _⟩
    · obtain ⟨h1, rfl⟩ := hret ⟨u, hu⟩ ha
      rw [hu] at h1; cases h1; exact hv
    · generalize getIfExists cfg M.env s k' = out at *
      obtain ⟨r, f, b, c, m⟩ := out; simp only at hm; subst hm; simp [answered] at ha
  | get k' r =>
    simp only [step] at ha hca
    rcases (get_ok hc h ho.2 ho.1 k' r).2 with ⟨u, hu, hv, _⟩ | ⟨⟨hm, _, _⟩ | ⟨_, hm, _⟩, _⟩
    · generalize (get cfg M.env s k' r).2 = out at *
      obtain ⟨r, f, b, c, m⟩ := out; simp only at hu; subst hu; simp [answered] at ha
      obtain ⟨rfl, rfl⟩ := ha; exact hv
    · generalize (get cfg M.env s k' r).2 = out at *
      obtain ⟨r, f, b, c, m⟩ := out; simp only at hm; subst hm; simp [answered] at ha
    · rw [hca] at hm; cases hm
  | getOrEmplace k' v' f =>
    simp only [step] at ha hmd
    rcases (getOrEmplace_ok hc h ho k' v' f (fun h => (hex h).elim)).2 with ⟨u, hu, hv, _⟩ | ⟨hm, _, _⟩ | ⟨⟨hm, _⟩, _⟩
    · generalize (getOrEmplace cfg M.env s k' v' f).2 = out at *
      obtain ⟨r, f, b, c, m⟩ := out; simp only at hu; subst hu; simp [answered] at ha
      obtain ⟨rfl, rfl⟩ := ha; exact hv
    · generalize (getOrEmplace cfg M.env s k' v' f).2 = out at *
      obtain ⟨r, f, b, c, m⟩ := out; simp only at hm; subst hm; simp [answered] at ha
    · rw [hmd] at hm; cases hm
  | asyncGet k' w b =>
    simp only [step] at ha hca
    rcases (asyncGet_ok hc h ho.2 ho.1 k' w b).2 with ⟨_, _, ⟨u, hf, _, hv⟩ | ⟨⟨hf, _⟩, _⟩ | ⟨hm, _⟩⟩
    · generalize (asyncGet cfg M.env s k' w b).2 = out at *
      obtain ⟨r, f, b, c, m⟩ := out; simp only at hf; subst hf; simp [answered] at ha
      obtain ⟨rfl, rfl⟩ := ha; exact hv
    · generalize (asyncGet cfg M.env s k' w b).2 = out at *
      obtain ⟨r, f, b, c, m⟩ := out; simp only at hf; subst hf; simp [answered] at ha
    · rw [hca] at hm; cases hm
  | _ => simp [answered] at ha

/-- What `get_if_exists` says, when nothing was evicted: exactly what the ledger says. -/
theorem peek_exact (hc : cfg.Ok) {X} (h : Good cfg M X s L) (hex : M.ex) (hs : cfg.maxSize = none) (k : K) :
    (getIfExists cfg M.env s k).ret =
      match L.cur k with
      | none => .miss
      | some v => if M.env.now.past (L.ageLimit cfg.maxAge cfg.wall k) || reached M.env.now (L.idleLimit cfg.refresh k) then .miss else .val v := by
  rcases (getIfExists_ok hc h k).2 with ⟨u, hu, hv, hl, _⟩ | ⟨hm, hd⟩
  · rw [hu, hv]; simp at hl; simp [hl]
  · rw [hm]
    cases hcur : L.cur k with
    | none => rfl
    | some v =>
      rcases hd hex v hcur with h | h | h
      · simp [h]
      · simp [h]
      · simp [hs] at h

/-- A lookup through `get_` finds a value exactly when `get_if_exists` does. -/
theorem get__peek (hc : cfg.Ok) (w : WF1 cfg s) (w2 : WF2 cfg s) (env : Env V) (k : K) (incl : Bool) (v : V) :
    (get_ cfg env s k incl).2 = .val v ↔ (getIfExists cfg env s k).ret = .val v := by
  have mono : ∀ i, ∀ e ∈ s.ents, isHit cfg env k false e = true → isHit cfg env k i e = true := by
    intro i e he hh
    cases i
    · exact hh
    · simp only [isHit, Bool.and_eq_true] at hh ⊢
      refine ⟨hh.1, ?_⟩
      have := hh.2
      cases hm : e.mapped <;> simp_all [Mapped.get]
  rw [get__eq hc w.placed, getIfExists_eq hc w.placed]
  cases hf : s.ents.find? (isHit cfg env k incl) with
  | none =>
    have : s.ents.find? (isHit cfg env k false) = none := by
      rw [List.find?_eq_none] at hf ⊢
      intro e he hh; exact hf e he (mono incl e he hh)
    simp [this, optRet]
  | some e =>
    obtain ⟨he, hk, hx, ⟨u, h1, h2⟩ | ⟨h1, h2, h3⟩⟩ := hit_facts hf
    · have h1' := isHit_of_val (cfg := cfg) (incl := false) hk hx h1
      have : s.ents.find? (isHit cfg env k false) = some e := by
        rw [List.find?_eq_some_iff_append] at hf ⊢
        obtain ⟨_, as, bs, heq, hno⟩ := hf
        refine ⟨h1'.1, as, bs, heq, ?_⟩
        intro a ha
        have := hno a ha
        cases hh : isHit cfg env k false a
        · rfl
        · rw [mono incl a (by rw [heq]; simp [ha]) hh] at this; cases this
      simp [this, h2, h1'.2, optRet]
    · have hvf := value_first hc w w2 hf h2
      have : s.ents.find? (isHit cfg env k false) = none := by
        rw [List.find?_eq_none]
        intro a ha hh
        simp only [isHit, Bool.and_eq_true] at hh
        have ha2 := hvf a ha hh.1.1
        cases hv : a.mapped.val? with
        | some u => rw [ha2 (by simp [hv])] at hh; simp at hh
        | none =>
          have h4 := hh.2
          have h5 := hh.1.2
          cases hm : a.mapped <;> simp_all [Mapped.get, Mapped.val?, Entry.expired, Mapped.holdsError, Mapped.expired]
      simp [this, h3, optRet]

end Hoard
