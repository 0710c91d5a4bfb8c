import Verif.Spec.Waiters
import Verif.Tokens
import Verif.ValueLemmas
/-! Accounting of asynchronous lookups and their waiters. -/
namespace Hoard
open Spec
variable {K V E : Type} {cfg : Cfg K} {M : Md V} {L L' : Ledger K V} {s s' : St K V E}

theorem asked_append (h1 h2 : Hist K V E) : asked (h1 ++ h2) = asked h1 ++ asked h2 := by
  induction h1 with
  | nil => rfl
  | cons p h ih =>
    obtain ⟨e, o⟩ := p
    cases o <;> simp [asked, ih]

theorem outsOf_snoc (h : Hist K V E) (e : Env V) (o : Op K V E) : outsOf cfg (h ++ [(e, o)]) = outsOf cfg h ++ [outAt cfg h e o] := by
  simp only [outsOf, run_append]; rfl

theorem outsOf_append (h1 h2 : Hist K V E) : outsOf cfg (h1 ++ h2) = outsOf cfg h1 ++ (run cfg (stateAfter cfg h1) h2).2 := by
  simp only [outsOf, run_append]; rfl

theorem answeredW_snoc (outs : List (Out K V E)) (o : Out K V E) : answeredW (outs ++ [o]) = answeredW outs ++ o.fired.map (·.1) := by
  simp [answeredW]

theorem brokenW_snoc (outs : List (Out K V E)) (o : Out K V E) : brokenW (outs ++ [o]) = brokenW outs ++ o.broken := by
  simp [brokenW]

/-- Who waits, who is invoked and who is dropped by one step. -/
inductive WStep (w0 : Nat → List Nat) (n : Nat) (des : Bool) (opens : List Nat) (o : Op K V E) (out : Out K V E) (w1 : Nat → List Nat) (opens' : List Nat) : Prop
  /-- nobody is concerned -/
  | quiet (ho : ∀ k w b, o ≠ .asyncGet k w b) (hde : o ≠ .destroy) (hf : out.fired = []) (hb : out.broken = []) (hw : w1 = w0)
      (hop : ∀ t ∈ opens, t ∈ opens' ∨ des = true)
  /-- a get is answered at once -/
  | now (k : K) (w : Nat) (b : Beh V E) (r : Res V E) (ho : o = .asyncGet k w b) (hf : out.fired = [(w, r)]) (hb : out.broken = []) (hw : w1 = w0)
      (hop : ∀ t ∈ opens, t ∈ opens')
  /-- a get waits for a lookup that was in flight -/
  | join (k : K) (w : Nat) (b : Beh V E) (t : Nat) (ho : o = .asyncGet k w b) (hf : out.fired = []) (hb : out.broken = []) (hc : out.calls = [])
      (hw : w1 = fun u => if u = t then w0 u ++ [w] else w0 u) (htn : t ∈ opens) (hop : ∀ t ∈ opens, t ∈ opens')
  /-- a get starts a lookup and waits for it -/
  | start (k : K) (w : Nat) (b : Beh V E) (ho : o = .asyncGet k w b) (hf : out.fired = []) (hb : out.broken = []) (hc : out.calls = [(k, n)])
      (hw : w1 = fun u => if u = n then w0 u ++ [w] else w0 u) (hop : ∀ t ∈ opens, t ∈ opens') (hb' : b = .later ∧ n ∈ opens' ∨ b = .drop ∧ n ∉ opens')
  /-- a lookup completes -/
  | done (t : Nat) (r : Res V E) (ho : o = .complete t r) (ht : t ∈ opens) (hd : des = false) (hf : out.fired = (w0 t).map (fun u => (u, r))) (hb : out.broken = []) (hw : w1 = w0)
      (hop : ∀ u ∈ opens, u ≠ t → u ∈ opens') (hn : t ∉ opens')
  /-- a lookup is dropped -/
  | dropped (t : Nat) (ho : o = .drop t) (ht : t ∈ opens) (hd : des = false) (hf : out.fired = []) (hb : out.broken = w0 t) (hw : w1 = w0)
      (hop : ∀ u ∈ opens, u ≠ t → u ∈ opens') (hn : t ∉ opens')
  /-- the cache is destroyed -/
  | gone (ho : o = .destroy) (hd : des = false) (hf : out.fired = []) (hw : w1 = w0) (hop : opens' = opens)
      (hb : ∀ t ∈ opens, ∀ w ∈ w0 t, w ∈ out.broken)

theorem resolveAsync_opens_eq (cfg : Cfg K) (env : Env V) (s : St K V E) (k : K) (b : Beh V E) (hn : s.nextId ∉ s.opens) :
    (resolveAsync cfg env s k b).1.opens = if b matches .later then s.opens ++ [s.nextId] else s.opens := by
  have he : (s.opens ++ [s.nextId]).erase s.nextId = s.opens := by
    rw [List.erase_append_right _ hn]; simp
  cases b with
  | later => simp [resolveAsync]
  | now r => simp [resolveAsync, complete_opens, link_opens, he]
  | drop => simp [resolveAsync, drop_opens, link_opens, he]

theorem asyncGet_opens (cfg : Cfg K) (env : Env V) (s : St K V E) (k : K) (w : Nat) (b : Beh V E) (hn : s.nextId ∉ s.opens) :
    ((asyncGet cfg env s k w b).2.calls = [] → (asyncGet cfg env s k w b).1.opens = s.opens) ∧
    ((asyncGet cfg env s k w b).2.calls ≠ [] → (asyncGet cfg env s k w b).1.opens = if b matches .later then s.opens ++ [s.nextId] else s.opens) := by
  simp only [asyncGet]
  split
  · rename_i i l _; refine ⟨fun _ => by simp, fun h => absurd ?_ h⟩
    cases l <;> rfl
  · refine ⟨fun h => (by cases h), fun _ => ?_⟩
    simp only [answer_opens]
    rw [resolveAsync_opens_eq _ _ _ _ _ (by simpa using hn)]
    simp

theorem tick_opens (cfg : Cfg K) (env : Env V) (s : St K V E) (r : Res V E) (b : Beh V E) (hn : s.nextId ∉ s.opens) :
    ∀ t ∈ s.opens, t ∈ (tick cfg env s r b).1.opens := by
  intro t ht
  simp only [tick]; split
  · exact ht
  · split
    · exact ht
    · split
      · simp only [refresh]; split
        · exact ht
        · rename_i q hq _ e he hr hx
          by_cases ha : cfg.resolver = .async
          · rw [if_pos ha]
            have := resolveAsync_opens_eq cfg env ({ s with delayQ := q } : St K V E) e.key b hn
            have hm : t ∈ (resolveAsync cfg env ({ s with delayQ := q } : St K V E) e.key b).1.opens := by
              rw [this]; split <;> simp [ht]
            repeat' split
            all_goals simpa using hm
          · rw [if_neg ha]
            repeat' split
            all_goals simpa [resolveSync] using ht
      · exact ht

theorem lookup_wait (L : Ledger K V) (eqv : K → K → Bool) (now : Time) (rf : Bool) (k : K) (tok : Nat) (b : Beh V E) :
    (L.lookup eqv now rf k tok b).wait = L.wait := by
  cases b <;> rfl

/-- Nobody waits for anything in a destroyed cache. -/
theorem cbs_gone (w2 : WF2 cfg s) (hd : s.destroyed = true) (t : Nat) : ((s.findAny t).map (·.mapped.cbs)).getD [] = [] := by
  cases hf : s.findAny t with
  | none => rfl
  | some e =>
    have hm : e ∈ s.ents ++ s.limbo := List.mem_of_find?_eq_some hf
    rw [w2.opD hd] at hm
    exact w2.lim e (by simpa using hm)

theorem wstep (hc : cfg.Ok) (h : Good cfg M (fun _ => False) s L) (o : Op K V E) (ho : o.ok cfg s) :
    WStep L.wait s.nextId s.destroyed s.opens o (step cfg M.env s o).2
      (L.after cfg.eqv cfg.resolver M.env.now o (step cfg M.env s o).2).wait (step cfg M.env s o).1.opens := by
  cases o with
  | getIfExists k =>
    refine .quiet (by simp) (by simp) rfl rfl ?_ (fun t ht => .inl ht)
    simp only [Ledger.after]; split <;> rfl
  | count => exact .quiet (by simp) (by simp) rfl rfl rfl (fun t ht => .inl ht)
  | get k r =>
    refine .quiet (by simp) (by simp) ?_ ?_ ?_ (fun t ht => .inl ?_)
    · simp only [step, get]; split <;> rfl
    · simp only [step, get]; split <;> rfl
    · simp only [Ledger.after]; split
      · simp only [Ledger.read]; split <;> rfl
      · rfl
    · have : (step cfg M.env s (.get k r)).1.opens = s.opens := by
        simp only [step, get]; split <;> simp [resolveSync]
      rw [this]; exact ht
  | emplace k v f =>
    refine .quiet (by simp) (by simp) ?_ ?_ rfl (fun t ht => .inl ?_)
    · simp only [step, emplace]; split <;> rfl
    · simp only [step, emplace]; split <;> rfl
    · simp only [step, emplace]; split <;> simpa using ht
  | getOrEmplace k v f =>
    refine .quiet (by simp) (by simp) ?_ ?_ ?_ (fun t ht => .inl ?_)
    · simp only [step, getOrEmplace]; repeat' split
      all_goals rfl
    · simp only [step, getOrEmplace]; repeat' split
      all_goals rfl
    · simp only [Ledger.after]; repeat' split
      all_goals rfl
    · simp only [step, getOrEmplace]; repeat' split
      all_goals simpa using ht
  | erase k => exact .quiet (by simp) (by simp) rfl rfl rfl (fun t ht => .inl (by simpa [step, erase] using ht))
  | clear => exact .quiet (by simp) (by simp) rfl rfl rfl (fun t ht => .inl (by simpa [step] using ht))
  | tick r b =>
    have hn := next_not_open h.wf1 h.wf2 ho.2.2
    have hw : ∀ out : Out K V E, (L.after cfg.eqv cfg.resolver M.env.now (.tick r b) out).wait = L.wait := by
      intro out
      simp only [Ledger.after]; repeat' split
      all_goals first | rfl | exact lookup_wait ..
    refine .quiet (by simp) (by simp) ?_ ?_ (hw _) (fun t ht => .inl (tick_opens _ _ _ _ _ hn t ht))
    all_goals
      rcases (tick_ok hc h ho.2.2 r b).2 with q | ⟨k, q, _⟩
      · rw [show (step cfg M.env s (.tick r b)).2 = _ from q]
      · rw [show (step cfg M.env s (.tick r b)).2 = _ from q]
  | asyncGet k w b =>
    have hn := next_not_open h.wf1 h.wf2 ho.2
    obtain ⟨q0, q1⟩ := asyncGet_opens cfg M.env s k w b hn
    obtain ⟨_, hb, ⟨u, f, c, _⟩ | ⟨⟨f, c, t, hv⟩, _⟩ | ⟨c, _, _, f⟩⟩ := (asyncGet_ok hc h ho.2 ho.1 k w b).2
    · refine .now k w b (.ok u) rfl f hb ?_ (fun t ht => ?_)
      · simp only [step, Ledger.after, c, f]; rfl
      · simp only [step, q0 c]; exact ht
    · refine .join k w b t rfl f hb c ?_ ((h.p k).c3 ho.2 t hv).1 (fun t ht => ?_)
      · simp only [step, Ledger.after, c, f, hv]; rfl
      · simp only [step, q0 c]; exact ht
    · have hc' : (asyncGet cfg M.env s k w b).2.calls ≠ [] := by rw [c]; simp
      cases b with
      | now r =>
        refine .now k w _ r rfl f hb ?_ (fun t ht => ?_)
        · simp only [step, Ledger.after, c, f]; exact lookup_wait ..
        · simp only [step, q1 hc']; simpa using ht
      | later =>
        refine .start k w _ rfl f hb c ?_ (fun t ht => ?_) (.inl ⟨rfl, ?_⟩)
        · simp only [step, Ledger.after, c, f]; rfl
        · simp only [step, q1 hc']; simp [ht]
        · simp only [step, q1 hc']; simp
      | drop =>
        refine .start k w _ rfl f hb c ?_ (fun t ht => ?_) (.inr ⟨rfl, ?_⟩)
        · simp only [step, Ledger.after, c, f]; rfl
        · simp only [step, q1 hc']; simpa using ht
        · simp only [step, q1 hc']; simpa using hn
  | complete t r =>
    by_cases hx : t ∈ s.opens
    · rcases Bool.eq_false_or_eq_true s.destroyed with hd | hd
      · have : (step cfg M.env s (.complete t r)).2.fired = [] ∧ (step cfg M.env s (.complete t r)).2.broken = [] := by
          simp only [step, complete, if_pos hx, hd, if_true]
          refine ⟨by simp, ?_⟩
          have hz : ((({ s with opens := s.opens.erase t } : St K V E).findAny t).map (·.mapped.cbs)).getD [] = [] := cbs_gone h.wf2 hd t
          exact congrArg users hz
        refine .quiet (by simp) (by simp) this.1 this.2 ?_ (fun t ht => .inr hd)
        simp only [Ledger.after]; split <;> rfl
      · obtain ⟨_, q⟩ := complete_ok hc h hd hx r
        refine .done t r rfl hx hd (by simp only [step, q]) (by simp only [step, q]) (by simp only [step, q, Ledger.after]; rfl) ?_ ?_
        · intro u hu hne; simp only [step, complete_opens]; exact (List.mem_erase_of_ne hne).2 hu
        · simp only [step, complete_opens]; exact fun hh => (h.wf2.opN.mem_erase_iff.1 hh).1 rfl
    · have q : step cfg M.env s (.complete t r) = (s, { ret := .bool false }) := by
        simp only [step, complete, if_neg hx]
      rw [q]
      exact .quiet (by simp) (by simp) rfl rfl rfl (fun t ht => .inl ht)
  | drop t =>
    by_cases hx : t ∈ s.opens
    · rcases Bool.eq_false_or_eq_true s.destroyed with hd | hd
      · have : (step cfg M.env s (.drop t)).2.fired = [] ∧ (step cfg M.env s (.drop t)).2.broken = [] := by
          simp only [step, drop, if_pos hx]
          exact ⟨by simp, by rw [cbs_gone h.wf2 hd t]; rfl⟩
        refine .quiet (by simp) (by simp) this.1 this.2 ?_ (fun t ht => .inr hd)
        simp only [Ledger.after]; split <;> rfl
      · obtain ⟨_, q1, q2, q3⟩ := drop_ok hc h hx
        refine .dropped t rfl hx hd q2 (q3 hd) (by simp only [step, q1, Ledger.after]; rfl) ?_ ?_
        · intro u hu hne; simp only [step, drop_opens]; exact (List.mem_erase_of_ne hne).2 hu
        · simp only [step, drop_opens]; exact fun hh => (h.wf2.opN.mem_erase_iff.1 hh).1 rfl
    · have q : step cfg M.env s (.drop t) = (s, { ret := .bool false }) := by
        simp only [step, drop, if_neg hx]
      rw [q]
      exact .quiet (by simp) (by simp) rfl rfl rfl (fun t ht => .inl ht)
  | destroy =>
    refine .gone rfl ho rfl rfl (by simp [step, destroy]) ?_
    intro t ht w hw
    obtain ⟨e, he, hid, hp⟩ := h.wf2.opE ho t ht
    have := h.g.wt e he (hid ▸ ht)
    rw [hid] at this
    simp only [step, destroy, List.mem_flatMap]
    exact ⟨e, he, by rw [this]; exact hw⟩

end Hoard
