import Verif.EventsFailLemmas
import Verif.Props.Events
import Verif.Props.EventsNested
import Verif.Props.Throw
import Verif.Props.Abort
/-!
# C115: the calls that policies see when calls fail

The model is `Verif.EventsFail`, the specification `Verif.Spec.Events`.
-/
namespace Hoard.Events
open Spec Throw
variable {K V E : Type} {cfg : Cfg K}

theorem dead_cases (nx : Bool) (env : Env V) (x : XSt K V E) (o : XOp K V E) (t : Nat) (ht : t ∈ (xstep cfg nx env x o).1.dead) :
    t ∈ x.dead ∨ (∃ v, o = .assignFail t false v) ∧ t ∈ x.s.opens ∧ x.s.destroyed = false := by
  cases o with
  | plain p =>
    cases p with
    | complete tok r =>
      simp only [xstep] at ht
      split at ht
      · unfold completeDead at ht
        split at ht
        · exact .inl (List.mem_filter.1 ht).1
        · cases r <;> exact .inl ht
      · exact .inl ht
    | drop tok =>
      simp only [xstep] at ht
      split at ht
      · exact .inl (List.mem_filter.1 ht).1
      · exact .inl ht
    | _ => exact .inl ht
  | getFail k r f =>
    refine .inl ?_
    simp only [xstep, getFail] at ht
    split at ht
    · cases f with
      | grow => simp only at ht; split at ht <;> exact ht
      | _ => exact ht
    · exact ht
  | asyncFail k u b f => exact .inl ht
  | assignFail tok keeps v =>
    simp only [xstep, assignFail] at ht
    split at ht
    · rename_i hto
      split at ht
      · exact .inl ht
      · rename_i hd
        cases keeps with
        | true => exact .inl ht
        | false =>
          rcases List.mem_append.1 ht with h | h
          · exact .inl h
          · rw [List.mem_singleton] at h
            subst h
            exact .inr ⟨⟨v, rfl⟩, hto, by simpa using hd⟩
    · split at ht
      · split at ht
        · exact .inl (List.mem_filter.1 ht).1
        · exact .inl ht
      · exact .inl ht

theorem husks (hc : cfg.Ok) (nx : Bool) (h : XHist K V E) (hok : XHistOk cfg nx {} h) : Husk (Book.notes {} (failTrace cfg nx {} h)) (xstateAfter cfg nx h) := by
  induction h using snoc_ind with
  | h0 => exact ⟨fun _ h => (by cases h), fun _ h => (by cases h)⟩
  | h1 h p ih =>
    obtain ⟨env, o⟩ := p
    rw [XHistOk_append] at hok
    have H := ih hok.1
    obtain ⟨_, hk, hl⟩ := fail_knows hc nx h hok.1
    rw [failTrace_snoc, notes_append, xstateAfter_snoc]
    have hx : (xrun cfg nx ({} : XSt K V E) h).1 = xstateAfter cfg nx h := rfl
    rw [hx]
    have ho : o.ok cfg (xstateAfter cfg nx h) := hok.2.1
    generalize xstateAfter cfg nx h = x at *
    constructor
    · intro t ht
      rcases dead_cases nx env x o t ht with hd | ⟨⟨v, rfl⟩, hto, hd⟩
      · exact (H.ov t hd).xstep nx o ho
      · simp only [xstep, assignFail, hto, hd, if_true]
        exact ⟨fun hm => ((List.Nodup.mem_erase_iff hl.nd).1 hm).1 rfl, hl.lt t hto⟩
    · intro t ht hg
      rcases dead_cases nx env x o t ht with hd | ⟨⟨v, rfl⟩, hto, hd⟩
      · rcases given_assigned t _ _ hg with q | ⟨a, c, q⟩
        · exact H.gi t hd q
        · have := H.ov t hd
          rcases asg_failing x o t a c q with q | q
          · exact this.1 q
          · have := this.2; omega
      · exact hk.op t hg hto

end Hoard.Events

namespace Hoard.Props
open Spec Demo Events Throw Abort
variable {K V E : Type} {cfg : Cfg K} {nx : Bool}

/-! ## Values that cannot be made, functors that throw, allocations that fail -/

/-- C115.  However many calls fail, all calls make sense to policies. -/
theorem C115_failing_calls_make_sense (hc : cfg.Ok) (h : XHist K V E) (hok : XHistOk cfg nx {} h) : Book.accepts {} (failTrace cfg nx {} h) := (fail_knows hc nx h hok).1

/-- C115.  A policy that notes the calls knows exactly the entries of the cache. -/
theorem C115_failing_policy_knows_entries (hc : cfg.Ok) (h : XHist K V E) (hok : XHistOk cfg nx {} h) :
    (Book.notes {} (failTrace cfg nx {} h)).there.Perm ((xstateAfter cfg nx h).s.ents.map (·.id)) := (fail_knows hc nx h hok).2.1.there

/-- C115.  And it was told of every value. -/
theorem C115_failing_values_are_announced (hc : cfg.Ok) (h : XHist K V E) (hok : XHistOk cfg nx {} h) (e : Entry K V E)
    (he : e ∈ (xstateAfter cfg nx h).s.ents) (v : V) (hv : e.mapped.val? = some v) : Announced (failTrace cfg nx {} h) e.id := by
  obtain ⟨h1, h2, _⟩ := fail_knows hc nx h hok
  exact announced (once_of_accepts _ _ h1) ((h2.val e he (by rw [hv]; rfl)).resolve_left id)

/-- C115.  The flags of assignments are right (C113): a call that does not fail where it could (it needs no new buckets), and one whose functor has a result before it
fails, report that result. -/
theorem C115_failing_flags_tell_the_result (cfg : Cfg K) (env : Env V) (x : XSt K V E) (o : XOp K V E) (i : Nat) (value callback : Bool)
    (h : .assign i value callback ∈ failing cfg env x o) :
    (∃ p y, o = .plain p ∧ brings (decide (cfg.resolver = .async)) p = some y ∧ Fits value callback y) ∨
    (∃ k r, o = .getFail k r .grow ∧ Fits value callback (r, false)) ∨
    ∃ k w r f, o = .asyncFail k w (.now r) f ∧ Fits value callback (r, true) := by
  cases o with
  | plain p =>
    have hp : ∀ q, q = p → .assign i value callback ∈ events cfg env x.s q := by
      rintro q rfl
      cases q with
      | complete t r =>
        simp only [failing] at h
        split at h
        · cases h
        · exact h
      | _ => exact h
    obtain ⟨y, h1, h2⟩ := said_events p i value callback (hp p rfl)
    exact .inl ⟨p, y, rfl, h1, h2⟩
  | getFail k r f =>
    refine .inr (.inl ⟨k, r, ?_⟩)
    refine Said.append (P := fun v c => XOp.getFail k r f = .getFail k r .grow ∧ Fits v c (r, false)) (said_lookup k false) ?_ i value callback h
    split
    · cases f with
      | grow =>
        simp only
        split
        · exact said_before
        · exact said_sync _ _ ⟨trivial, fits_ok r false⟩
      | _ => exact .nil
    · exact .nil
  | asyncFail k w b f =>
    refine .inr (.inr ?_)
    refine Said.append (P := fun v c => ∃ k' w' r f', XOp.asyncFail k w b f = .asyncFail k' w' (.now r) f' ∧ Fits v c (r, true)) (said_lookup k true) ?_ i value callback h
    have ha : ∀ s : St K V E, Said (fun v c => ∃ k' w' r f', XOp.asyncFail k w b f = .asyncFail k' w' (.now r) f' ∧ Fits v c (r, true)) (Events.resolveAsync cfg env s k b) := by
      intro s
      refine said_async _ _ ?_
      rintro r rfl
      exact ⟨k, w, r, f, rfl, fits_ok r true⟩
    split
    · cases f with
      | alloc => exact .nil
      | grow =>
        simp only
        split
        · exact said_before
        · exact ha _
      | _ => exact ha _
    · exact .nil
  | assignFail t keeps v => cases h

/-- The history of `failDemo` (C76).  The functor that throws leaves an entry (1), the value that cannot be made another (2); policies hear of their end although they
never heard of a value. -/
example : asyncC.Ok ∧ XHistOk asyncC false {} (failDemo ++ [(at_ 7, .plain .destroy)]) ∧ failTrace asyncC false {} (failDemo ++ [(at_ 7, .plain .destroy)]) =
    [.create 0, .assign 0 true false, .miss, .create 1, .miss, .create 2, .hit 2, .miss, .create 3, .assign 3 true true,
     .unlink 0, .unlink 1, .unlink 2, .unlink 3] :=
  ⟨nat_ok rfl (by intro d i h; cases h), by decide, by decide +kernel⟩

/-- C115.  A lookup that fails later was reported, once. -/
theorem C115_failed_lookup_is_reported (env : Env V) (x : XSt K V E) (k : K) :
    (∀ (r : Res V E) (f : SyncFail), (failing cfg env x (.getFail k r f)).countP Ev.isLookup = 1) ∧
    (∀ (w : Nat) (b : Beh V E) (f : AsyncFail), (failing cfg env x (.asyncFail k w b f)).countP Ev.isLookup = 1) := by
  constructor
  · intro r f
    simp only [failing, getFailed, List.countP_append, one_lookup]
    split
    · cases f with
      | grow =>
        simp only
        split
        · rw [quiet_before]
        · unfold Events.resolveSync; rw [quiet_linked]
      | _ => rfl
    · rfl
  · intro w b f
    simp only [failing, asyncFailed, List.countP_append, one_lookup]
    split
    · cases f with
      | alloc => rfl
      | grow =>
        simp only
        split
        · rw [quiet_before]
        · rw [quiet_async]
      | _ => simp only [quiet_async]
    · rfl

/-- A table that cannot be made, an allocation that fails, a value that cannot be made: the miss is all that policies see.  The last call needs no new buckets, so it does not fail. -/
example : let cfg := { plain with resolver := .sync, maxAge := some 3 }
    let h : XHist Nat Nat Nat := [(at_ 0, .getFail 1 (.ok 7) .grow), (at_ 0, .plain (.get 1 (.ok 7))), (at_ 1, .getFail 2 (.ok 8) .alloc), (at_ 2, .getFail 3 (.ok 9) .build),
      (at_ 9, .getFail 6 (.ok 9) .grow)]
    XHistOk cfg false {} h ∧ (xouts cfg false h).map (·.ret) = [.throws, .val 7, .throws, .throws, .val 9] ∧
    failTrace cfg false {} h = [.miss, .miss, .create 0, .assign 0 true false, .miss, .miss, .miss, .create 1, .assign 1 true false] := by decide +kernel

/-- C115.  An entry whose value could not be made is never assigned, neither before nor after: not even if the callback object is used again. -/
theorem C115_spoiled_entry_is_never_assigned (hc : cfg.Ok) (h1 h2 : XHist K V E) (env : Env V) (tok : Nat) (v : V)
    (hok : XHistOk cfg nx {} (h1 ++ (env, .assignFail tok false v) :: h2)) (hr : (xoutAt cfg nx h1 env (.assignFail tok false v)).ret = .throws) (value callback : Bool) :
    .assign tok value callback ∉ failTrace cfg nx {} (h1 ++ (env, .assignFail tok false v) :: h2) := by
  rw [show h1 ++ (env, XOp.assignFail tok false v) :: h2 = (h1 ++ [(env, .assignFail tok false v)]) ++ h2 by simp] at hok ⊢
  rw [XHistOk_append] at hok
  have H := husks hc nx _ hok.1
  have hd : tok ∈ (xstateAfter cfg nx (h1 ++ [(env, .assignFail tok false v)])).dead := by
    rw [xstateAfter_snoc]
    have hr : (xstep cfg nx env (xstateAfter cfg nx h1) (.assignFail tok false v)).2.ret = .throws := hr
    generalize xstateAfter cfg nx h1 = x at *
    simp only [xstep, assignFail] at hr ⊢
    split
    · rename_i ht
      rw [if_pos ht] at hr
      split
      · rename_i hd
        rw [if_pos hd] at hr
        simp [complete, ht, hd] at hr
      · simp
    · rename_i ht
      rw [if_neg ht] at hr
      split
      · rename_i htd
        rw [if_pos htd] at hr
        split
        · rename_i hd
          rw [if_pos hd] at hr
          cases hr
        · exact htd
      · rename_i htd
        rw [if_neg htd] at hr
        cases hr
  rw [failTrace_append, List.mem_append]
  rintro (hm | hm)
  · exact H.gi tok hd (given_of_assign tok value callback _ _ (.inl hm))
  · exact over_silent nx h2 (H.ov tok hd) hok.2 value callback hm

/-- In `failDemo` that is entry 2. -/
example := C115_spoiled_entry_is_never_assigned (cfg := asyncC) (nx := false) (nat_ok rfl (by intro d i h; cases h)) (failDemo.take 4)
  (failDemo.drop 5 ++ [(at_ 7, .plain (.complete 2 (.ok 9)))]) (at_ 4) 2 7 (by decide +kernel) (by decide +kernel) true true

/-! ## Comparisons and copies that throw in the middle of a walk -/

/-- C115.  However many calls are left in the middle, all calls make sense to policies. -/
theorem C115_left_calls_make_sense (hc : cfg.Ok) (h : AHist K V E) (hok : AHistOk cfg St.init h) : Book.accepts {} (leftTrace cfg St.init h) := (left_knows hc h hok).1

/-- C115.  A policy that notes the calls knows exactly the entries of the cache. -/
theorem C115_left_policy_knows_entries (hc : cfg.Ok) (h : AHist K V E) (hok : AHistOk cfg St.init h) :
    (Book.notes {} (leftTrace cfg St.init h)).there.Perm ((astateAfter cfg h).ents.map (·.id)) := (left_knows hc h hok).2.there

/-- C115.  And it was told of every value. -/
theorem C115_left_values_are_announced (hc : cfg.Ok) (h : AHist K V E) (hok : AHistOk cfg St.init h) (e : Entry K V E)
    (he : e ∈ (astateAfter cfg h).ents) (v : V) (hv : e.mapped.val? = some v) : Announced (leftTrace cfg St.init h) e.id := by
  obtain ⟨h1, h2⟩ := left_knows hc h hok
  exact announced (once_of_accepts _ _ h1) ((h2.val e he (by rw [hv]; rfl)).resolve_left id)

/-- The history of `leftDemo` (C94): the lookup is reported neither as hit nor as miss, the second `emplace` that is left has dropped an entry. -/
example : plain.Ok ∧ AHistOk plain St.init leftDemo ∧ leftTrace plain St.init leftDemo =
    [.create 0, .assign 0 true false, .create 1, .assign 1 true false, .unlink 0] :=
  ⟨nat_ok rfl (by intro d i h; cases h), by decide, by decide +kernel⟩

/-- C115.  A call that is left is reported neither as hit nor as miss, and nothing is created or assigned: policies only see entries go, and each of them was in the cache
before and is not any more. -/
theorem C115_left_call_reports_no_lookup (hc : cfg.Ok) (h : AHist K V E) (env : Env V) (o : AOp K V E) (hok : AHistOk cfg St.init (h ++ [(env, o)])) (hp : ∀ p, o ≠ .plain p) :
    ∀ e ∈ left cfg env (astateAfter cfg h) o, ∃ i, e = .unlink i ∧ i ∈ (astateAfter cfg h).ents.map (·.id) ∧ i ∉ (astateAfter cfg (h ++ [(env, o)])).ents.map (·.id) := by
  rw [AHistOk_append] at hok
  have ho : o.ok cfg env (astateAfter cfg h) := hok.2.1
  obtain ⟨_, _, g⟩ := agood hc False False (fun q => q.elim) h env hok.1 (fun q => q.elim) (fun q => q.elim)
  obtain ⟨i, wk, h1, h2⟩ := astep_stop ho hp
  have h3 : left cfg env (astateAfter cfg h) o = unlinks wk.removed := by
    cases o with
    | plain p => exact absurd rfl (hp p)
    | _ => simp only [left, h1]
  have hperm := stop_ids hc h1
  have hnd : (ids (astateAfter cfg h)).Nodup := nodup_ents g.wf1
  rw [astateAfter_snoc, h2, h3]
  intro e he
  obtain ⟨a, ha, rfl⟩ := List.mem_map.1 he
  refine ⟨a.id, rfl, hperm.mem_iff.2 (List.mem_append_right _ (List.mem_map.2 ⟨a, ha, rfl⟩)), fun hm => ?_⟩
  exact (List.nodup_append.1 (hperm.nodup_iff.1 hnd)).2.2 _ hm _ (List.mem_map.2 ⟨a, ha, rfl⟩) rfl

/-! ## The queues of the policies -/

/-- C115.  The recency queue by which `max_size_policy` chooses what to evict is what it makes of these calls (C113), whatever fails. -/
theorem C115_recency_queue_follows_the_calls (cfg : Cfg K) (hm : cfg.maxSize.isSome = true) :
    (∀ h : XHist K V E, XHistOk cfg nx {} h → (xstateAfter cfg nx h).s.bq = recency {} (failTrace cfg nx {} h)) ∧
    (∀ h : AHist K V E, (astateAfter cfg h).bq = recency {} (leftTrace cfg St.init h)) := by
  constructor
  · intro h hok
    induction h using snoc_ind with
    | h0 => rfl
    | h1 h p ih =>
      obtain ⟨env, o⟩ := p
      rw [XHistOk_append] at hok
      rw [failTrace_snoc, xstateAfter_snoc, recency_append, ← ih hok.1]
      exact failing_bq hm nx _ o hok.2.1
  · intro h
    induction h using snoc_ind with
    | h0 => rfl
    | h1 h p ih =>
      obtain ⟨env, o⟩ := p
      rw [leftTrace_snoc, astateAfter_snoc, recency_append, ← ih]
      exact left_fol o hm

/-- C115.  So is the queue by which the refresh policy chooses what to refresh, for the calls that fail or are left; for the others see C113. -/
theorem C115_refresh_queue_follows_the_calls (cfg : Cfg K) (hr : cfg.refresh.isSome = true) (env : Env V) :
    (∀ (x : XSt K V E) (o : XOp K V E), o.ok cfg x → (∀ p, o ≠ .plain p) → (xstep cfg nx env x o).1.s.delayQ = dues x.s.delayQ (failing cfg env x o)) ∧
    (∀ (s : St K V E) (o : AOp K V E), o.ok cfg env s → (∀ p, o ≠ .plain p) → (astep cfg env s o).1.delayQ = dues s.delayQ (left cfg env s o)) := by
  constructor
  · intro x o ho hp
    cases o with
    | plain p => exact absurd rfl (hp p)
    | getFail k r f => exact (getFail_fol nx x ho.2.1 k r f).dq hr
    | asyncFail k u b f => exact (asyncFail_fol k u b f).dq hr
    | assignFail tok keeps v => exact (assignFail_fol x tok keeps v).dq hr
  · intro s o ho hp
    obtain ⟨i, wk, h1, h2⟩ := astep_stop ho hp
    have h3 : left cfg env s o = unlinks wk.removed := by
      cases o with
      | plain p => exact absurd rfl (hp p)
      | _ => simp only [left, h1]
    rw [h2, h3]
    exact (applyWalk_fol i wk).dq hr

/-- Stale entries leave both queues in a lookup that is then left: key 5, of the same hash code as 1, was too old. -/
example : let cfg := { plain with resolver := .async, maxAge := some 3, maxSize := some 5, refresh := some (2, 9) }
    let h : AHist Nat Nat Nat := [(at_ 0, .plain (.emplace 5 50 .none)), (at_ 2, .plain (.emplace 1 10 .none)), (at_ 4, .look 9 true 1)]
    AHistOk cfg St.init h ∧ (astateAfter cfg (h.take 2)).delayQ = [0, 1] ∧ (astateAfter cfg h).delayQ = [1] ∧ (astateAfter cfg h).bq.q = [1] := by decide +kernel

end Hoard.Props
