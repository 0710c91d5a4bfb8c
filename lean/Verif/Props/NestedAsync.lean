import Verif.NestedAsyncStay
import Verif.Demo
/-!
# Properties: asynchronous resolvers that use the cache (C66, C67, C68)

The model is `Verif.NestedAsync`, the specification `Verif.Spec.NestedAsync`.
-/
namespace Hoard.NestedAsync
open Spec Demo
open Handlers (AllE cbsOf complete_pos complete_neg complete_dead)
variable {K V E : Type} {cfg : Cfg K}

/-! ## Concrete histories -/

deriving instance DecidableEq for Ans
deriving instance DecidableEq for Seen

/-- Whether a step is possible, computed. -/
def okb (cfg : Cfg Nat) (n : NSt Nat Nat Nat) : Ev Nat Nat Nat → Bool
  | .op (.asyncGet _ _ _) => false
  | .op (.tick r b) => decide ((Op.tick r b : Op Nat Nat Nat).ok cfg n.s) && n.stack.isEmpty
  | .op .destroy => decide ((Op.destroy : Op Nat Nat Nat).ok cfg n.s) && n.stack.isEmpty
  | .op o => decide (o.ok cfg n.s)
  | .get _ _ => decide (cfg.resolver = .async) && !n.s.destroyed
  | .ret => !n.stack.isEmpty
  | .throw => !n.stack.isEmpty

/-- The same along a history. -/
def chk (cfg : Cfg Nat) : NSt Nat Nat Nat → NHist Nat Nat Nat → Bool
  | _, [] => true
  | n, (env, e) :: h => okb cfg n e && chk cfg (next cfg env n e).1 h

theorem ok_of_okb {cfg : Cfg Nat} {n : NSt Nat Nat Nat} {e : Ev Nat Nat Nat} (h : okb cfg n e = true) : e.ok cfg n := by
  cases e with
  | op o =>
    cases o with
    | asyncGet k w b => cases h
    | tick r b =>
      simp only [okb, Bool.and_eq_true, decide_eq_true_eq, List.isEmpty_iff] at h
      exact ⟨h.1, by simp, fun _ => h.2⟩
    | destroy =>
      simp only [okb, Bool.and_eq_true, decide_eq_true_eq, List.isEmpty_iff] at h
      exact ⟨h.1, by simp, fun _ => h.2⟩
    | _ =>
      simp only [okb, decide_eq_true_eq] at h
      exact ⟨h, by simp, by simp⟩
  | get k w => simpa [okb, Ev.ok] using h
  | ret => simpa [okb, Ev.ok] using h
  | throw => simpa [okb, Ev.ok] using h

theorem chk_sound {cfg : Cfg Nat} : ∀ {h : NHist Nat Nat Nat} {n : NSt Nat Nat Nat}, chk cfg n h = true → NOk cfg n h
  | [], _, _ => trivial
  | (env, e) :: h, n, hh => by
    simp only [chk, Bool.and_eq_true] at hh
    exact ⟨ok_of_okb hh.1, chk_sound hh.2⟩

/-- A cache without limits, with an asynchronous resolver. -/
def asyncN : Cfg Nat := { plain with resolver := .async }

/-- The same with room for two entries. -/
def smallN : Cfg Nat := { plain with resolver := .async, maxSize := some 2 }

theorem asyncN_ok : asyncN.Ok := nat_ok rfl (by intro d i h; cases h)
theorem smallN_ok : smallN.Ok := nat_ok rfl (by intro d i h; cases h)

/-- The functor for key 1 asks for key 2, whose functor answers at once; it stores key 3, asks for its own key, completes its own lookup
with the sum, and returns. -/
def busy : NHist Nat Nat Nat :=
  [(at_ 0, .get 1 100), (at_ 0, .get 2 101), (at_ 0, .op (.complete 1 (.ok 7))), (at_ 0, .ret), (at_ 0, .op (.emplace 3 30 .none)),
   (at_ 0, .get 1 102), (at_ 0, .op (.complete 0 (.ok 37))), (at_ 0, .ret), (at_ 0, .op (.getIfExists 1))]

example : NOk asyncN {} busy := chk_sound (by decide)
example : (runN asyncN {} busy).2 = [.called 1 0, .called 2 1, .out { ret := .bool true }, .out { fired := [(101, .ok 7)] }, .out { made := true },
    .out {}, .out { ret := .bool true, fired := [(102, .ok 37)] }, .out { fired := [(100, .ok 37)] }, .out { ret := .val 37 }] := by decide

/-! ## C66: asynchronous resolvers may use the cache -/

/-- C66: whatever functors do with the cache, and however deeply their calls are nested, every operation returns what it would return, the functor is called when it
would be called and for the same lookup, and values are made when they would be, if every functor returned at once and
did afterwards what it did.  No configuration and no history is excluded, in particular none with evictions, refreshes and functors that throw. -/
theorem C66_as_if_functors_returned_at_once (h : NHist K V E) (hok : NOk cfg {} h) :
    HistOk cfg St.init (flat h) ∧ seenN h (runN cfg {} h).2 = (outsOf cfg (flat h)).map seen :=
  ⟨flat_ok h hok, (hist_sim h rfl hok).2.1⟩

/-- C66, for the next step: an operation shows what it shows after the plain history. -/
theorem C66_operations_see_the_plain_cache (h : NHist K V E) (hok : NOk cfg {} h) (env : Env V) (o : Op K V E) :
    ∃ out, ansAt cfg h env (.op o) = .out out ∧ seen out = seen (outAt cfg (flat h) env o) :=
  ⟨_, rfl, (step_sim (cfg := cfg) (env := env) (end_sim h hok) o).2⟩

/-- C66, for the next `async_get`: the functor is called if and only if it would be called after the plain history, for the same lookup; and otherwise the caller is
answered at once, with the same result, if and only if they would be. -/
theorem C66_calls_of_the_functor (hc : cfg.Ok) (h : NHist K V E) (hok : NOk cfg {} h) (env : Env V) (k : K) (w : Nat) :
    (∃ tok, ansAt cfg h env (.get k w) = .called k tok ∧ (outAt cfg (flat h) env (.asyncGet k w .later)).calls = [(k, tok)]) ∨
    (∃ out, ansAt cfg h env (.get k w) = .out out ∧ (outAt cfg (flat h) env (.asyncGet k w .later)).calls = [] ∧ out.calls = [] ∧ out.broken = [] ∧
      out.fired = (outAt cfg (flat h) env (.asyncGet k w .later)).fired) := by
  have I := inv_end h hok
  have g := I.good hc env
  have hfl : outAt cfg (flat h) env (.asyncGet k w .later) = (step cfg env (stateAfter cfg (flat h)) (.asyncGet k w .later)).2 := rfl
  rw [hfl, flat_get hc g.wf1, ← hit_same I.sim k]
  simp only [ansAt, next]
  cases hh : (getWalk cfg env k true ((endN cfg h).s.bucket ((endN cfg h).s.bucketFor (cfg.hash k)))).hit with
  | none =>
    have hn1 : (get_ cfg env (endN cfg h).s k true).1.nextId = (endN cfg h).s.nextId := (get__shr (env := env) hc (I.wf1 hc) k true).same.nextId
    refine .inl ⟨_, rfl, ?_⟩
    show [(k, (stateAfter cfg (flat h)).nextId)] = [(k, (get_ cfg env (endN cfg h).s k true).1.nextId)]
    rw [hn1, I.nextId]
  | some q =>
    obtain ⟨i, l⟩ := q
    rw [hit_find hc (I.wf1 hc)] at hh
    obtain ⟨e, hf, he⟩ := Option.map_eq_some_iff.1 hh
    simp only [Prod.mk.injEq] at he
    have hl : l ≠ .none := by
      intro hl
      obtain ⟨hm, hk, hx, ⟨v, h1, h2⟩ | ⟨h1, h2, h3⟩⟩ := hit_facts hf
      · rw [he.2, hl] at h2; cases h2
      · rw [he.2, hl] at h3; cases h3
    refine .inr ⟨_, rfl, ?_⟩
    cases l with
    | none => exact absurd rfl hl
    | _ => exact ⟨rfl, rfl, rfl, rfl⟩

/-- The functors of `busy`, taken as functors that return at once. -/
example : flat busy = [(at_ 0, .asyncGet 1 100 .later), (at_ 0, .asyncGet 2 101 .later), (at_ 0, .complete 1 (.ok 7)), (at_ 0, .emplace 3 30 .none),
    (at_ 0, .asyncGet 1 102 .later), (at_ 0, .complete 0 (.ok 37)), (at_ 0, .getIfExists 1)] := rfl

/-- With a limit of two entries: the functor for key 1 stores keys 2, 3 and 4, which evicts values, and throws. -/
example : NOk smallN ({} : NSt Nat Nat Nat) [(at_ 0, .get 1 100), (at_ 0, .op (.emplace 2 20 .none)), (at_ 0, .op (.emplace 3 30 .none)), (at_ 0, .op (.emplace 4 40 .none)),
    (at_ 0, .throw), (at_ 0, .op (.getIfExists 2)), (at_ 0, .get 1 101)] := chk_sound (by decide)

theorem find_findAny {s : St K V E} {t : Nat} (h : t ∈ s.ents.map (·.id)) : s.find t = s.findAny t := by
  unfold St.find St.findAny
  rw [List.find?_append]
  cases hf : s.ents.find? (fun e => e.id == t) with
  | none =>
    obtain ⟨e, he, hi⟩ := List.mem_map.1 h
    exact absurd (List.find?_eq_none.1 hf e he) (by simp [hi])
  | some x => rfl

theorem ids_map {l : List (Entry K V E)} {i : Nat} {f : Entry K V E → Entry K V E} (hf : ∀ e, (f e).id = e.id) :
    (l.map (atId i f)).map (·.id) = l.map (·.id) := by
  rw [List.map_map]
  apply List.map_congr_left
  intro e _
  simp only [Function.comp, atId]
  split
  · exact hf e
  · rfl

/-- C66: functors that only complete or drop their own lookup, or keep it for later, are as in the model of `async_get` as one step. -/
theorem C66_simple_functors (hc : cfg.Ok) (h : NHist K V E) (hok : NOk cfg {} h) (env : Env V) (k : K) (w tok : Nat)
    (hcall : ansAt cfg h env (.get k w) = .called k tok) (b : Beh V E) :
    let acts : NHist K V E := match b with
      | .later => []
      | .now r => [(env, .op (.complete tok r))]
      | .drop => [(env, .op (.drop tok))]
    let run := runN cfg (endN cfg h) ((env, .get k w) :: acts ++ [(env, .ret)])
    run.1.stack = (endN cfg h).stack ∧
    run.1.s = (step cfg env (endN cfg h).s (.asyncGet k w b)).1 ∧
    answeredN run.2 = (step cfg env (endN cfg h).s (.asyncGet k w b)).2.fired ∧
    brokenN run.2 = (step cfg env (endN cfg h).s (.asyncGet k w b)).2.broken := by
  intro acts run
  have I := inv_end h hok
  have hcall' : (next cfg env (endN cfg h) (.get k w)).2 = .called k tok := hcall
  have hhit : (getWalk cfg env k true ((endN cfg h).s.bucket ((endN cfg h).s.bucketFor (cfg.hash k)))).hit = none := by
    cases hh : (getWalk cfg env k true ((endN cfg h).s.bucket ((endN cfg h).s.bucketFor (cfg.hash k)))).hit with
    | none => rfl
    | some q => obtain ⟨i, l⟩ := q; simp [next, hh] at hcall'
  have hn : next cfg env (endN cfg h) (.get k w) =
      (⟨(resolveAsync cfg env (get_ cfg env (endN cfg h).s k true).1 k .later).1, (tok, w) :: (endN cfg h).stack⟩, .called k tok) := by
    simp only [next, hhit, Ans.called.injEq, true_and] at hcall' ⊢
    rw [← hcall']
  have htok : tok = (get_ cfg env (endN cfg h).s k true).1.nextId := by
    simp only [next, hhit, Ans.called.injEq, true_and] at hcall'
    exact hcall'.symm
  have g1 := get__wf1 hc (I.wf1 hc) env k true
  obtain ⟨e, he, hee, w2⟩ := new_pending (env := env) g1 k
  generalize hS : (resolveAsync cfg env (get_ cfg env (endN cfg h).s k true).1 k .later).1 = s2 at he w2 hn
  have hid : e.id = tok := by rw [hee, htok]; rfl
  have hopen : tok ∈ s2.opens := by rw [← hS, htok]; simp [resolveAsync]
  have hcb : cbsOf s2 tok = [] := by
    have h1 := findAny_mem w2 he
    rw [hid] at h1
    simp only [cbsOf, h1, hee]; rfl
  have hids : tok ∈ s2.ents.map (·.id) := List.mem_map.2 ⟨e, he, hid⟩
  have hup : ∀ (f : Mapped V E → Mapped V E) (x : Entry K V E), (x.upd f).id = x.id := fun _ _ => rfl
  -- what the functor does before it returns
  have key : ∀ (S : St K V E), tok ∈ S.ents.map (·.id) → (resolveAsync cfg env (get_ cfg env (endN cfg h).s k true).1 k b).1 = S →
      (step cfg env (endN cfg h).s (.asyncGet k w b)).1 = (answer S tok w (lookAt env S tok)).1 ∧
      (step cfg env (endN cfg h).s (.asyncGet k w b)).2.fired = (answer S tok w (lookAt env S tok)).2.fired ∧
      (step cfg env (endN cfg h).s (.asyncGet k w b)).2.broken = (answer S tok w (lookAt env S tok)).2.broken := by
    intro S hm hS'
    have ht : (resolveAsync cfg env (get_ cfg env (endN cfg h).s k true).1 k b).2 = tok := by
      rw [htok]; cases b <;> rfl
    have hl : (match S.find tok with
        | some e => e.mapped.get env true
        | none => .none) = lookAt env S tok := by
      rw [find_findAny hm]; unfold lookAt; cases S.findAny tok <;> rfl
    simp only [step, asyncGet, hhit, ht, hS']
    cases hf : S.find tok with
    | none => rw [hf] at hl; rw [← hl]; exact ⟨rfl, rfl, rfl⟩
    | some y => rw [hf] at hl; rw [← hl]; exact ⟨rfl, rfl, rfl⟩
  cases b with
  | later =>
    obtain ⟨k1, k2, k3⟩ := key s2 hids hS
    rw [k1, k2, k3]
    have hr : run = runN cfg (endN cfg h) [(env, .get k w), (env, .ret)] := rfl
    rw [hr]
    simp only [runN, hn]
    exact ⟨rfl, rfl, by simp [answeredN, next], by simp [brokenN, next]⟩
  | drop =>
    have hd : drop s2 tok = (Handlers.withOpens (s2.opens.erase tok) (s2.modify tok (·.upd .cancel)), { ret := .bool true, broken := [] }) := by
      rw [Handlers.drop_pos hopen, hcb]; rfl
    have hS3 : (resolveAsync cfg env (get_ cfg env (endN cfg h).s k true).1 k .drop).1 = (drop s2 tok).1 := by
      rw [← hS, htok]; rfl
    obtain ⟨k1, k2, k3⟩ := key _ (by rw [hd]; show tok ∈ (s2.modify tok (·.upd .cancel)).ents.map (·.id); rw [ents_modify, ids_map (hup _)]; exact hids) hS3
    rw [k1, k2, k3]
    have hr : run = runN cfg (endN cfg h) [(env, .get k w), (env, .op (.drop tok)), (env, .ret)] := rfl
    rw [hr]
    simp only [runN, hn]
    have hq : (next cfg env ⟨s2, (tok, w) :: (endN cfg h).stack⟩ (.op (.drop tok))) =
        (⟨(drop s2 tok).1, (tok, w) :: (endN cfg h).stack⟩, .out { ret := .bool true, broken := [] }) := by
      simp only [next, step, hd]
    rw [hq]
    exact ⟨rfl, rfl, by simp [answeredN, next], by simp [brokenN, next]⟩
  | now r =>
    have hd : ∃ o, complete cfg env s2 tok r = ((complete cfg env s2 tok r).1, o) ∧ o.fired = [] ∧ o.broken = [] ∧ tok ∈ (complete cfg env s2 tok r).1.ents.map (·.id) := by
      cases hdes : s2.destroyed with
      | false =>
        refine ⟨(complete cfg env s2 tok r).2, rfl, ?_⟩
        rw [complete_pos hopen hdes, hcb]
        refine ⟨rfl, rfl, ?_⟩
        show tok ∈ (onAssign cfg env (s2.modify tok (·.upd (completed cfg r))) tok r.isOk).ents.map (·.id)
        rw [onAssign_ents, ids_map (fun e => (assignTimes_idKey cfg env r.isOk e).1), ents_modify, ids_map (hup _)]; exact hids
      | true =>
        refine ⟨(complete cfg env s2 tok r).2, rfl, ?_⟩
        rw [complete_dead hopen hdes, hcb]
        refine ⟨rfl, rfl, ?_⟩
        show tok ∈ (s2.modify tok (·.upd .cancel)).ents.map (·.id)
        rw [ents_modify, ids_map (hup _)]; exact hids
    obtain ⟨o, ho, hf, hb, hm⟩ := hd
    have hS3 : (resolveAsync cfg env (get_ cfg env (endN cfg h).s k true).1 k (.now r)).1 = (complete cfg env s2 tok r).1 := by
      rw [← hS, htok]; rfl
    obtain ⟨k1, k2, k3⟩ := key _ hm hS3
    rw [k1, k2, k3]
    have hr : run = runN cfg (endN cfg h) [(env, .get k w), (env, .op (.complete tok r)), (env, .ret)] := rfl
    rw [hr]
    simp only [runN, hn]
    have hq : (next cfg env ⟨s2, (tok, w) :: (endN cfg h).stack⟩ (.op (.complete tok r))) =
        (⟨(complete cfg env s2 tok r).1, (tok, w) :: (endN cfg h).stack⟩, .out o) := by
      show ((⟨(complete cfg env s2 tok r).1, (tok, w) :: (endN cfg h).stack⟩, .out (complete cfg env s2 tok r).2) : NSt K V E × Ans K V E) = _
      rw [ho]
    rw [hq]
    exact ⟨rfl, rfl, by simp [answeredN, next, hf], by simp [brokenN, next, hb]⟩

/-! ## C67: their callbacks -/

/-- C67: a callback is invoked or destroyed at most once, however calls are nested. -/
theorem C67_settled_at_most_once (hc : cfg.Ok) (h : NHist K V E) (hok : NOk cfg {} h) (hnd : (askedN h).Nodup) :
    ((answeredN (runN cfg {} h).2).map (·.1) ++ brokenN (runN cfg {} h).2).Nodup := by
  rw [List.nodup_iff_count]
  intro w
  have h1 := acct hc h hok w
  have h2 := List.nodup_iff_count.1 hnd w
  rw [List.count_append]; omega

/-- C67: when the cache is gone, every callback has been invoked or destroyed, exactly once; none is left over and none is invented. -/
theorem C67_all_settled_when_gone (hc : cfg.Ok) (h : NHist K V E) (hok : NOk cfg {} h) (hd : (endN cfg h).s.destroyed = true) :
    ((answeredN (runN cfg {} h).2).map (·.1) ++ brokenN (runN cfg {} h).2).Perm (askedN h) := by
  rw [List.perm_iff_count]
  intro w
  have h1 := acct hc h hok w
  have h2 := gone hc h hok hd w
  have h3 : (endN cfg h).stack = [] := by
    cases hs : (endN cfg h).stack with
    | nil => rfl
    | cons q st => rw [(inv_end h hok).dead (by rw [hs]; simp)] at hd; cases hd
  simp only [heldBy, h3, List.map_nil, List.count_nil] at h1
  rw [List.count_append]; omega

/-- Only completions invoke callbacks of others. -/
theorem op_fired {env : Env V} {s : St K V E} {o : Op K V E} (ho : ∀ k w b, o ≠ .asyncGet k w b) (hne : (step cfg env s o).2.fired ≠ []) :
    ∃ t r, o = .complete t r ∧ t ∈ s.opens ∧ s.destroyed = false ∧ (step cfg env s o).2.fired = (users (cbsOf s t)).map (fun w => (w, r)) := by
  cases o with
  | asyncGet k w b => exact absurd rfl (ho k w b)
  | complete t r =>
    by_cases hop : t ∈ s.opens
    · cases hd : s.destroyed with
      | true => exfalso; apply hne; simp only [step]; rw [complete_dead hop hd]
      | false => exact ⟨t, r, rfl, hop, rfl, by simp only [step]; rw [complete_pos hop hd]⟩
    · exfalso; apply hne; simp only [step]; rw [complete_neg hop]
  | drop t =>
    exfalso; apply hne
    by_cases hop : t ∈ s.opens
    · simp only [step]; rw [Handlers.drop_pos hop]
    · simp only [step]; rw [Handlers.drop_neg hop]
  | tick r b =>
    exfalso; apply hne
    simp only [step, tick]
    split
    · rfl
    · split
      · rfl
      · split
        · simp only [refresh]
          split
          · rfl
          · split
            · split <;> rfl
            · rfl
        · rfl
  | emplace k v f =>
    exfalso; apply hne
    simp only [step, emplace]; split <;> rfl
  | getOrEmplace k v f =>
    exfalso; apply hne
    simp only [step, getOrEmplace]
    generalize get_ cfg env s k true = g
    obtain ⟨s1, l⟩ := g
    cases l <;> simp only <;> (try split) <;> rfl
  | get k r =>
    exfalso; apply hne
    simp only [step, get]
    generalize get_ cfg env s k false = g
    obtain ⟨s1, l⟩ := g
    cases cfg.resolver <;> cases l <;> rfl
  | _ => exact absurd rfl hne

/-- C67: a callback is only ever invoked with the result of the lookup it waits for.  It is invoked by the `async_get` it was passed to, with what that
would give in the plain history; or when its lookup is completed, with the result of the completion; or when the functor
returns that `async_get` called for it, with a result with which that functor's lookup was completed before. -/
theorem C67_answered_by_own_lookup (hc : cfg.Ok) (h : NHist K V E) (hok : NOk cfg {} h) (env : Env V) (e : Ev K V E) (hev : e.ok cfg (endN cfg h))
    (o : Out K V E) (ha : ansAt cfg h env e = .out o) (w : Nat) (r : Res V E) (hf : (w, r) ∈ o.fired) :
    (∃ k, e = .get k w ∧ (outAt cfg (flat h) env (.asyncGet k w .later)).fired = [(w, r)]) ∨
    (∃ t, e = .op (.complete t r) ∧ WaitsFor cfg h w t) ∨
    (e = .ret ∧ o.fired = [(w, r)] ∧ ∃ t, WaitsFor cfg h w t ∧ CompletedBy cfg h t r) := by
  have I := inv_end h hok
  cases e with
  | op q =>
    have ha' : (step cfg env (endN cfg h).s q).2 = o := Ans.out.inj ha
    subst ha'
    obtain ⟨t, r', rfl, hop, hd, hfe⟩ := op_fired hev.2.1 (List.ne_nil_of_mem hf)
    rw [hfe] at hf
    obtain ⟨u, hu, hue⟩ := List.mem_map.1 hf
    cases hue
    refine .inr (.inl ⟨t, rfl, ?_⟩)
    simp only [cbsOf] at hu
    cases hfa : (endN cfg h).s.findAny t with
    | none => rw [hfa] at hu; cases hu
    | some x =>
      rw [hfa] at hu
      have hx : x ∈ (endN cfg h).s.ents ++ (endN cfg h).s.limbo := List.mem_of_find?_eq_some hfa
      have hxi : x.id = t := by simpa using List.find?_some hfa
      rw [← hxi]
      exact (waiting hc h hok).1 x hx w hu
  | throw =>
    simp only [ansAt, next] at ha
    cases hst : (endN cfg h).stack with
    | nil => exact absurd hst hev
    | cons q st => simp only [hst, Ans.out.injEq] at ha; subst ha; cases hf
  | ret =>
    simp only [ansAt, next] at ha
    cases hst : (endN cfg h).stack with
    | nil => exact absurd hst hev
    | cons q st =>
      obtain ⟨t, u⟩ := q
      simp only [hst, Ans.out.injEq] at ha
      subst ha
      have hq : (t, u) ∈ (endN cfg h).stack := by rw [hst]; exact List.mem_cons_self ..
      have hw := (waiting hc h hok).2 _ hq
      have hpr := provenance hc h hok _ hq
      cases hfa : (endN cfg h).s.findAny t with
      | none => simp only [lookAt, hfa, answer] at hf; cases hf
      | some x =>
        have hx : x ∈ (endN cfg h).s.ents ++ (endN cfg h).s.limbo := List.mem_of_find?_eq_some hfa
        have hxi : x.id = t := by simpa using List.find?_some hfa
        have hp := hpr x hx hxi
        have hl : lookAt env (endN cfg h).s t = x.mapped.get env true := by simp only [lookAt, hfa]
        rw [hl] at hf ⊢
        cases hm : x.mapped with
        | pending p => rw [hm] at hf; simp [Mapped.get, answer] at hf
        | gone => rw [hm] at hf; simp [Mapped.get, answer] at hf
        | void => rw [hm] at hf; simp [Mapped.get, answer] at hf
        | value v =>
          rw [hm] at hf hp
          simp only [Mapped.get, answer, List.mem_singleton, Prod.mk.injEq] at hf
          obtain ⟨rfl, rfl⟩ := hf
          exact .inr (.inr ⟨rfl, by simp [Mapped.get, answer], t, hw, hp⟩)
        | error v =>
          rw [hm] at hf hp
          simp only [Mapped.get, answer, List.mem_singleton, Prod.mk.injEq] at hf
          obtain ⟨rfl, rfl⟩ := hf
          exact .inr (.inr ⟨rfl, by simp [Mapped.get, answer], t, hw, hp⟩)
        | weak v =>
          rw [hm] at hf hp
          simp only [Mapped.get] at hf ⊢
          split at hf
          · rename_i hal
            simp only [answer, List.mem_singleton, Prod.mk.injEq] at hf
            obtain ⟨rfl, rfl⟩ := hf
            exact .inr (.inr ⟨by trivial, by simp [hal, answer], t, hw, hp⟩)
          · simp [answer] at hf
  | get k u =>
    rcases C66_calls_of_the_functor hc h hok env k u with ⟨tok, h1, _⟩ | ⟨o', h1, _, _, _, h5⟩
    · rw [ha] at h1; cases h1
    · rw [ha] at h1
      cases h1
      have hone : o.fired = [(w, r)] ∧ u = w := by
        simp only [ansAt, next] at ha
        split at ha
        · rename_i i l _
          simp only [Ans.out.injEq] at ha
          subst ha
          cases l with
          | val v => simp only [answer, List.mem_singleton, Prod.mk.injEq] at hf ⊢; exact ⟨by rw [hf.1, hf.2], hf.1.symm⟩
          | err v => simp only [answer, List.mem_singleton, Prod.mk.injEq] at hf ⊢; exact ⟨by rw [hf.1, hf.2], hf.1.symm⟩
          | pend => simp [answer] at hf
          | none => simp [answer] at hf
        · cases ha
      obtain ⟨h6, rfl⟩ := hone
      exact .inl ⟨k, rfl, by rw [← h5]; exact h6⟩

/-- C67: if no functor throws, completing a lookup whose functor has returned answers the same callers, with the same result, as in the plain history. -/
theorem C67_completion_answers_the_same (hc : cfg.Ok) (h : NHist K V E) (hok : NOk cfg {} h) (hnt : ∀ env, (env, .throw) ∉ h) (env : Env V) (t : Nat) (r : Res V E)
    (hst : ∀ p ∈ (endN cfg h).stack, p.1 ≠ t) (o : Out K V E) (ha : ansAt cfg h env (.op (.complete t r)) = .out o) :
    o.fired.Perm (outAt cfg (flat h) env (.complete t r)).fired := by
  have I := inv_end h hok
  have ha' : (step cfg env (endN cfg h).s (.complete t r)).2 = o := Ans.out.inj ha
  subst ha'
  have hfl : outAt cfg (flat h) env (.complete t r) = (complete cfg env (stateAfter cfg (flat h)) t r).2 := rfl
  rw [hfl]
  simp only [step]
  by_cases hop : t ∈ (endN cfg h).s.opens
  · cases hd : (endN cfg h).s.destroyed with
    | true => rw [complete_dead hop hd, complete_dead (I.opens ▸ hop) (I.destroyed ▸ hd)]
    | false =>
      rw [complete_pos hop hd, complete_pos (I.opens ▸ hop) (I.destroyed ▸ hd)]
      have hnt' : NoThrow h := by
        rintro p hp ⟨e, rfl⟩; exact hnt e hp
      have := same_waiters hc h hok hnt' hd hop
      have hh : heldFor (endN cfg h) t = [] := by
        unfold heldFor
        rw [List.map_eq_nil_iff, List.filter_eq_nil_iff]
        intro p hp; simpa using hst p hp
      rw [hh, List.append_nil] at this
      exact this.map _
  · rw [complete_neg hop, complete_neg (I.opens ▸ hop)]

/-- `busy` once more, then the end of the cache while a lookup for key 4, whose functor threw, and one for key 5 are in flight. -/
def ends : NHist Nat Nat Nat :=
  busy ++ [(at_ 1, .get 4 104), (at_ 1, .throw), (at_ 1, .get 5 105), (at_ 1, .ret), (at_ 1, .op .destroy), (at_ 2, .op (.complete 3 (.ok 1)))]

example : NOk asyncN {} ends ∧ (endN asyncN ends).s.destroyed = true ∧ askedN ends = [100, 101, 102, 104, 105] ∧
    answeredN (runN asyncN {} ends).2 = [(101, .ok 7), (102, .ok 37), (100, .ok 37)] ∧ brokenN (runN asyncN {} ends).2 = [104, 105] :=
  ⟨chk_sound (by decide), by decide, rfl, by decide, by decide⟩

/-- In `busy`, callback 102 waits for the lookup that its functor completes, and 100 is answered when the functor returns. -/
example : WaitsFor asyncN (busy.take 6) 102 0 ∧ CompletedBy asyncN (busy.take 7) 0 (.ok 37) ∧
    ansAt asyncN (busy.take 7) (at_ 0) .ret = .out { fired := [(100, .ok 37)] } :=
  ⟨⟨busy.take 5, at_ 0, 1, [], rfl, .inr ⟨by decide, by decide⟩⟩, ⟨busy.take 6, at_ 0, [], _, rfl, rfl, by decide⟩, by decide⟩

/-- A functor that has returned, and a second caller: the completion answers both, as in the plain history. -/
example : let h : NHist Nat Nat Nat := [(at_ 0, .get 1 100), (at_ 0, .op (.emplace 2 20 .none)), (at_ 0, .ret), (at_ 0, .get 1 101)]
    NOk asyncN {} h ∧ (endN asyncN h).stack = [] ∧
    ansAt asyncN h (at_ 0) (.op (.complete 0 (.ok 9))) = .out { ret := .bool true, fired := [(100, .ok 9), (101, .ok 9)] } ∧
    (outAt asyncN (flat h) (at_ 0) (.complete 0 (.ok 9))).fired = [(100, .ok 9), (101, .ok 9)] :=
  ⟨chk_sound (by decide), by decide, by decide, by decide⟩

/-! ## C68: the caller of a functor that completes its lookup before it returns -/

/-- C68, if nothing is evicted and time does not run backwards: a functor that completes its lookup before it returns, with a value or an error, answers its
caller with that result when it returns, whatever it did before and does in between, unless the lookup was invalidated before it was completed.  The
full claim, "always", is false: see `C68_caller_forgotten`. -/
theorem C68_caller_answered_partial (hc : cfg.Ok) (hw : cfg.weaken = false ∨ cfg.ptr = false ∨ cfg.maxSize = none) (h0 h2 : NHist K V E) (env1 env2 : Env V)
    (t w : Nat) (r : Res V E) (k : K) (st : List (Nat × Nat))
    (hok : NOk cfg {} (h0 ++ (env1, .op (.complete t r)) :: h2)) (hm : Mono ((flat (h0 ++ (env1, .op (.complete t r)) :: h2)).map (·.1)))
    (hx : NoEvictH cfg St.init (flat (h0 ++ (env1, .op (.complete t r)) :: h2)))
    (hv : (ledgerAfter cfg (flat h0)).valid k = some t)
    (hst : (endN cfg (h0 ++ (env1, .op (.complete t r)) :: h2)).stack = (t, w) :: st) :
    ansAt cfg (h0 ++ (env1, .op (.complete t r)) :: h2) env2 .ret = .out { fired := [(w, r)] } := by
  have hap : h0 ++ (env1, .op (.complete t r)) :: h2 = (h0 ++ [(env1, .op (.complete t r))]) ++ h2 := by simp
  rw [hap] at hok hm hx hst ⊢
  have I := inv_end _ hok
  have hokA := (NOk_append ..).1 hok
  have hok1 := hokA.1
  have hok0 := ((NOk_append ..).1 hok1).1
  have hdE : (endN cfg (h0 ++ [(env1, .op (.complete t r))] ++ h2)).s.destroyed = false := I.dead (by rw [hst]; simp)
  have hd0 : (endN cfg h0).s.destroyed = false := by
    cases hq : (endN cfg h0).s.destroyed with
    | false => rfl
    | true => rw [des_mono _ hok1 hq |> des_mono h2 hok] at hdE; cases hdE
  have hx0 : NoEvictH cfg St.init (flat h0) := by
    rw [flat_append, flat_append, NoEvictH_append, NoEvictH_append] at hx; exact hx.1.1
  have hm0 : Mono ((flat h0).map (·.1) ++ [env1]) := by
    have hfl : flat (h0 ++ [(env1, .op (.complete t r))] ++ h2) = (flat h0 ++ [(env1, .complete t r)]) ++ flat h2 := by simp [flat, flatOf]
    rw [hfl, List.map_append, List.map_append] at hm
    exact (List.pairwise_append.1 hm).1
  obtain ⟨c1, c2, c3⟩ := has_complete hc hw hok0 hm0 hx0 hd0 hv r
  have h1s : (endN cfg (h0 ++ [(env1, .op (.complete t r))])).s = (complete cfg env1 (endN cfg h0).s t r).1 := by rw [endN_snoc]; rfl
  have hlt : t < (endN cfg (h0 ++ [(env1, .op (.complete t r))])).s.nextId := by
    rw [endN_snoc]; exact Nat.lt_of_lt_of_le c3 (next_nextId _)
  have hmem : (t, w) ∈ (endN cfg (h0 ++ [(env1, .op (.complete t r))] ++ h2)).stack := by rw [hst]; exact List.mem_cons_self ..
  obtain ⟨q1, q2⟩ := has_run hc hw h2 hok hx hmem hlt (h1s ▸ c1)
  have I0 := inv_end _ hok0
  have hin0 : In t (endN cfg h0).s := by
    have hop : t ∈ (endN cfg h0).s.opens := by
      by_cases hop : t ∈ (endN cfg h0).s.opens
      · exact hop
      · rw [complete_neg hop] at c2; simp at c2
    obtain ⟨e, he, hi, _⟩ := I0.openE hc hd0 hop
    exact ⟨e, List.mem_append_left _ he, hi⟩
  have hin : In t (endN cfg (h0 ++ [(env1, .op (.complete t r))] ++ h2)).s :=
    in_run hc h2 hok hmem hlt (h1s ▸ sub_complete _ _ _ t hin0)
  obtain ⟨e, he, hi⟩ := hin
  have hfa := findAny_of (I.wf1 hc) he
  rw [hi] at hfa
  have hl : lookAt env2 (endN cfg (h0 ++ [(env1, .op (.complete t r))] ++ h2)).s t = (stored r).get env2 true := by
    simp only [lookAt, hfa]; rw [(q1 e he).1 hi]
  simp only [ansAt, next, hst, hl]
  cases r <;> rfl

/-- The functor for key 1 stores key 2, completes its lookup, replaces its own key, asks for another one, and returns. -/
example : let h0 : NHist Nat Nat Nat := [(at_ 0, .get 1 100), (at_ 0, .op (.emplace 2 20 .none))]
    let h2 : NHist Nat Nat Nat := [(at_ 0, .op (.emplace 1 11 .none)), (at_ 0, .get 3 101), (at_ 0, .ret), (at_ 1, .op .clear)]
    asyncN.Ok ∧ NOk asyncN {} (h0 ++ (at_ 0, .op (.complete 0 (.ok 10))) :: h2) ∧ Mono ((flat (h0 ++ (at_ 0, .op (.complete 0 (.ok 10))) :: h2)).map (·.1)) ∧
    NoEvictH asyncN St.init (flat (h0 ++ (at_ 0, .op (.complete 0 (.ok 10))) :: h2)) ∧ (ledgerAfter asyncN (flat h0)).valid 1 = some 0 ∧
    (endN asyncN (h0 ++ (at_ 0, .op (.complete 0 (.ok 10))) :: h2)).stack = [(0, 100)] ∧
    ansAt asyncN (h0 ++ (at_ 0, .op (.complete 0 (.ok 10))) :: h2) (at_ 2) .ret = .out { fired := [(100, .ok 10)] } :=
  ⟨asyncN_ok, chk_sound (by decide), mono_at [0, 0, 0, 0, 0, 1] (by decide), by simp [NoEvictH, NoEvict, asyncN, plain, flat, flatOf], by decide, by decide, by decide⟩

/-- C68 is false: the functor erases its own key, then completes its lookup, and returns.  Its caller is never answered, although the completion was
not ignored; and if the functor had returned first, the caller would have been answered. -/
theorem C68_caller_forgotten :
    (∃ h : NHist Nat Nat Nat, NOk asyncN {} h ∧ CompletedBy asyncN h 0 (.ok 10) ∧ (endN asyncN h).stack = [(0, 100)] ∧
      ansAt asyncN h (at_ 0) .ret = .out { broken := [100] }) ∧
    ∃ h : NHist Nat Nat Nat, NOk asyncN {} h ∧ (endN asyncN h).stack = [] ∧
      flat h = [(at_ 0, .asyncGet 1 100 .later), (at_ 0, .erase 1)] ∧
      ansAt asyncN h (at_ 0) (.op (.complete 0 (.ok 10))) = .out { ret := .bool true, fired := [(100, .ok 10)] } :=
  ⟨⟨[(at_ 0, .get 1 100), (at_ 0, .op (.erase 1)), (at_ 0, .op (.complete 0 (.ok 10)))], chk_sound (by decide),
    ⟨[(at_ 0, .get 1 100), (at_ 0, .op (.erase 1))], at_ 0, [], _, rfl, rfl, by decide⟩, by decide, by decide⟩,
   ⟨[(at_ 0, .get 1 100), (at_ 0, .op (.erase 1)), (at_ 0, .ret)], chk_sound (by decide), by decide, rfl, by decide⟩⟩

/-- C68 is false also if the functor does nothing to its own key: it stores another one, and the size limit evicts its result. -/
theorem C68_caller_forgotten_by_eviction :
    ∃ h : NHist Nat Nat Nat, NOk smallN {} h ∧ CompletedBy smallN h 1 (.ok 10) ∧ (endN smallN h).stack = [(1, 100)] ∧
      flat h = [(at_ 0, .emplace 5 50 .none), (at_ 0, .asyncGet 1 100 .later), (at_ 0, .complete 1 (.ok 10)), (at_ 0, .emplace 2 20 .none)] ∧
      ansAt smallN h (at_ 0) .ret = .out { broken := [100] } :=
  ⟨[(at_ 0, .op (.emplace 5 50 .none)), (at_ 0, .get 1 100), (at_ 0, .op (.complete 1 (.ok 10))), (at_ 0, .op (.emplace 2 20 .none))],
    chk_sound (by decide),
    ⟨[(at_ 0, .op (.emplace 5 50 .none)), (at_ 0, .get 1 100)], at_ 0, [(at_ 0, .op (.emplace 2 20 .none))], _, rfl, rfl, by decide⟩,
    by decide, rfl, by decide⟩

end Hoard.NestedAsync
