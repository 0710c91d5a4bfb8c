import Verif.HandlersQuiet
import Verif.HandlersCount
import Verif.Props.Size
/-!
# Properties: completion handlers that use the cache (C63, C64, C65)

The model is `Verif.Handlers`, the specification `Verif.Spec.Handlers`.
-/
namespace Hoard.Handlers
open Spec Demo
variable {K V E : Type} {cfg : Cfg K}

/-! ## Concrete histories -/

deriving instance DecidableEq for Ans

/-- Whether a step is possible, computed. -/
def okb (cfg : Cfg Nat) (n : HSt Nat Nat Nat) : Ev Nat Nat Nat → Bool
  | .op (.complete _ _) => false
  | .op (.drop t) => n.frames.all (fun f => f.tok != t)
  | .op (.tick r b) => decide ((Op.tick r b : Op Nat Nat Nat).ok cfg n.s) && n.frames.isEmpty
  | .op .destroy => decide ((Op.destroy : Op Nat Nat Nat).ok cfg n.s) && n.frames.isEmpty
  | .op o => decide (o.ok cfg n.s)
  | .begin tok _ => n.frames.all (fun f => f.tok != tok)
  | .next => match n.frames with
    | f :: _ => !f.todo.isEmpty
    | [] => false
  | .finish => match n.frames with
    | f :: _ => f.todo.isEmpty
    | [] => false

/-- Whether a completed lookup is still current for one of the keys, computed. -/
def curb (cfg : Cfg Nat) (ks : List Nat) (n : HSt Nat Nat Nat) (F : Hist Nat Nat Nat) : Ev Nat Nat Nat → Bool
  | .begin tok (.ok _) => !n.s.opens.contains tok || n.s.destroyed || ks.any (fun k => (ledgerAfter cfg F).valid k == some tok)
  | _ => true

/-- Whether nobody asks for a key whose failure is being delivered, computed. -/
def patb (cfg : Cfg Nat) (n : HSt Nat Nat Nat) (F : Hist Nat Nat Nat) : Ev Nat Nat Nat → Bool
  | .op (.asyncGet k _ _) => (failing n).all (fun t => (ledgerAfter cfg F).valid k != some t)
  | _ => true

/-- All of these along a history, the second only if `c`. -/
def chk (cfg : Cfg Nat) (c : Bool) (ks : List Nat) : HSt Nat Nat Nat → Hist Nat Nat Nat → Time → HHist Nat Nat Nat → Bool
  | _, _, _, [] => true
  | n, F, t, (env, e) :: h => okb cfg n e && (!c || curb cfg ks n F e) && patb cfg n F e && (n.frames.isEmpty || env.now == t) &&
    match next cfg env n e with
    | .ok n1 _ => chk cfg c ks n1 (F ++ linOf env n e) env.now h
    | _ => true

theorem ok_of_okb {cfg : Cfg Nat} {n : HSt Nat Nat Nat} {e : Ev Nat Nat Nat} (h : okb cfg n e = true) : e.ok cfg n := by
  cases e with
  | op o =>
    cases o with
    | complete t r => cases h
    | drop t =>
      refine ⟨trivial, by simp, ?_, by simp⟩
      intro f hf hd
      simp only [okb, List.all_eq_true] at h
      have := h f hf
      cases hd
      simp at this
    | tick r b =>
      simp only [okb, Bool.and_eq_true, decide_eq_true_eq, List.isEmpty_iff] at h
      exact ⟨h.1, by simp, by simp, fun _ => h.2⟩
    | destroy =>
      simp only [okb, Bool.and_eq_true, decide_eq_true_eq, List.isEmpty_iff] at h
      exact ⟨h.1, by simp, by simp, fun _ => h.2⟩
    | _ =>
      simp only [okb, decide_eq_true_eq] at h
      exact ⟨h, by simp, by simp, by simp⟩
  | begin x r =>
    simp only [okb, List.all_eq_true] at h
    intro f hf
    simpa using h f hf
  | next =>
    cases hf : n.frames with
    | nil => simp [okb, hf] at h
    | cons f fs => exact ⟨f, fs, hf, by simpa [okb, hf] using h⟩
  | finish =>
    cases hf : n.frames with
    | nil => simp [okb, hf] at h
    | cons f fs => exact ⟨f, fs, hf, by simpa [okb, hf] using h⟩

theorem chk_sound {cfg : Cfg Nat} {c : Bool} {ks : List Nat} : ∀ {h : HHist Nat Nat Nat} {n : HSt Nat Nat Nat} {F : Hist Nat Nat Nat} {t : Time}, chk cfg c ks n F t h = true →
    HOk cfg n h ∧ (c = true → Current cfg n F h) ∧ Patient cfg n F h ∧ Instant cfg n t h
  | [], _, _, _, _ => ⟨trivial, fun _ => trivial, trivial, trivial⟩
  | (env, e) :: h, n, F, t, hh => by
    simp only [chk, Bool.and_eq_true] at hh
    obtain ⟨⟨⟨⟨h1, h2⟩, h3⟩, h4⟩, h5⟩ := hh
    have h6 : ∀ n1 a, next cfg env n e = .ok n1 a → _ := fun n1 a hn => chk_sound (c := c) (ks := ks) (h := h) (n := n1) (F := F ++ linOf env n e) (t := env.now) (by rw [hn] at h5; exact h5)
    refine ⟨⟨ok_of_okb h1, fun n1 a hn => (h6 n1 a hn).1⟩, fun hc => ⟨?_, fun n1 a hn => (h6 n1 a hn).2.1 hc⟩, ⟨?_, fun n1 a hn => (h6 n1 a hn).2.2.1⟩, ⟨?_, fun n1 a hn => (h6 n1 a hn).2.2.2⟩⟩
    · rintro tok v rfl ho hd
      rw [hc] at h2
      simp only [Bool.not_true, Bool.false_or, curb, Bool.or_eq_true, List.any_eq_true, beq_iff_eq, Bool.not_eq_true'] at h2
      rcases h2 with (h2 | h2) | ⟨k, _, h2⟩
      · simp [ho] at h2
      · rw [hd] at h2; cases h2
      · exact ⟨k, h2⟩
    · rintro k w b t rfl hv ht
      simp only [patb, List.all_eq_true] at h3
      have := h3 t ht
      rw [hv] at this
      simp at this
    · intro hf
      simp only [Bool.or_eq_true, List.isEmpty_iff, beq_iff_eq] at h4
      exact h4.resolve_left hf

/-- Whether all steps are possible, computed. -/
def okAll (cfg : Cfg Nat) : HSt Nat Nat Nat → HHist Nat Nat Nat → Bool
  | _, [] => true
  | n, (env, e) :: h => okb cfg n e && match next cfg env n e with
    | .ok n1 _ => okAll cfg n1 h
    | _ => true

theorem okAll_sound {cfg : Cfg Nat} : ∀ {h : HHist Nat Nat Nat} {n : HSt Nat Nat Nat}, okAll cfg n h = true → HOk cfg n h
  | [], _, _ => trivial
  | (env, e) :: h, n, hh => by
    simp only [okAll, Bool.and_eq_true] at hh
    exact ⟨ok_of_okb hh.1, fun n1 a hn => okAll_sound (by have := hh.2; rw [hn] at this; exact this)⟩

theorem within_of_take {cfg : Cfg Nat} {N : Nat} {h : Hist Nat Nat Nat} (hh : ∀ i, i ≤ h.length → (stateAfter cfg (h.take i)).size ≤ N) : WithinH cfg N h := by
  intro a b hab
  have := hh a.length (by rw [hab]; simp)
  rwa [hab, List.take_left] at this

/-- A cache without limits, with a resolver that completes later. -/
def asyncH : Cfg Nat := { plain with resolver := .async }

/-- The same with a limit of 3 entries and an age limit of 5. -/
def smallH : Cfg Nat := { plain with resolver := .async, maxSize := some 3, maxAge := some 5 }

theorem asyncH_ok : asyncH.Ok := nat_ok rfl (by intro d i h; cases h)
theorem smallH_ok : smallH.Ok := nat_ok rfl (by intro d i h; cases h)

/-- Two waiters for key 1, one for key 2.  Lookup 0 (of key 1) succeeds with 10.  The first handler looks at key 1, and asks for it once
more.  While the second one runs, it erases key 1, and lookup 1 (of key 2) fails; the handler of that looks at key 2
and stores something under key 3. -/
def nest : HHist Nat Nat Nat :=
  [(at_ 0, .op (.asyncGet 1 70 .later)), (at_ 0, .op (.asyncGet 1 71 .later)), (at_ 1, .op (.asyncGet 2 72 .later)),
   (at_ 2, .begin 0 (.ok 10)), (at_ 2, .next), (at_ 2, .op (.getIfExists 1)), (at_ 2, .op (.asyncGet 1 73 .later)),
   (at_ 2, .next), (at_ 2, .op (.erase 1)), (at_ 2, .begin 1 (.err 9)), (at_ 2, .next), (at_ 2, .op (.getIfExists 2)),
   (at_ 2, .op (.emplace 3 33 .none)), (at_ 2, .finish), (at_ 2, .finish)]

theorem nest_orderly : Orderly asyncH nest :=
  have h := chk_sound (cfg := asyncH) (c := true) (ks := [1, 2]) (h := nest) (n := {}) (F := []) (t := ⟨0, 0⟩) (by decide +kernel)
  ⟨h.1, h.2.1 rfl, mono_at [0, 0, 1, 2, 2, 2, 2, 2, 2, 2, 2, 2, 2, 2, 2] (by decide), by simp [asyncH, plain], fun _ => h.2.2.2⟩

theorem nest_small : Orderly smallH nest :=
  have h := chk_sound (cfg := smallH) (c := true) (ks := [1, 2]) (h := nest) (n := {}) (F := []) (t := ⟨0, 0⟩) (by decide +kernel)
  ⟨h.1, h.2.1 rfl, mono_at [0, 0, 1, 2, 2, 2, 2, 2, 2, 2, 2, 2, 2, 2, 2] (by decide),
   fun N hN => by cases hN; exact within_of_take (by decide +kernel), fun _ => h.2.2.2⟩

/-- What is seen of it, and what it counts as. -/
example : ((runH smallH {} nest).map (·.2)) = some
    [.out { calls := [(1, 0)] }, .out {}, .out { calls := [(2, 1)] },
     .begun, .ran 70 (.ok 10), .out { ret := .val 10 }, .out { fired := [(73, .ok 10)] },
     .ran 71 (.ok 10), .out {}, .begun, .ran 72 (.err 9), .out { ret := .miss },
     .out { made := true }, .finished, .finished] := by decide +kernel

/-! ## C63 -/

/-- C63, first part.  For every cache and every history: a completion whose handlers do not use the cache (all handlers are invoked, and
nothing else happens meanwhile) has the same effect, and answers the same waiters in the same order, as the
completion in one step of `Verif.Cache`. -/
theorem C63_idle_handlers_change_nothing (hc : cfg.Ok) (h : Hist K V E) (hok : HistOk cfg St.init h) (env : Env V) (tok : Nat) (r : Res V E)
    (hd : (outAt cfg h env (.complete tok r)).ret = .bool true) :
    ∃ m as, runH cfg { s := stateAfter cfg h } ((env, .begin tok r) :: (List.replicate m (env, .next) ++ [(env, .finish)])) =
        some ({ s := stateAfter cfg (h ++ [(env, .complete tok r)]) }, as) ∧
      answeredH as = (outAt cfg h env (.complete tok r)).fired ∧ brokenH as = (outAt cfg h env (.complete tok r)).broken := by
  have hd' : (complete cfg env (stateAfter cfg h) tok r).2.ret = .bool true := hd
  by_cases hx : tok ∈ (stateAfter cfg h).opens
  · rcases Bool.eq_false_or_eq_true (stateAfter cfg h).destroyed with hde | hde
    · simp [complete, hx, hde] at hd'
    · rw [stateAfter_snoc]
      exact quiet hc hok env r hx hde
  · simp [complete, hx] at hd'

/-- A lookup with two waiters; and one started by refreshing. -/
example : ∃ (h : Hist Nat Nat Nat), HistOk { asyncH with refresh := some (3, 9) } St.init h ∧
    (outAt { asyncH with refresh := some (3, 9) } h (at_ 5) (.complete 2 (.ok 8))).ret = .bool true ∧
    (stateAfter { asyncH with refresh := some (3, 9) } h).ents.length = 3 ∧
    (outAt { asyncH with refresh := some (3, 9) } h (at_ 5) (.complete 1 (.ok 8))).fired = [(71, .ok 8), (72, .ok 8)] :=
  ⟨[(at_ 0, .asyncGet 1 70 (.now (.ok 3))), (at_ 2, .asyncGet 2 71 .later), (at_ 2, .asyncGet 2 72 .later), (at_ 4, .tick (.err 0) .later)],
   by decide, by decide, by decide, by decide⟩

/-- C63.  Completion handlers may use the cache.  Every operation, also one by a handler in the middle of a completion, or of completions
inside completions, has exactly the result it has in the plain history in which completions take no time (`lin`: a success counts
where it begins, a failure where it ends), and that plain history is a possible one; so everything proved
about plain histories holds.  It is partial because of the conditions in `Orderly` and because there is no
refreshing.  That they are needed: `C63_stale_success_is_seen`, `C63_eviction_by_handler_is_undefined`, `C63_erase_by_handler_corrupts_queue`. -/
theorem C63_answers_as_if_instant_partial (hc : cfg.Ok) (hr : cfg.refresh = none) (hA : ∀ A, cfg.maxAge = some A → 0 < A)
    (h : HHist K V E) (env : Env V) (o : Op K V E) (ho : Orderly cfg (h ++ [(env, .op o)]))
    (n : HSt K V E) (as : List (Ans K V E)) (hh : runH cfg {} h = some (n, as)) (n1 : HSt K V E) (a : Ans K V E) (hn : next cfg env n (.op o) = .ok n1 a) :
    HistOk cfg St.init (lin cfg {} h ++ [(env, o)]) ∧ a = .out (outAt cfg (lin cfg {} h) env o) := by
  obtain ⟨t, hs, hw⟩ := sim_split hc hr hA h ho.needs sim_init hh
  simp only [List.nil_append] at hs hw
  have h1 := (hw.sim hc hr hA hs hn).ok
  refine ⟨h1, ?_⟩
  obtain ⟨l, e1, _⟩ := hs.step hc hr hA hw.ok.1 (fun h1 => (hw.inst h1).1)
  simp only [next] at hn
  split at hn
  · cases hn
  · cases hn
    rw [e1]; rfl

/-- C63, state: when no completion is under way, the cache is in exactly the state it is in after the plain history. -/
theorem C63_state_as_if_instant_partial (hc : cfg.Ok) (hr : cfg.refresh = none) (hA : ∀ A, cfg.maxAge = some A → 0 < A)
    (h : HHist K V E) (ho : Orderly cfg h) (n : HSt K V E) (as : List (Ans K V E)) (hh : runH cfg {} h = some (n, as)) (hf : n.frames = []) :
    n.s = stateAfter cfg (lin cfg {} h) := by
  obtain ⟨t, hs⟩ := sim_runH hc hr hA h ho.needs sim_init hh
  simpa using hs.eq hf

/-- C63, undefined behaviour: if moreover nobody calls `async_get` for a key while the failure of the lookup of that key is being delivered
(`Patient`), nothing undefined happens and the program is not terminated.  Without it: `C63_retry_in_handler_is_undefined`. -/
theorem C63_nothing_undefined_partial (hc : cfg.Ok) (hr : cfg.refresh = none) (hA : ∀ A, cfg.maxAge = some A → 0 < A)
    (h : HHist K V E) (ho : Orderly cfg h) (hp : Patient cfg {} [] h) : ∃ n as, runH cfg {} h = some (n, as) :=
  sim_runs hc hr hA h ho.needs hp sim_init

/-- The history `nest` is as required, with and without limits.  What it counts as has ten operations. -/
example : Orderly smallH nest ∧ Patient smallH {} [] nest ∧ smallH.refresh = none ∧ (∀ A, smallH.maxAge = some A → 0 < A) ∧
    (lin smallH {} nest).length = 10 ∧ ((runH smallH {} nest).map (·.1.frames.length)) = some 0 :=
  ⟨nest_small, (chk_sound (c := true) (ks := [1, 2]) (t := ⟨0, 0⟩) (by decide +kernel)).2.2.1, rfl, by intro A h; cases h; decide, by decide +kernel, by decide +kernel⟩

/-- C63 is false without `Patient`: a handler that, told that the lookup of key 1 failed, asks for key 1 again, makes `async_get` append to the
list of callbacks that is being iterated over. -/
theorem C63_retry_in_handler_is_undefined : ∃ (h : HHist Nat Nat Nat) (n : HSt Nat Nat Nat) (as : List (Ans Nat Nat Nat)),
    Orderly asyncH h ∧ runH asyncH {} h = some (n, as) ∧ (Ev.op (.asyncGet 1 71 .later) : Ev Nat Nat Nat).ok asyncH n ∧
    as = [.out { calls := [(1, 0)] }, .begun, .ran 70 (.err 9)] ∧
    next asyncH (at_ 1) n (.op (.asyncGet 1 71 .later)) = .ub := by
  refine ⟨[(at_ 0, .op (.asyncGet 1 70 .later)), (at_ 1, .begin 0 (.err 9)), (at_ 1, .next)], _, _, ?_, rfl, ok_of_okb (by decide), rfl, rfl⟩
  have h := chk_sound (cfg := asyncH) (c := true) (ks := [1, 2]) (h := [(at_ 0, .op (.asyncGet 1 70 .later)), (at_ 1, .begin 0 (.err 9)), (at_ 1, .next)]) (n := {}) (F := []) (t := ⟨0, 0⟩) (by decide +kernel)
  exact ⟨h.1, h.2.1 rfl, mono_at [0, 1, 1] (by decide), by simp [asyncH, plain], fun _ => h.2.2.2⟩

/-- C63 is false if a handler makes the cache evict something: a cache of at most one entry, two waiters for key 1.  The
handler of the first asks for key 2 twice and stores key 3; this evicts key 1; the value is destroyed, and the second handler is given a reference to it. -/
theorem C63_eviction_by_handler_is_undefined :
    let cfg : Cfg Nat := { asyncH with maxSize := some 1 }
    ∃ (h : HHist Nat Nat Nat) (n : HSt Nat Nat Nat) (as : List (Ans Nat Nat Nat)),
      HOk cfg {} h ∧ Current cfg {} [] h ∧ Patient cfg {} [] h ∧ runH cfg {} h = some (n, as) ∧ (Ev.next : Ev Nat Nat Nat).ok cfg n ∧
      as = [.out { calls := [(1, 0)] }, .out {}, .begun, .ran 70 (.ok 10), .out { calls := [(2, 1)] }, .out {}, .out { made := true }] ∧
      next cfg (at_ 1) n .next = .ub := by
  have h := chk_sound (cfg := { asyncH with maxSize := some 1 }) (c := true) (ks := [1, 2]) (n := {}) (F := []) (t := ⟨1, 1⟩)
    (h := [(at_ 1, .op (.asyncGet 1 70 .later)), (at_ 1, .op (.asyncGet 1 71 .later)), (at_ 1, .begin 0 (.ok 10)), (at_ 1, .next), (at_ 1, .op (.asyncGet 2 72 .later)), (at_ 1, .op (.asyncGet 2 73 .later)), (at_ 1, .op (.emplace 3 30 .none))]) (by decide +kernel)
  exact ⟨_, _, _, h.1, h.2.1 rfl, h.2.2.1, rfl, ok_of_okb (by decide +kernel), by decide +kernel, rfl⟩

/-- C63 is false for lookups that are no longer current: key 1 is erased while its lookup is under way.  When the lookup completes, the value is
not kept; but a handler that looks sees it. -/
theorem C63_stale_success_is_seen :
    ∃ (h : HHist Nat Nat Nat) (n : HSt Nat Nat Nat) (as : List (Ans Nat Nat Nat)),
      HOk asyncH {} h ∧ Patient asyncH {} [] h ∧ runH asyncH {} h = some (n, as) ∧ (Ev.op (.getIfExists 1) : Ev Nat Nat Nat).ok asyncH n ∧
      as = [.out { calls := [(1, 0)] }, .out {}, .begun, .ran 70 (.ok 10)] ∧
      (∃ n1, next asyncH (at_ 1) n (.op (.getIfExists 1)) = .ok n1 (.out { ret := .val 10 })) ∧
      (outAt asyncH (lin asyncH {} h) (at_ 1) (.getIfExists 1)).ret = .miss := by
  have h := chk_sound (cfg := asyncH) (c := false) (ks := []) (n := {}) (F := []) (t := ⟨0, 0⟩)
    (h := [(at_ 0, .op (.asyncGet 1 70 .later)), (at_ 0, .op (.erase 1)), (at_ 1, .begin 0 (.ok 10)), (at_ 1, .next)]) (by decide +kernel)
  exact ⟨_, _, _, h.1, h.2.2.1, rfl, ok_of_okb (by decide +kernel), by decide +kernel, ⟨_, rfl⟩, by decide +kernel⟩

/-- C63 is false with refreshing: a handler erases the key it was told about.  The entry leaves the table; after that, the end of the
completion puts it into the queue of entries to be refreshed. -/
theorem C63_erase_by_handler_corrupts_queue :
    let cfg : Cfg Nat := { asyncH with refresh := some (3, 4) }
    ∃ (h : HHist Nat Nat Nat) (n : HSt Nat Nat Nat) (as : List (Ans Nat Nat Nat)), HOk cfg {} h ∧ Current cfg {} [] h ∧ Patient cfg {} [] h ∧
      runH cfg {} h = some (n, as) ∧ n.frames = [] ∧ n.s.ents.map (·.id) = [] ∧ n.s.delayQ = [0] := by
  have h := chk_sound (cfg := { asyncH with refresh := some (3, 4) }) (c := true) (ks := [1, 2]) (n := {}) (F := []) (t := ⟨1, 1⟩)
    (h := [(at_ 1, .op (.asyncGet 1 70 .later)), (at_ 1, .begin 0 (.ok 10)), (at_ 1, .next), (at_ 1, .op (.erase 1)), (at_ 1, .finish)]) (by decide +kernel)
  exact ⟨_, _, _, h.1, h.2.1 rfl, h.2.2.1, rfl, rfl, by decide +kernel, by decide +kernel⟩

/-- C63, waiters: when no completion is under way, exactly the waiters have been answered, with exactly the results, as in
the plain history; and the same ones were dropped. -/
theorem C63_waiters_as_if_instant_partial (hc : cfg.Ok) (hr : cfg.refresh = none) (hA : ∀ A, cfg.maxAge = some A → 0 < A)
    (h : HHist K V E) (ho : Orderly cfg h) (n : HSt K V E) (as : List (Ans K V E)) (hh : runH cfg {} h = some (n, as)) (hf : n.frames = []) :
    (answeredH as).Perm (answeredIn (outsOf cfg (lin cfg {} h))) ∧ brokenH as = brokenW (outsOf cfg (lin cfg {} h)) := by
  obtain ⟨t, hs⟩ := sim_runH hc hr hA h ho.needs sim_init hh
  simp only [List.nil_append] at hs
  have hb := broken_runH hc hr hA h ho.needs sim_init (by rfl) hh
  simp only [List.nil_append] at hb
  refine ⟨?_, hb⟩
  have := hs.per
  simpa [owed, early, hf, outsOf] using this

/-! ## C64 -/

/-- The size of the table never matters if there is no limit. -/
theorem noEvict_unlimited (hN : cfg.maxSize = none) : ∀ (s : St K V E) (h : Hist K V E), NoEvictH cfg s h
  | _, [] => fun N hN' => by rw [hN] at hN'; cases hN'
  | _, (_, _) :: h => ⟨fun N hN' => (by rw [hN] at hN'; cases hN'), noEvict_unlimited hN _ h⟩

/-- Without eviction and refreshing, a value written and kept is the answer. -/
theorem kept_answer (hc : cfg.Ok) (hr : cfg.refresh = none) (h1 h2 : Hist K V E) (e1 : Env V) (o1 : Op K V E)
    (hok : HistOk cfg St.init (h1 ++ (e1, o1) :: h2)) (hin : ∀ N, cfg.maxSize = some N → WithinH cfg N (h1 ++ (e1, o1) :: h2)) (k : K) (v : V)
    (hw : WritesAt cfg k v h1 e1 o1) (hk : Kept cfg k (h1 ++ [(e1, o1)]) h2) (env : Env V)
    (hm : Mono ((h1 ++ (e1, o1) :: h2).map (·.1) ++ [env])) (hage : ∀ A, cfg.maxAge = some A → Younger cfg.wall A e1.now env.now)
    (o : Op K V E) (ho : o.ok cfg (stateAfter cfg (h1 ++ (e1, o1) :: h2))) (ha : Asks k o) : StoredAnswer cfg k v (h1 ++ (e1, o1) :: h2) env o := by
  cases hN : cfg.maxSize with
  | some N => exact Props.C11_no_eviction_within_limit hc N hN h1 h2 e1 o1 hok (hin N hN) k v hw hk env hm hage (by rw [hr]; rfl) o ho ha
  | none =>
    have hkf := kept_facts hk
    rw [ledgerAfter_snoc, (after_writes hw).2.1, (after_writes hw).1, show h1 ++ [(e1, o1)] ++ h2 = h1 ++ (e1, o1) :: h2 by simp] at hkf
    have g := good_exact hc _ hok env hm (noEvict_unlimited hN _ _)
    have hp : (getIfExists cfg env (stateAfter cfg (h1 ++ (e1, o1) :: h2)) k).ret = .val v := by
      rcases (getIfExists_ok hc g k).2 with ⟨u, hu, hv, _⟩ | ⟨_, hd⟩
      · rw [hkf.1] at hv; cases hv; exact hu
      · exfalso
        rcases hd trivial v hkf.1 with hd | hd | hd
        · simp only [Ledger.ageLimit] at hd
          cases hA : cfg.maxAge with
          | none => rw [hA] at hd; cases hd
          | some A =>
            rw [hA, hkf.2.1] at hd
            have := hage A hA
            exact (not_past _ _ _ _).2 this hd
        · rw [hr] at hd; cases hd
        · rw [hN] at hd; cases hd.1
    exact stored_of_peek hc g.wf1 g.wf2 hp ho ha

theorem Sim.begun {t : Time} {n n1 : HSt K V E} {F : Hist K V E} {as : List (Ans K V E)} (hs : Sim cfg t n F as) {env : Env V} {tok : Nat} {r : Res V E}
    (he : (Ev.begin tok r : Ev K V E).ok cfg n) (hb : next cfg env n (.begin tok r) = .ok n1 .begun) :
    tok ∈ (stateAfter cfg F).opens ∧ (stateAfter cfg F).destroyed = false := by
  simp only [next, begin_] at hb
  by_cases hx : tok ∈ n.s.opens ∧ n.s.destroyed = false
  · exact ⟨(hs.open_iff he).1 hx.1, by rw [hs.destroyed]; exact hx.2⟩
  · rw [if_neg hx] at hb; cases hb

/-- C64.  A handler sees the value it is told.  Once the completion of the current lookup of `k` with `v` has begun, whoever asks for `k`,
a handler or anybody later, is answered with `v`, without asking the resolver, until the key is written or erased, or the age limit
(counted from the beginning of the completion) is reached.  Partial as C63. -/
theorem C64_value_seen_from_the_beginning_partial (hc : cfg.Ok) (hr : cfg.refresh = none) (hA : ∀ A, cfg.maxAge = some A → 0 < A)
    (h1 h2 : HHist K V E) (e1 env : Env V) (tok : Nat) (v : V) (k : K) (o : Op K V E)
    (ho : Orderly cfg (h1 ++ (e1, .begin tok (.ok v)) :: h2 ++ [(env, .op o)]))
    (n1 n2 n n' : HSt K V E) (as1 as : List (Ans K V E)) (a : Ans K V E)
    (hh1 : runH cfg {} h1 = some (n1, as1)) (hb : next cfg e1 n1 (.begin tok (.ok v)) = .ok n2 .begun)
    (hh : runH cfg {} (h1 ++ (e1, .begin tok (.ok v)) :: h2) = some (n, as))
    (hv : (ledgerAfter cfg (lin cfg {} h1)).valid k = some tok)
    (hk : Kept cfg k (lin cfg {} h1 ++ [(e1, .complete tok (.ok v))]) (lin cfg n2 h2))
    (hage : ∀ A, cfg.maxAge = some A → Younger cfg.wall A e1.now env.now)
    (ha : Asks k o) (hn : next cfg env n (.op o) = .ok n' a) :
    ∃ out, a = .out out ∧ answered o out = some (k, v) ∧ out.calls = [] ∧ out.made = false := by
  obtain ⟨q1, q2⟩ := C63_answers_as_if_instant_partial hc hr hA _ env o ho n as hh n' a hn
  obtain ⟨t, hs, hw⟩ := sim_split hc hr hA h1 (h2 := (e1, .begin tok (.ok v)) :: h2 ++ [(env, .op o)]) (by rw [← List.append_assoc]; exact ho.needs) sim_init hh1
  simp only [List.nil_append] at hs hw
  have hlin : lin cfg {} (h1 ++ (e1, .begin tok (.ok v)) :: h2) = lin cfg {} h1 ++ (e1, .complete tok (.ok v)) :: lin cfg n2 h2 := by
    rw [lin_append h1 _ hh1, lin_cons hb]; rfl
  refine ⟨_, q2, ?_⟩
  have hb' := hs.begun hw.ok.1 hb
  rw [hlin] at q1 ⊢
  have q3 := (HistOk_append.1 q1).1
  have q4 := (HistOk_append.1 q1).2.1
  refine kept_answer hc hr _ _ e1 (.complete tok (.ok v)) q3 ?_ k v ⟨hv, ?_, rfl⟩ hk env ?_ hage o q4 ha
  · intro N hN
    obtain ⟨t2, hs2, hw2⟩ := sim_split hc hr hA (h1 ++ (e1, .begin tok (.ok v)) :: h2) (h2 := [(env, .op o)]) ho.needs sim_init hh
    have := hw2.within N hN
    simp only [List.nil_append] at this
    rw [hlin] at this
    exact this.prefix
  · simp only [outAt, step, complete_pos hb'.1 hb'.2]
  · obtain ⟨t2, hs2, hw2⟩ := sim_split hc hr hA (h1 ++ (e1, .begin tok (.ok v)) :: h2) (h2 := [(env, .op o)]) ho.needs sim_init hh
    have := hw2.mono
    simp only [List.nil_append] at this
    rw [hlin] at this
    simpa using this

/-- C64, failures.  While the failure of the current lookup of `k` is being delivered, `get_if_exists` of `k` finds nothing (neither an
older value, nor the error).  Partial as C63. -/
theorem C64_nothing_there_while_failing_partial (hc : cfg.Ok) (hr : cfg.refresh = none) (hA : ∀ A, cfg.maxAge = some A → 0 < A)
    (h : HHist K V E) (env : Env V) (tok : Nat) (k : K) (ho : Orderly cfg (h ++ [(env, .op (.getIfExists k))]))
    (n n' : HSt K V E) (as : List (Ans K V E)) (a : Ans K V E) (hh : runH cfg {} h = some (n, as)) (hf : tok ∈ failing n)
    (hv : (ledgerAfter cfg (lin cfg {} h)).valid k = some tok) (hn : next cfg env n (.op (.getIfExists k)) = .ok n' a) :
    a = .out { ret := .miss } := by
  obtain ⟨q1, q2⟩ := C63_answers_as_if_instant_partial hc hr hA _ env _ ho n as hh n' a hn
  obtain ⟨t, hs, hw⟩ := sim_split hc hr hA h ho.needs sim_init hh
  simp only [List.nil_append] at hs hw
  obtain ⟨f, hf1, hf2, rfl⟩ := failing_mem.1 hf
  have hd : (stateAfter cfg (lin cfg {} h)).destroyed = false := by
    rw [hs.destroyed]; exact hs.des (by intro h0; rw [h0] at hf1; cases hf1)
  have g := good_any hc (lin cfg {} h) hs.ok env
  obtain ⟨hx, T, hT, hTi, _, _, _, hall⟩ := (g.p k).c3 hd _ hv
  obtain ⟨e, p, he, hei, hp, _, _, husr, _⟩ := open_entry hc hr hs.ok hd hx
  have : T = e := eq_of_id g.wf1 hT he (hTi.trans hei.symm)
  subst this
  rw [q2]
  simp only [outAt, step, getIfExists_eq hc g.wf1.placed]
  cases hf : (stateAfter cfg (lin cfg {} h)).ents.find? (isHit cfg env k false) with
  | none => rfl
  | some e =>
    exfalso
    obtain ⟨he, hk, _, ⟨u, h1, _⟩ | ⟨h1, _⟩⟩ := hit_facts hf
    · have := hall e he (by rw [h1]; simp) hk
      rw [hp] at this
      obtain ⟨w, hw⟩ := husr _ this
      cases hw
    · cases h1

/-- Both happen in `nest`: `get_if_exists` and `async_get` of key 1 (sixth and seventh step), `get_if_exists` of key 2 (twelfth). -/
example : nest.take 4 = nest.take 3 ++ [(at_ 2, .begin 0 (.ok 10))] ∧ (ledgerAfter smallH (lin smallH {} (nest.take 3))).valid 1 = some 0 ∧
    (∃ n as n2, runH smallH {} (nest.take 3) = some (n, as) ∧ next smallH (at_ 2) n (.begin 0 (.ok 10)) = .ok n2 .begun) ∧
    (∃ n as, runH smallH {} (nest.take 11) = some (n, as) ∧ 1 ∈ failing n) ∧ (ledgerAfter smallH (lin smallH {} (nest.take 11))).valid 2 = some 1 :=
  ⟨rfl, by decide +kernel, ⟨_, _, _, rfl, rfl⟩, ⟨_, _, rfl, by decide +kernel⟩, by decide +kernel⟩

/-! ## C65 -/

/-- C65.  Whatever handlers do, no waiter is answered, or dropped, more often than it was handed in; in particular never twice if no
waiter is handed in twice; at any time, also in the middle of completions.  Only that there is no refreshing is needed; none of the conditions
of C63. -/
theorem C65_settled_at_most_once (hc : cfg.Ok) (hr : cfg.refresh = none) (h : HHist K V E) (ho : HOk cfg {} h)
    (n : HSt K V E) (as : List (Ans K V E)) (hh : runH cfg {} h = some (n, as)) (w : Nat) :
    ((answeredH as).map (·.1)).count w + (brokenH as).count w ≤ (askedH h).count w := by
  obtain ⟨I, A⟩ := HInv.run hc hr h hinv_init ho hh
  have h1 := A w
  have h2 := I.early_le w
  have h3 : Wt w ({} : HSt K V E).s = 0 ∧ owedN w ({} : HSt K V E) = 0 ∧ earlyN w ({} : HSt K V E) = 0 := ⟨rfl, rfl, rfl⟩
  omega

/-- C65, in the end: once the cache is destroyed, every waiter has been answered or dropped exactly as often as it was handed in,
whatever handlers did. -/
theorem C65_all_settled_in_the_end (hc : cfg.Ok) (hr : cfg.refresh = none) (h : HHist K V E) (ho : HOk cfg {} h)
    (n : HSt K V E) (as : List (Ans K V E)) (hh : runH cfg {} h = some (n, as)) (hd : n.s.destroyed = true) (w : Nat) :
    ((answeredH as).map (·.1)).count w + (brokenH as).count w = (askedH h).count w := by
  obtain ⟨I, A⟩ := HInv.run hc hr h hinv_init ho hh
  have h1 := A w
  have h2 := dead_run hc hr h hinv_init (fun q => by cases q) ho hh hd w
  have hf : n.frames = [] := Classical.byContradiction fun q => by have := I.des q; rw [hd] at this; cases this
  have h4 : owedN w n = 0 ∧ earlyN w n = 0 := by simp [owedN, earlyN, owed, early, hf]
  have h3 : Wt w ({} : HSt K V E).s = 0 ∧ owedN w ({} : HSt K V E) = 0 ∧ earlyN w ({} : HSt K V E) = 0 := ⟨rfl, rfl, rfl⟩
  omega

/-- Two waiters for key 1, whose lookup is made obsolete by `erase`; it succeeds all the same.  Its first handler asks for key 2; the failure
of that is delivered before the second handler runs, and its handler stores something in a full cache.  One lookup never completes. -/
def wild : HHist Nat Nat Nat :=
  [(at_ 0, .op (.asyncGet 1 70 .later)), (at_ 0, .op (.asyncGet 1 71 .later)), (at_ 0, .op (.erase 1)),
   (at_ 1, .begin 0 (.ok 10)), (at_ 1, .next), (at_ 1, .op (.asyncGet 2 72 .later)), (at_ 2, .begin 1 (.err 9)), (at_ 2, .next),
   (at_ 9, .op (.emplace 3 33 .none)), (at_ 9, .finish), (at_ 9, .next), (at_ 9, .finish), (at_ 9, .op (.asyncGet 4 73 .later)), (at_ 9, .op .destroy)]

/-- The theorems apply to it, though it is not orderly. -/
example : HOk { smallH with maxSize := some 2 } {} wild ∧ askedH wild = [70, 71, 72, 73] ∧
    ((runH { smallH with maxSize := some 2 } {} wild).map (fun p => (p.1.s.destroyed, answeredH p.2, brokenH p.2))) = some (true, [(70, .ok 10), (72, .err 9), (71, .ok 10)], [73]) ∧
    ¬ Orderly { smallH with maxSize := some 2 } wild := by
  refine ⟨okAll_sound (by decide +kernel), by decide +kernel, by decide +kernel, ?_⟩
  intro h
  have i := (((((((h.inst (by decide)).2 _ _ rfl).2 _ _ rfl).2 _ _ rfl).2 _ _ rfl).2 _ _ rfl).2 _ _ rfl).1 (by intro q; cases q)
  cases i

/-- In `nest`, four waiters are handed in and answered. -/
example : askedH nest = [70, 71, 72, 73] ∧ ((runH smallH {} nest).map (fun p => answeredH p.2)) = some [(70, .ok 10), (73, .ok 10), (71, .ok 10), (72, .err 9)] ∧
    (askedH nest).Nodup := by decide +kernel

end Hoard.Handlers
