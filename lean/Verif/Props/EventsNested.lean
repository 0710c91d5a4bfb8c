import Verif.EventsNestedLemmas
import Verif.Props.Nested
import Verif.Props.NestedAsync
import Verif.Props.Handlers
/-!
# C114: the calls that policies see while resolvers and handlers use the cache

The model is `Verif.EventsNested`, the specification the last part of `Verif.Spec.Events`.
-/
namespace Hoard.Events
variable {K V E : Type} {cfg : Cfg K}

theorem given_assigned (i : Nat) (evs : List Ev) : ∀ b : Book, i ∈ (b.notes evs).given → i ∈ b.given ∨ ∃ value callback, .assign i value callback ∈ evs := by
  induction evs with
  | nil => intro b h; exact .inl h
  | cons x evs ih =>
    intro b h
    rcases ih _ h with h | ⟨a, c, h⟩
    · cases x with
      | assign j a c =>
        rcases List.mem_cons.1 h with h | h
        · exact .inr ⟨a, c, by simp [h]⟩
        · exact .inl h
      | _ => exact .inl h
    · exact .inr ⟨a, c, List.mem_cons_of_mem _ h⟩

theorem handled_said (h : Handlers.HHist K V E) : ∀ (n : Handlers.HSt K V E) (i : Nat) (value callback : Bool), .assign i value callback ∈ handledTrace cfg n h →
    (∃ env o x, (env, .op o) ∈ h ∧ brings (decide (cfg.resolver = .async)) o = some x ∧ Fits value callback x) ∨
    (∃ f ∈ n.frames, f.tok = i ∧ Fits value callback (f.r, true)) ∨ ∃ env r, (env, .begin i r) ∈ h ∧ Fits value callback (r, true) := by
  induction h with
  | nil => intro n i v c hm; cases hm
  | cons p h ih =>
    obtain ⟨env, e⟩ := p
    intro n i v c hm
    simp only [handledTrace] at hm
    split at hm
    · rename_i n1 a hn
      rcases List.mem_append.1 hm with hm | hm
      · cases e with
        | op o => obtain ⟨x, h1, h2⟩ := said_events o i v c hm; exact .inl ⟨env, o, x, List.mem_cons_self, h1, h2⟩
        | begin t r => cases hm
        | next => cases hm
        | finish =>
          simp only [handled] at hm
          split at hm
          · cases hm
          · rename_i f fs hf
            rw [List.mem_singleton] at hm
            cases hm
            refine .inr (.inl ⟨f, by rw [hf]; exact List.mem_cons_self, rfl, ?_, rfl⟩)
            cases f.r <;> simp [Handlers.failed]
      · rcases ih n1 i v c hm with ⟨env', o, x, h1, h2⟩ | ⟨f, hf, h1, h2⟩ | ⟨env', r, h1, h2⟩
        · exact .inl ⟨env', o, x, List.mem_cons_of_mem _ h1, h2⟩
        · have key : (∃ f' ∈ n.frames, f'.tok = f.tok ∧ f'.r = f.r) ∨ e = .begin f.tok f.r := by
            cases e with
            | op o =>
              simp only [Handlers.next] at hn
              split at hn
              · cases hn
              · simp only [Handlers.Outcome.ok.injEq] at hn
                obtain ⟨rfl, _⟩ := hn
                exact .inl ⟨f, hf, rfl, rfl⟩
            | begin t r =>
              simp only [Handlers.next, Handlers.begin_] at hn
              split at hn
              · split at hn
                · cases hn
                · split at hn
                  · cases r with
                    | ok v =>
                      simp only [Handlers.Outcome.ok.injEq] at hn
                      obtain ⟨rfl, _⟩ := hn
                      rcases List.mem_cons.1 hf with rfl | hf
                      · exact .inr rfl
                      · exact .inl ⟨f, hf, rfl, rfl⟩
                    | err x =>
                      simp only [Handlers.Outcome.ok.injEq] at hn
                      obtain ⟨rfl, _⟩ := hn
                      rcases List.mem_cons.1 hf with rfl | hf
                      · exact .inr rfl
                      · exact .inl ⟨f, hf, rfl, rfl⟩
                  · cases hn
              · simp only [Handlers.Outcome.ok.injEq] at hn
                obtain ⟨rfl, _⟩ := hn
                exact .inl ⟨f, hf, rfl, rfl⟩
            | next =>
              simp only [Handlers.next, Handlers.next_] at hn
              split at hn
              · simp only [Handlers.Outcome.ok.injEq] at hn; obtain ⟨rfl, _⟩ := hn; exact .inl ⟨f, hf, rfl, rfl⟩
              · rename_i g gs hg
                have hin : ∀ {g' : Handlers.Frame V E}, f ∈ g' :: gs → g'.tok = g.tok → g'.r = g.r → ∃ f' ∈ n.frames, f'.tok = f.tok ∧ f'.r = f.r := by
                  intro g' q q1 q2
                  rw [hg]
                  rcases List.mem_cons.1 q with rfl | q
                  · exact ⟨g, List.mem_cons_self, q1.symm, q2.symm⟩
                  · exact ⟨f, List.mem_cons_of_mem _ q, rfl, rfl⟩
                split at hn
                · simp only [Handlers.Outcome.ok.injEq] at hn; obtain ⟨rfl, _⟩ := hn; exact .inl ⟨f, hf, rfl, rfl⟩
                · split at hn
                  · cases hn
                  · simp only [Handlers.Outcome.ok.injEq] at hn; obtain ⟨rfl, _⟩ := hn
                    exact .inl (hin hf rfl rfl)
                · simp only [Handlers.Outcome.ok.injEq] at hn; obtain ⟨rfl, _⟩ := hn
                  exact .inl (hin hf rfl rfl)
            | finish =>
              simp only [Handlers.next, Handlers.finish_] at hn
              split at hn
              · simp only [Handlers.Outcome.ok.injEq] at hn; obtain ⟨rfl, _⟩ := hn; exact .inl ⟨f, hf, rfl, rfl⟩
              · rename_i g gs hg
                split at hn
                · cases hn
                · simp only [Handlers.Outcome.ok.injEq] at hn; obtain ⟨rfl, _⟩ := hn
                  exact .inl ⟨f, by rw [hg]; exact List.mem_cons_of_mem _ hf, rfl, rfl⟩
          rcases key with ⟨f', hf', q1, q2⟩ | rfl
          · exact .inr (.inl ⟨f', hf', q1.trans h1, by rw [q2]; exact h2⟩)
          · exact .inr (.inr ⟨env, f.r, by rw [← h1]; exact List.mem_cons_self, h2⟩)
        · exact .inr (.inr ⟨env', r, List.mem_cons_of_mem _ h1, h2⟩)
    · cases hm

end Hoard.Events

namespace Hoard.Props
open Spec Demo Events
variable {K V E : Type} {cfg : Cfg K}

/-! ## Synchronous resolvers -/

/-- C114.  Whatever synchronous resolvers do with the cache, at any depth of nesting, all calls make sense to policies. -/
theorem C114_nested_calls_make_sense (hc : cfg.Ok) (hr : cfg.resolver = .sync) (h : Nested.NHist K V E) (hok : Nested.NOk cfg {} h) :
    Book.accepts {} (nestedTrace cfg {} h) := (nested_knows hc hr h hok).1

/-- C114.  At any time, also while resolvers run, a policy that notes the calls knows exactly the entries of the cache. -/
theorem C114_nested_policy_knows_entries (hc : cfg.Ok) (hr : cfg.resolver = .sync) (h : Nested.NHist K V E) (hok : Nested.NOk cfg {} h) :
    (Book.notes {} (nestedTrace cfg {} h)).there.Perm ((Nested.runN cfg {} h).1.s.ents.map (·.id)) := (nested_knows hc hr h hok).2.1.there

/-- C114.  And it was told of every value. -/
theorem C114_nested_values_are_announced (hc : cfg.Ok) (hr : cfg.resolver = .sync) (h : Nested.NHist K V E) (hok : Nested.NOk cfg {} h) (e : Entry K V E)
    (he : e ∈ (Nested.runN cfg {} h).1.s.ents) (v : V) (hv : e.mapped.val? = some v) : Announced (nestedTrace cfg {} h) e.id := by
  obtain ⟨h1, h2, _⟩ := nested_knows hc hr h hok
  exact announced (once_of_accepts _ _ h1) ((h2.val e he (by rw [hv]; rfl)).resolve_left id)

/-- C114.  The flags of assignments are right (C113), also for values that resolvers return. -/
theorem C114_nested_flags_tell_the_result (cfg : Cfg K) (env : Env V) (n : Nested.NSt K V E) (e : Nested.Ev K V E) (i : Nat) (value callback : Bool)
    (h : .assign i value callback ∈ nested cfg env n e) :
    (∃ o x, e = .op o ∧ brings (decide (cfg.resolver = .async)) o = some x ∧ Fits value callback x) ∨ ∃ r, e = .ret r ∧ Fits value callback (r, false) := by
  cases e with
  | op o => obtain ⟨x, h1, h2⟩ := said_events o i value callback h; exact .inl ⟨o, x, rfl, h1, h2⟩
  | get k => exact (said_lookup (P := fun _ _ => False) k false i value callback h).elim
  | ret r =>
    refine .inr ⟨r, rfl, ?_⟩
    simp only [nested] at h
    split at h
    · cases h
    · exact said_sync (P := fun v c => Fits v c (r, false)) _ r (fits_ok r false) i value callback h

/-- A resolver that asks for other keys (`Nested.fib`): the misses come first, the entries in the order in which resolvers return. -/
example : Nested.memoN.Ok ∧ Nested.memoN.resolver = .sync ∧ Nested.NOk Nested.memoN {} Nested.fib ∧ nestedTrace Nested.memoN {} Nested.fib =
    [.miss, .miss, .miss, .create 0, .assign 0 true false, .miss, .create 1, .assign 1 true false, .create 2, .assign 2 true false, .hit 0,
     .create 3, .assign 3 true false] :=
  ⟨Nested.memoN_ok, rfl, Nested.nok_of_nokb (by decide), by decide +kernel⟩

/-! ## Asynchronous resolvers -/

/-- C114.  The same for asynchronous resolvers that use the cache while they are called, or throw. -/
theorem C114_async_calls_make_sense (hc : cfg.Ok) (h : NestedAsync.NHist K V E) (hok : NestedAsync.NOk cfg {} h) :
    Book.accepts {} (nestedAsyncTrace cfg {} h) := (nestedAsync_knows hc h hok).1

/-- C114.  A policy knows exactly the entries of the cache, also while they run. -/
theorem C114_async_policy_knows_entries (hc : cfg.Ok) (h : NestedAsync.NHist K V E) (hok : NestedAsync.NOk cfg {} h) :
    (Book.notes {} (nestedAsyncTrace cfg {} h)).there.Perm ((NestedAsync.runN cfg {} h).1.s.ents.map (·.id)) := (nestedAsync_knows hc h hok).2.there

/-- C114.  And it was told of every value. -/
theorem C114_async_values_are_announced (hc : cfg.Ok) (h : NestedAsync.NHist K V E) (hok : NestedAsync.NOk cfg {} h) (e : Entry K V E)
    (he : e ∈ (NestedAsync.runN cfg {} h).1.s.ents) (v : V) (hv : e.mapped.val? = some v) : Announced (nestedAsyncTrace cfg {} h) e.id := by
  obtain ⟨h1, h2⟩ := nestedAsync_knows hc h hok
  exact announced (once_of_accepts _ _ h1) ((h2.val e he (by rw [hv]; rfl)).resolve_left id)

/-- C114.  The flags of assignments are right (C113). -/
theorem C114_async_flags_tell_the_result (cfg : Cfg K) (env : Env V) (n : NestedAsync.NSt K V E) (e : NestedAsync.Ev K V E) (i : Nat) (value callback : Bool)
    (h : .assign i value callback ∈ nestedAsync cfg env n e) : ∃ o x, e = .op o ∧ brings (decide (cfg.resolver = .async)) o = some x ∧ Fits value callback x := by
  cases e with
  | op o => obtain ⟨x, h1, h2⟩ := said_events o i value callback h; exact ⟨o, x, rfl, h1, h2⟩
  | get k w =>
    refine (Said.append (P := fun _ _ => False) (said_lookup k true) ?_ i value callback h).elim
    split
    · exact .nil
    · exact said_async _ _ (fun r q => by cases q)
  | ret => cases h
  | throw => cases h

/-- A functor that completes lookups before it returns, its own among them. -/
example : NestedAsync.asyncN.Ok ∧ NestedAsync.NOk NestedAsync.asyncN {} NestedAsync.busy ∧ nestedAsyncTrace NestedAsync.asyncN {} NestedAsync.busy =
    [.miss, .create 0, .miss, .create 1, .assign 1 true true, .create 2, .assign 2 true false, .hit 0, .assign 0 true true] :=
  ⟨NestedAsync.asyncN_ok, NestedAsync.chk_sound (by decide), by decide +kernel⟩

/-! ## Completion handlers -/

/-- C114.  Completion handlers may use the cache too.  Whatever they do, entries are created once, hit and unlinked only while they are there, and assigned at most
once.  The full claim is that all calls make sense, as above.  Missing: an entry can be assigned a value after it was unlinked (then the full claim is false:
`C114_assigned_after_unlink`), and caches with a refresh policy. -/
theorem C114_handler_calls_make_sense_partial (hc : cfg.Ok) (hr : cfg.refresh = none) (h : Handlers.HHist K V E) (hok : Handlers.HOk cfg {} h)
    (n : Handlers.HSt K V E) (as : List (Handlers.Ans K V E)) (hh : Handlers.runH cfg {} h = some (n, as)) : Book.bears {} (handledTrace cfg {} h) :=
  (handled_knows_run hc hr h Handlers.hinv_init open_init hok hh knows_init').1

/-- C114.  A policy knows exactly the entries of the cache, also while handlers run.  Missing: caches with a refresh policy. -/
theorem C114_handler_policy_knows_entries_partial (hc : cfg.Ok) (hr : cfg.refresh = none) (h : Handlers.HHist K V E) (hok : Handlers.HOk cfg {} h)
    (n : Handlers.HSt K V E) (as : List (Handlers.Ans K V E)) (hh : Handlers.runH cfg {} h = some (n, as)) :
    (Book.notes {} (handledTrace cfg {} h)).there.Perm (n.s.ents.map (·.id)) :=
  (handled_knows_run hc hr h Handlers.hinv_init open_init hok hh knows_init').2.there

/-- C114.  It was told of every value, except those that are being delivered right now.  The full claim is without that exception.  Missing: the exception (it is
needed: `C114_value_before_announcement`), and caches with a refresh policy. -/
theorem C114_handler_values_are_announced_partial (hc : cfg.Ok) (hr : cfg.refresh = none) (h : Handlers.HHist K V E) (hok : Handlers.HOk cfg {} h)
    (n : Handlers.HSt K V E) (as : List (Handlers.Ans K V E)) (hh : Handlers.runH cfg {} h = some (n, as)) (e : Entry K V E) (he : e ∈ n.s.ents) (v : V)
    (hv : e.mapped.val? = some v) (hq : ∀ f ∈ n.frames, f.tok ≠ e.id) : Announced (handledTrace cfg {} h) e.id := by
  obtain ⟨h0, hk⟩ := handled_knows_run hc hr h Handlers.hinv_init open_init hok hh knows_init'
  rcases hk.val e he (by rw [hv]; rfl) with h1 | h1
  · obtain ⟨f, hf, _, hi⟩ := delivering_mem.1 h1
    exact absurd hi (hq f hf)
  · exact announced (once_of_bears _ _ h0) h1

/-- C114.  The flags of assignments are right: they fit the result with which the completion of the lookup began, however much has happened since. -/
theorem C114_handler_flags_tell_the_result (cfg : Cfg K) (h : Handlers.HHist K V E) (i : Nat) (value callback : Bool) (ha : .assign i value callback ∈ handledTrace cfg {} h) :
    (∃ env o x, (env, .op o) ∈ h ∧ brings (decide (cfg.resolver = .async)) o = some x ∧ Fits value callback x) ∨
    ∃ env r, (env, .begin i r) ∈ h ∧ Fits value callback (r, true) := by
  rcases handled_said h {} i value callback ha with h | ⟨f, hf, _⟩ | h
  · exact .inl h
  · cases hf
  · exact .inr h

/-- C114.  The recency queue by which `max_size_policy` chooses what to evict is what it makes of these calls (C113), also while resolvers, functors or handlers run; here
without any restriction: assignments do not matter to it. -/
theorem C114_recency_queue_follows_the_calls (cfg : Cfg K) (hm : cfg.maxSize.isSome = true) :
    (∀ h : Nested.NHist K V E, (Nested.runN cfg {} h).1.s.bq = recency {} (nestedTrace cfg {} h)) ∧
    (∀ h : NestedAsync.NHist K V E, (NestedAsync.runN cfg {} h).1.s.bq = recency {} (nestedAsyncTrace cfg {} h)) ∧
    (∀ (h : Handlers.HHist K V E) (n : Handlers.HSt K V E) (as : List (Handlers.Ans K V E)), Handlers.runH cfg {} h = some (n, as) →
      n.s.bq = recency {} (handledTrace cfg {} h)) := by
  refine ⟨fun h => ?_, fun h => ?_, fun h n as hh => handledTrace_bq hm h hh⟩
  · induction h using snoc_ind with
    | h0 => rfl
    | h1 h p ih =>
      obtain ⟨env, e⟩ := p
      rw [nestedTrace_snoc, Nested.runN_snoc, recency_append, ← ih]
      exact nested_bq hm _ e
  · induction h using snoc_ind with
    | h0 => rfl
    | h1 h p ih =>
      obtain ⟨env, e⟩ := p
      have : (NestedAsync.runN cfg ({} : NestedAsync.NSt K V E) (h ++ [(env, e)])).1 = _ := NestedAsync.endN_snoc (cfg := cfg) h env e
      rw [nestedAsyncTrace_snoc, this, recency_append, ← ih]
      exact nestedAsync_bq hm _ e

/-- With room for three entries, `nest` evicts nothing: the entry that is erased leaves the queue, the others stay in it. -/
example : Handlers.smallH.maxSize.isSome = true ∧ ((Handlers.runH Handlers.smallH {} Handlers.nest).map (·.1.s.bq.q)) = some [1, 2] ∧
    (recency {} (handledTrace Handlers.smallH {} Handlers.nest)).q = [1, 2] := ⟨rfl, by decide +kernel, by decide +kernel⟩

/-- C114 is false for handlers: one that erases the key whose value it is told makes policies see an entry that is assigned after it was unlinked. -/
theorem C114_assigned_after_unlink : ∃ h : Handlers.HHist Nat Nat Nat, Handlers.HOk Handlers.asyncH {} h ∧
    ((Handlers.runH Handlers.asyncH {} h).map (·.2)) = some [.out { calls := [(1, 0)] }, .begun, .ran 70 (.ok 7), .out {}, .finished] ∧
    handledTrace Handlers.asyncH {} h = [.miss, .create 0, .unlink 0, .assign 0 true true] ∧ ¬ Book.accepts {} (handledTrace Handlers.asyncH {} h) := by
  refine ⟨[(at_ 0, .op (.asyncGet 1 70 .later)), (at_ 1, .begin 0 (.ok 7)), (at_ 1, .next), (at_ 1, .op (.erase 1)), (at_ 1, .finish)],
    Handlers.okAll_sound (by decide +kernel), by decide +kernel, by decide +kernel, ?_⟩
  have : handledTrace Handlers.asyncH {} ([(at_ 0, .op (.asyncGet 1 70 .later)), (at_ 1, .begin 0 (.ok 7)), (at_ 1, .next), (at_ 1, .op (.erase 1)), (at_ 1, .finish)] :
    Handlers.HHist Nat Nat Nat) = [.miss, .create 0, .unlink 0, .assign 0 true true] := by decide +kernel
  rw [this]
  intro h
  exact absurd h.2.2.2.1.1 (by decide)

/-- C114.  The refresh policy is not prepared for that: the entry it is told of goes into its queue and stays there, although it is neither in the table nor held by anything
else once its callback object is gone. -/
theorem C114_refresh_queue_keeps_unlinked_entry : ∃ (h : Handlers.HHist Nat Nat Nat) (n : Handlers.HSt Nat Nat Nat) (as : List (Handlers.Ans Nat Nat Nat)),
    Handlers.HOk { Handlers.asyncH with refresh := some (3, 9) } {} h ∧ Handlers.runH { Handlers.asyncH with refresh := some (3, 9) } {} h = some (n, as) ∧
    n.s.delayQ = [0] ∧ n.s.ents.map (·.id) = [] ∧ n.s.opens = [] ∧ n.frames.map (·.tok) = [] :=
  ⟨[(at_ 0, .op (.asyncGet 1 70 .later)), (at_ 1, .begin 0 (.ok 7)), (at_ 1, .next), (at_ 1, .op (.erase 1)), (at_ 1, .finish)], _, _,
    Handlers.okAll_sound (by decide +kernel), rfl, by decide +kernel, by decide +kernel, by decide +kernel, by decide +kernel⟩

/-- C114.  A handler can find a value that no policy was told of: it is there before the handlers run, and announced after them. -/
theorem C114_value_before_announcement : ∃ h : Handlers.HHist Nat Nat Nat, Handlers.HOk Handlers.asyncH {} h ∧
    ((Handlers.runH Handlers.asyncH {} h).map (·.2)) = some [.out { calls := [(1, 0)] }, .begun, .ran 70 (.ok 7), .out { ret := .val 7 }] ∧
    handledTrace Handlers.asyncH {} h = [.miss, .create 0] :=
  ⟨[(at_ 0, .op (.asyncGet 1 70 .later)), (at_ 1, .begin 0 (.ok 7)), (at_ 1, .next), (at_ 1, .op (.getIfExists 1))],
    Handlers.okAll_sound (by decide +kernel), by decide +kernel, by decide +kernel⟩

/-- Completions inside completions, one of them failing (`Handlers.nest`). -/
example : Handlers.smallH.Ok ∧ Handlers.smallH.refresh = none ∧ Handlers.HOk Handlers.smallH {} Handlers.nest ∧ (Handlers.runH Handlers.smallH {} Handlers.nest).isSome = true ∧
    handledTrace Handlers.smallH {} Handlers.nest = [.miss, .create 0, .hit 0, .miss, .create 1, .hit 0, .unlink 0, .create 2, .assign 2 true false, .assign 1 false true, .assign 0 true true] :=
  ⟨Handlers.smallH_ok, rfl, Handlers.okAll_sound (by decide +kernel), by decide +kernel, by decide +kernel⟩

end Hoard.Props
