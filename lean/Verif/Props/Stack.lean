import Verif.Spec.Stack
import Verif.Props.Reference
import Verif.Props.Memory
import Verif.Props.Threads
/-! # Threads, pointers and the small cache -/
namespace Hoard.Props
open Hoard Spec Demo Threads
variable {K V E : Type} {cfg : Cfg K}

/-- C87 of the pointers: the cache that works on linked entries, intrusive queues and counted pointers does nothing undefined and shows what
the small cache shows. -/
theorem C87_pointers_are_the_small_cache (hc : cfg.Ok) (hs : cfg.NoWeak) (hr : cfg.refresh = none) (obj : Nat → Entry K V E) (h : Hist K V E) (hok : HistOk cfg St.init h)
    (hm : Mono (h.map (·.1)) ∨ cfg.Untimed) (hg : ∀ p ∈ h, growFails p.2 = false) (hn : NoEvictH cfg St.init h) :
    ∃ p outs, PSt.run cfg (PSt.init obj) h = some (p, outs) ∧ SameOuts outs (refOuts cfg {} h) ∧ ((∀ p ∈ h, p.2 ≠ .destroy) → outs = refOuts cfg {} h) := by
  obtain ⟨p, hp⟩ := C49_no_undefined_behaviour hc obj h hok
  exact ⟨p, _, hp, C87_cache_is_the_small_cache cfg hc hs hr h hok hm hg hn⟩

/-! ## C88 -/

theorem call_ok {s : St K V E} {o : Op K V E} (h : Call cfg o) (hd : s.destroyed = false) : o.ok cfg s := by
  cases o <;> simp_all [Call, Op.ok]

theorem all_calls_ok : ∀ (h : List (Env V × {o : Op K V E // Call cfg o})) (s : St K V E), s.destroyed = false → HistOk cfg s (h.map (fun x => (x.1, x.2.1)))
  | [], _, _ => trivial
  | (e, o) :: h, s, hd => by
    refine ⟨call_ok o.2 hd, all_calls_ok h _ ?_⟩
    rw [step_destroyed _ _ _ _ (fun e => by have := o.2; rw [e] at this; exact this), hd]

theorem pointer_results : ∀ (h : Seq (Env V) {o : Op K V E // Call cfg o}) (p p' : PSt K V E) (outs : List (Out K V E)),
    PSt.run cfg p (h.map (fun x => (x.2.1, x.2.2.1))) = some (p', outs) → results (pointerSeq cfg) (some p) h = (h.map (·.1)).zip (outs.map some)
  | [], _, _, _, _ => rfl
  | (t, e, o) :: h, p, p', outs, hr => by
    simp only [List.map_cons, PSt.run] at hr
    cases h1 : p.step cfg e o.1 with
    | none => rw [h1] at hr; cases hr
    | some r =>
      rw [h1] at hr
      simp only [Option.bind_eq_bind, Option.bind_some] at hr
      cases h2 : PSt.run cfg r.1 (h.map (fun x => (x.2.1, x.2.2.1))) with
      | none => rw [h2] at hr; cases hr
      | some r2 =>
        rw [h2] at hr
        simp only [Option.bind_some, Option.some.injEq, Prod.mk.injEq] at hr
        obtain ⟨-, rfl⟩ := hr
        have := pointer_results h r.1 r2.1 r2.2 h2
        simp only [results, pointerSeq, Option.bind_some, h1, List.map_cons, List.zip_cons_cons, this]

theorem small_results : ∀ (h : Seq (Env V) {o : Op K V E // Call cfg o}) (R : Ref K V),
    results (smallSeq cfg) R h = (h.map (·.1)).zip ((refOuts cfg R (h.map (fun x => (x.2.1, x.2.2.1)))).map some)
  | [], _ => rfl
  | (t, e, o) :: h, R => by
    have := small_results h (refStep cfg e.now R o.1).1
    simp only [results, smallSeq, List.map_cons, refOuts, List.zip_cons_cons] at this ⊢
    rw [this]

theorem same_results (hc : cfg.Ok) (hs : cfg.maxSize = none) (hr : cfg.refresh = none) (obj : Nat → Entry K V E) (h : Seq (Env V) {o : Op K V E // Call cfg o})
    (hm : Mono (h.map (fun x => x.2.1))) : results (pointerSeq cfg) (some (PSt.init obj)) h = results (smallSeq cfg) {} h := by
  have hok : HistOk cfg (St.init : St K V E) (h.map (fun x => (x.2.1, x.2.2.1))) := by
    have := all_calls_ok (cfg := cfg) (h.map (fun x => x.2)) (St.init : St K V E) rfl
    rw [List.map_map] at this
    exact this
  have hcl : ∀ p ∈ h.map (fun x => (x.2.1, x.2.2.1)), growFails p.2 = false ∧ p.2 ≠ .destroy := by
    intro p hp
    obtain ⟨x, -, rfl⟩ := List.mem_map.1 hp
    have := x.2.2.2
    constructor
    · revert this
      cases x.2.2.1 with
      | emplace k v f => cases f <;> first | (intro; rfl) | (intro h; exact absurd rfl h)
      | getOrEmplace k v f => cases f <;> first | (intro; rfl) | (intro h; exact absurd rfl h)
      | _ => intro _; rfl
    · intro e
      simp only at e
      rw [e] at this; exact this
  obtain ⟨p, outs, h1, -, h2⟩ := C87_pointers_are_the_small_cache hc (.inr (.inr hs)) hr obj _ hok (.inl (by rw [List.map_map]; exact hm)) (fun p hp => (hcl p hp).1)
    (noEvictH_none hs _ _)
  rw [pointer_results h _ _ _ h1, small_results, h2 (fun p hp => (hcl p hp).2)]

theorem linearizable_small (hc : cfg.Ok) (hs : cfg.maxSize = none) (hr : cfg.refresh = none) (obj : Nat → Entry K V E) {h : Seq (Env V) {o : Op K V E // Call cfg o}}
    {vis : List (Vis {o : Op K V E // Call cfg o} (Option (Out K V E)))} (hl : Linearizable (pointerSeq cfg) (some (PSt.init obj)) h vis) (hm : Mono (h.map (fun x => x.2.1))) :
    Linearizable (smallSeq cfg) {} h vis := by
  induction hl with
  | start => exact .start
  | more p h' vis' e small ih =>
    refine .more (ih ?_) h' vis' (fun t => ?_) small
    · rw [Mono, List.map_append, List.pairwise_append] at hm
      exact hm.1
    · rw [← same_results hc hs hr obj _ hm]
      exact e t

/-- C88: threads share a thread-safe cache without size limit and without refreshing.  However its operations, which work on linked entries
and counted pointers, are cut into accesses, and however the threads are scheduled: what the threads see is linearizable with respect to
the small cache of `Verif.Spec.Reference`, and nothing undefined happens.
(A delivery looks at its handle before it takes the lock; that matters when two threads deliver on the same handle, see C38.) -/
theorem C88_threads_share_the_small_cache (hc : cfg.Ok) (hs : cfg.maxSize = none) (hr : cfg.refresh = none) (obj : Nat → Entry K V E)
    (body : Env V → {o : Op K V E // Call cfg o} → Prog (Option (PSt K V E)) (Option (Out K V E)))
    (hb : ∀ e o, Closed 1 (body e o)) (hseq : ∀ e o p, (body e o).run p = pointerSeq cfg e p o)
    (e0 : Env V) (cs : List (Choice (Env V) {o : Op K V E // Call cfg o})) (g : G (Option (PSt K V E)) (Env V) {o : Op K V E // Call cfg o} (Option (Out K V E)))
    (vis : List (Vis {o : Op K V E // Call cfg o} (Option (Out K V E))))
    (he : exec body (start (some (PSt.init obj)) e0) cs = some (g, vis)) (hmono : Mono (e0 :: Threads.ticks cs)) :
    (∃ h, Linearizable (smallSeq cfg) {} h vis ∧ Explains (smallSeq cfg) {} h vis) ∧ ∀ t, none ∉ returnsOf t vis := by
  obtain ⟨h, i, l, hm⟩ := linear_exec (seq := pointerSeq cfg) hb hseq Env.le (fun e => ⟨Int.le_refl _, Int.le_refl _, fun _ h => h⟩) cs (inv_start _ _ e0) .start
    (show List.Pairwise Env.le (e0 :: Threads.ticks cs) from hmono) he
  simp only [List.nil_append] at i l hm
  have hm' : Mono (h.map (fun x => x.2.1)) := (List.pairwise_append.1 hm).1
  have hex : Explains (smallSeq cfg) {} h vis := fun t => by
    rw [← same_results hc hs hr obj h hm']
    exact i.explains t
  refine ⟨⟨h, linearizable_small hc hs hr obj l hm', hex⟩, fun t hn => ?_⟩
  have hp := (hex t).2
  have := hp.subset hn
  simp only [resultsOf, List.mem_map, List.mem_filter] at this
  obtain ⟨x, ⟨hx, -⟩, h0⟩ := this
  have key : ∀ (h : Seq (Env V) {o : Op K V E // Call cfg o}) (R : Ref K V), ∀ x ∈ results (smallSeq cfg) R h, x.2 ≠ none := by
    intro h
    induction h with
    | nil => intro R x hx; cases hx
    | cons y h ih =>
      intro R x hx
      rcases List.mem_cons.1 hx with rfl | hx
      · simp [smallSeq]
      · exact ih _ x hx
  exact key h _ x hx h0

/-- An operation cut in two: the memory is read, then it is written. -/
def readWrite (cfg : Cfg K) (e : Env V) (o : {o : Op K V E // Call cfg o}) : Prog (Option (PSt K V E)) (Option (Out K V E)) :=
  .act (fun s => s) (fun s => .act (fun _ => (pointerSeq cfg e s o).1) (fun _ => .unlock (.ret (pointerSeq cfg e s o).2)))

/-- Two threads want to get a key with an asynchronous resolver; a third delivers. -/
def ask (w : Nat) : {o : Op Nat Nat Nat // Call agedAsync o} := ⟨.asyncGet 1 w .later, rfl⟩
def deliver : {o : Op Nat Nat Nat // Call agedAsync o} := ⟨.complete 0 (.ok 10), trivial⟩

/-- The hypotheses are met by operations that need the lock. -/
example : (∀ e o, Closed 1 (readWrite agedAsync (V := Nat) (E := Nat) e o)) ∧ (∀ e o p, (readWrite agedAsync (V := Nat) (E := Nat) e o).run p = pointerSeq agedAsync e p o) :=
  ⟨fun _ _ => .act fun _ => .act fun _ => .unlock (.ret _), fun _ _ _ => rfl⟩

/-- What the threads see. -/
def seen : List (Vis {o : Op Nat Nat Nat // Call agedAsync o} (Option (Out Nat Nat Nat))) :=
  ((exec (readWrite agedAsync) (start (some (PSt.init anyObj)) (at_ 0))
      [.call 0 (ask 70), .call 1 (ask 71), .go 0, .go 0, .go 0, .go 0, .go 0, .go 1, .go 1, .go 1, .go 1, .go 1, .tick (at_ 3), .call 2 deliver, .go 2, .go 2, .go 2, .go 2, .go 2]).map
        (·.2)).getD []

/-- The resolver is called once, and the third thread delivers to both. -/
example : (returnsOf 0 seen).map (·.map (·.calls)) = [some [(1, 0)]] ∧ (returnsOf 1 seen).map (·.map (·.calls)) = [some []] ∧
    (returnsOf 2 seen).map (·.map (·.fired)) = [some [(70, .ok 10), (71, .ok 10)]] := by
  decide +kernel

end Hoard.Props
