import Verif.Spec.Linear
/-! Lemmas: operations under the lock take effect at one point. -/
namespace Hoard.Threads
variable {S Env O R : Type}

/-- The state after a sequential execution. -/
def final (seq : Env → S → O → S × R) : S → Seq Env O → S
  | s, [] => s
  | s, (_, e, o) :: h => final seq (seq e s o).1 h

theorem final_snoc (seq : Env → S → O → S × R) (s : S) (h : Seq Env O) (t : Nat) (e : Env) (o : O) :
    final seq s (h ++ [(t, e, o)]) = (seq e (final seq s h) o).1 := by
  induction h generalizing s with
  | nil => rfl
  | cons x h ih => obtain ⟨u, e', o'⟩ := x; exact ih _

theorem results_snoc (seq : Env → S → O → S × R) (s : S) (h : Seq Env O) (t : Nat) (e : Env) (o : O) :
    results seq s (h ++ [(t, e, o)]) = results seq s h ++ [(t, (seq e (final seq s h) o).2)] := by
  induction h generalizing s with
  | nil => rfl
  | cons x h ih => obtain ⟨u, e', o'⟩ := x; simp [results, ih, final]

theorem callsOf_append (t : Nat) (a b : List (Vis O R)) : callsOf t (a ++ b) = callsOf t a ++ callsOf t b := by
  induction a with
  | nil => rfl
  | cons v a ih => cases v <;> simp [callsOf, ih]; split <;> simp

theorem returnsOf_append (t : Nat) (a b : List (Vis O R)) : returnsOf t (a ++ b) = returnsOf t a ++ returnsOf t b := by
  induction a with
  | nil => rfl
  | cons v a ih => cases v <;> simp [returnsOf, ih]; split <;> simp

theorem opsOf_snoc (u t : Nat) (h : Seq Env O) (e : Env) (o : O) :
    opsOf u (h ++ [(t, e, o)]) = if t = u then opsOf u h ++ [o] else opsOf u h := by
  by_cases hh : t = u <;> simp [opsOf, hh]

theorem resultsOf_snoc (u t : Nat) (l : List (Nat × R)) (r : R) :
    resultsOf u (l ++ [(t, r)]) = if t = u then resultsOf u l ++ [r] else resultsOf u l := by
  by_cases hh : t = u <;> simp [resultsOf, hh]

theorem closed_zero {p : Prog S R} (h : Closed 0 p) : ∃ r, p = .ret r := by
  cases h; exact ⟨_, rfl⟩

/-- What is known about one thread. -/
def ThOk (seq : Env → S → O → S × R) (s0 : S) (g : G S Env O R) (h : Seq Env O) (vis : List (Vis O R)) (t : Nat) : Prop :=
  match g.th t with
  | .idle => opsOf t h = callsOf t vis ∧ returnsOf t vis = resultsOf t (results seq s0 h) ∧ (∀ m, g.owner ≠ some (t, m))
  | .waiting o => opsOf t h ++ [o] = callsOf t vis ∧ returnsOf t vis = resultsOf t (results seq s0 h) ∧ (∀ m, g.owner ≠ some (t, m))
  | .running p => opsOf t h = callsOf t vis ∧
      ((∃ r, p = .ret r ∧ (∀ m, g.owner ≠ some (t, m)) ∧ returnsOf t vis ++ [r] = resultsOf t (results seq s0 h)) ∨
       (∃ n r, Closed (n + 1) p ∧ g.owner = some (t, n + 1) ∧ p.run g.s = (final seq s0 h, r) ∧
          returnsOf t vis ++ [r] = resultsOf t (results seq s0 h)))

/-- Invariant of the executions. -/
structure Inv (seq : Env → S → O → S × R) (s0 : S) (g : G S Env O R) (h : Seq Env O) (vis : List (Vis O R)) : Prop where
  th : ∀ t, ThOk seq s0 g h vis t
  free : g.owner = none → g.s = final seq s0 h

theorem Inv.explains {seq : Env → S → O → S × R} {s0 : S} {g : G S Env O R} {h : Seq Env O} {vis : List (Vis O R)}
    (i : Inv seq s0 g h vis) : Explains seq s0 h vis := by
  intro t
  have := i.th t
  unfold ThOk at this
  split at this
  · rw [this.1, this.2.1]; exact ⟨List.prefix_rfl, List.prefix_rfl⟩
  · rw [← this.1, this.2.1]; exact ⟨List.prefix_append _ _, List.prefix_rfl⟩
  · rw [this.1]
    refine ⟨List.prefix_rfl, ?_⟩
    rcases this.2 with ⟨r, _, _, e⟩ | ⟨n, r, _, _, _, e⟩ <;> rw [← e] <;> exact List.prefix_append _ _

theorem inv_start (seq : Env → S → O → S × R) (s0 : S) (e : Env) : Inv seq s0 (start s0 e : G S Env O R) [] [] := by
  refine ⟨?_, fun _ => rfl⟩
  intro t
  simp [ThOk, start, opsOf, callsOf, returnsOf, resultsOf, results]

/-- A step is a call, a return, the taking of the lock by an operation, or something inside. -/
theorem inv_step {body : Env → O → Prog S R} {seq : Env → S → O → S × R} (hb : ∀ e o, Closed 1 (body e o))
    (hs : ∀ e o s, (body e o).run s = seq e s o) {s0 : S} {g g' : G S Env O R} {h : Seq Env O} {vis : List (Vis O R)} {c : Choice Env O} {v : Option (Vis O R)}
    (i : Inv seq s0 g h vis) (hg : step body g c = some (g', v)) :
    ∃ h' : Seq Env O, (v = none ∨ h' = []) ∧ (h' = [] ∨ ∃ t o, h' = [(t, g.env, o)] ∧ c = .go t) ∧ Inv seq s0 g' (h ++ h') (vis ++ v.toList) := by
  cases c with
  | tick e =>
    simp [step] at hg; obtain ⟨rfl, rfl⟩ := hg
    refine ⟨[], by simp, by simp, ⟨fun t => ?_, ?_⟩⟩
    · have := i.th t
      unfold ThOk at this ⊢
      simpa using this
    · simpa using i.free
  | call t o =>
    cases ht : g.th t <;> simp [step, ht] at hg
    obtain ⟨rfl, rfl⟩ := hg
    refine ⟨[], by simp, by simp, ⟨fun u => ?_, ?_⟩⟩
    · have hu := i.th u
      by_cases e : u = t
      · subst e
        simp only [ThOk, ht, set, if_true, List.append_nil] at hu ⊢
        refine ⟨?_, ?_, hu.2.2⟩
        · rw [callsOf_append, hu.1]; simp [callsOf]
        · rw [returnsOf_append, hu.2.1]; simp [returnsOf]
      · have e' : ¬ t = u := fun h => e h.symm
        unfold ThOk at hu ⊢
        simp only [set, if_neg e, List.append_nil, callsOf_append, returnsOf_append, Option.toList, callsOf, returnsOf, if_neg e']
        exact hu
    · simpa using i.free
  | go t =>
    have hu0 := i.th t
    cases ht : g.th t with
    | idle => simp [step, ht] at hg
    | waiting o =>
      simp only [step, ht] at hg
      simp only [ThOk, ht] at hu0
      have hfree : g.owner = none := by
        cases ho : g.owner with
        | none => rfl
        | some w =>
          obtain ⟨u, n⟩ := w
          by_cases e : u = t
          · subst e; exact absurd ho (hu0.2.2 n)
          · simp [ho, takeLock, e] at hg
      simp [hfree, takeLock] at hg
      obtain ⟨rfl, rfl⟩ := hg
      refine ⟨[(t, g.env, o)], by simp, Or.inr ⟨t, o, rfl, rfl⟩, ⟨fun u => ?_, ?_⟩⟩
      · have hu := i.th u
        by_cases e : u = t
        · subst e
          simp only [ThOk, set, if_true, opsOf_snoc, results_snoc, resultsOf_snoc, Option.toList, List.append_nil]
          refine ⟨hu0.1, Or.inr ⟨0, (seq g.env (final seq s0 h) o).2, hb _ _, rfl, ?_, ?_⟩⟩
          · rw [hs, i.free hfree, final_snoc]
          · rw [hu0.2.1]
        · have e' : ¬ t = u := fun h => e h.symm
          unfold ThOk at hu ⊢
          simp only [set, if_neg e, opsOf_snoc, results_snoc, resultsOf_snoc, Option.toList, List.append_nil, if_neg e']
          have hne : ∀ m, some (t, 1) ≠ some (u, m) := by intro m hm; cases hm; exact e rfl
          cases hth : g.th u with
          | idle => simp only [hth] at hu; exact ⟨hu.1, hu.2.1, hne⟩
          | waiting o => simp only [hth] at hu; exact ⟨hu.1, hu.2.1, hne⟩
          | running p =>
            simp only [hth] at hu
            refine ⟨hu.1, Or.inl ?_⟩
            rcases hu.2 with ⟨r, a, _, b⟩ | ⟨n, r, _, b, _⟩
            · exact ⟨r, a, hne, b⟩
            · rw [hfree] at b; cases b
      · intro hn; cases hn
    | running p =>
      simp only [ThOk, ht] at hu0
      obtain ⟨hops, ⟨r, rfl, hno, hret⟩ | ⟨n, r, hcl, hown, hrun, hret⟩⟩ := hu0
      · -- return
        simp [step, ht] at hg
        obtain ⟨rfl, rfl⟩ := hg
        refine ⟨[], by simp, by simp, ⟨fun u => ?_, ?_⟩⟩
        · have hu := i.th u
          by_cases e : u = t
          · subst e
            simp only [ThOk, set, if_true, List.append_nil, callsOf_append, returnsOf_append, Option.toList, callsOf, returnsOf]
            exact ⟨hops, hret, hno⟩
          · have e' : ¬ t = u := fun h => e h.symm
            unfold ThOk at hu ⊢
            simp only [set, if_neg e, List.append_nil, callsOf_append, returnsOf_append, Option.toList, callsOf, returnsOf, if_neg e']
            exact hu
        · simpa using i.free
      · -- inside
        -- other threads are not affected by a step of the owner
        have others : ∀ (g'' : G S Env O R), (∀ u, u ≠ t → g''.th u = g.th u) → (∀ u m, u ≠ t → g''.owner ≠ some (u, m)) →
            ∀ u, u ≠ t → ThOk seq s0 g'' h vis u := by
          intro g'' h1 h2 u e
          have hu := i.th u
          unfold ThOk at hu ⊢
          rw [h1 u e]
          cases hth : g.th u with
          | idle => simp only [hth] at hu; exact ⟨hu.1, hu.2.1, fun m => h2 u m e⟩
          | waiting o => simp only [hth] at hu; exact ⟨hu.1, hu.2.1, fun m => h2 u m e⟩
          | running p =>
            simp only [hth] at hu
            refine ⟨hu.1, Or.inl ?_⟩
            rcases hu.2 with ⟨r, a, _, b⟩ | ⟨n', r, _, b, _⟩
            · exact ⟨r, a, fun m => h2 u m e, b⟩
            · rw [hown] at b; cases b; exact absurd rfl e
        cases hcl with
        | act hn =>
          simp [step, ht] at hg
          obtain ⟨rfl, rfl⟩ := hg
          refine ⟨[], by simp, by simp, ⟨fun u => ?_, ?_⟩⟩
          · simp only [List.append_nil, Option.toList]
            by_cases e : u = t
            · subst e
              simp only [ThOk, set, if_true]
              exact ⟨hops, Or.inr ⟨n, r, hn _, hown, hrun, hret⟩⟩
            · refine others _ ?_ ?_ u e
              · intro u e; simp [set, e]
              · intro u m e hm; have hm : g.owner = _ := hm; rw [hown] at hm; cases hm; exact e rfl
          · intro hm; have hm : g.owner = _ := hm; rw [hown] at hm; cases hm
        | lock hn =>
          simp [step, ht, hown, takeLock] at hg
          obtain ⟨rfl, rfl⟩ := hg
          refine ⟨[], by simp, by simp, ⟨fun u => ?_, ?_⟩⟩
          · simp only [List.append_nil, Option.toList]
            by_cases e : u = t
            · subst e
              simp only [ThOk, set, if_true]
              exact ⟨hops, Or.inr ⟨n + 1, r, hn, rfl, hrun, hret⟩⟩
            · refine others _ ?_ ?_ u e
              · intro u e; simp [set, e]
              · intro u m e hm; cases hm; exact e rfl
          · intro hm; cases hm
        | unlock hn =>
          cases n with
          | zero =>
            obtain ⟨r', rfl⟩ := closed_zero hn
            simp [step, ht, hown, releaseLock] at hg
            obtain ⟨rfl, rfl⟩ := hg
            simp only [Prog.run, Prod.mk.injEq] at hrun
            refine ⟨[], by simp, by simp, ⟨fun u => ?_, ?_⟩⟩
            · simp only [List.append_nil, Option.toList]
              by_cases e : u = t
              · subst e
                simp only [ThOk, set, if_true]
                exact ⟨hops, Or.inl ⟨r, by rw [hrun.2], by simp, hret⟩⟩
              · refine others _ ?_ ?_ u e
                · intro u e; simp [set, e]
                · intro u m e hm; cases hm
            · intro _; simpa using hrun.1
          | succ n =>
            simp [step, ht, hown, releaseLock] at hg
            obtain ⟨rfl, rfl⟩ := hg
            refine ⟨[], by simp, by simp, ⟨fun u => ?_, ?_⟩⟩
            · simp only [List.append_nil, Option.toList]
              by_cases e : u = t
              · subst e
                simp only [ThOk, set, if_true]
                exact ⟨hops, Or.inr ⟨n, r, hn, rfl, hrun, hret⟩⟩
              · refine others _ ?_ ?_ u e
                · intro u e; simp [set, e]
                · intro u m e hm; cases hm; exact e rfl
            · intro hm; cases hm

/-- The moments at which time passes in a schedule. -/
def ticks : List (Choice Env O) → List Env
  | [] => []
  | .tick e :: cs => e :: ticks cs
  | _ :: cs => ticks cs

theorem linear_exec {body : Env → O → Prog S R} {seq : Env → S → O → S × R} (hb : ∀ e o, Closed 1 (body e o))
    (hs : ∀ e o s, (body e o).run s = seq e s o) {s0 : S} (le : Env → Env → Prop) (hrefl : ∀ e, le e e)
    (cs : List (Choice Env O)) :
    ∀ {g g' : G S Env O R} {h : Seq Env O} {vis vis' : List (Vis O R)}, Inv seq s0 g h vis → Linearizable seq s0 h vis →
      (h.map (fun x => x.2.1) ++ g.env :: ticks cs).Pairwise le → exec body g cs = some (g', vis') →
      ∃ h' : Seq Env O, Inv seq s0 g' (h ++ h') (vis ++ vis') ∧ Linearizable seq s0 (h ++ h') (vis ++ vis') ∧
        ((h ++ h').map (fun x => x.2.1) ++ [g'.env]).Pairwise le := by
  induction cs with
  | nil =>
    intro g g' h vis vis' i l hp he
    simp [exec] at he; obtain ⟨rfl, rfl⟩ := he
    exact ⟨[], by simpa using i, by simpa using l, by simpa [ticks] using hp⟩
  | cons c cs ih =>
    intro g g' h vis vis' i l hp he
    rw [exec] at he
    cases hg : step body g c with
    | none => simp [hg] at he
    | some p =>
      obtain ⟨g1, v⟩ := p
      simp only [hg] at he
      cases he' : exec body g1 cs with
      | none => simp [he'] at he
      | some q =>
        obtain ⟨g2, vs⟩ := q
        simp only [he'] at he
        cases he
        obtain ⟨h1, hor, hform, i1⟩ := inv_step hb hs i hg
        have l1 : Linearizable seq s0 (h ++ h1) (vis ++ v.toList) := by
          refine .more l h1 v.toList i1.explains ?_
          rcases hor with rfl | rfl
          · rcases hform with rfl | ⟨t, o, rfl, _⟩ <;> simp
          · cases v <;> simp
        have hp1 : ((h ++ h1).map (fun x => x.2.1) ++ g1.env :: ticks cs).Pairwise le := by
          have henv : (∃ e, c = .tick e ∧ g1.env = e) ∨ (ticks (c :: cs) = ticks cs ∧ g1.env = g.env) := by
            cases c with
            | tick e => left; simp [step] at hg; exact ⟨e, rfl, by rw [← hg.1]⟩
            | call t o =>
              right; refine ⟨rfl, ?_⟩
              simp only [step] at hg; split at hg <;> simp at hg; rw [← hg.1]
            | go t =>
              right; refine ⟨rfl, ?_⟩
              simp only [step] at hg
              split at hg <;> (try split at hg) <;> simp at hg <;> rw [← hg.1]
          rcases henv with ⟨e, rfl, h1'⟩ | ⟨h1', h2'⟩
          · have hnil : h1 = [] := by
              rcases hform with rfl | ⟨t, o, _, hc⟩
              · rfl
              · cases hc
            subst hnil
            rw [h1']
            simp only [List.append_nil]
            simp only [ticks] at hp
            exact hp.sublist (List.Sublist.append_left (List.sublist_cons_self _ _) _)
          · rw [h1'] at hp
            rw [h2']
            rcases hform with rfl | ⟨t, o, rfl, _⟩
            · simpa using hp
            · rw [List.pairwise_append] at hp ⊢
              obtain ⟨p1, p2, p3⟩ := hp
              simp only [List.map_append, List.map_cons, List.map_nil]
              refine ⟨?_, p2, ?_⟩
              · rw [List.pairwise_append]
                exact ⟨p1, by simp, fun a ha b hb => by simp at hb; subst hb; exact p3 a ha _ (by simp)⟩
              · intro a ha b hb
                simp only [List.mem_append, List.mem_singleton] at ha
                rcases ha with ha | rfl
                · exact p3 a ha b hb
                · rcases List.mem_cons.1 hb with rfl | hb
                  · exact hrefl _
                  · exact (List.pairwise_cons.1 p2).1 b hb
        obtain ⟨h2, r1, r2, r3⟩ := ih i1 l1 hp1 he'
        refine ⟨h1 ++ h2, ?_, ?_, ?_⟩
        · simpa [List.append_assoc] using r1
        · simpa [List.append_assoc] using r2
        · simpa [List.append_assoc] using r3

end Hoard.Threads
