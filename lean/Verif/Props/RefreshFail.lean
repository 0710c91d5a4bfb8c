import Verif.RefreshFailLemmas
import Verif.Props.Timers
/-! # Refreshes that fail: C102 -/
namespace Hoard.Props
open Hoard Spec Demo Timers RefreshFail
variable {K V E : Type} {cfg : Cfg K}

/-! ## Checking concrete histories -/

def fokb (cfg : Cfg Nat) (env : Env Nat) (t : TSt Nat Nat Nat) : FEv Nat Nat Nat → Bool
  | .ev e => tokb cfg env t e
  | .fail i _ _ _ => decide (i ∈ t.queue) && decide (cfg.resolver ≠ .none)

def fintimeb (cfg : Cfg Nat) (env : Env Nat) (t : TSt Nat Nat Nat) : FEv Nat Nat Nat → Bool
  | .ev e => intimeb cfg env t e
  | .fail i r b f => (fnext cfg env t (.fail i r b f)).2.calls.isEmpty || t.s.ents.any (fun e => e.id == i)

def fhokb (cfg : Cfg Nat) : TSt Nat Nat Nat → FHist Nat Nat Nat → Bool
  | _, [] => true
  | t, (env, e) :: h => fokb cfg env t e && fintimeb cfg env t e && fhokb cfg (fnext cfg env t e).1 h

theorem ok_of_fhokb {cfg : Cfg Nat} : ∀ {h : FHist Nat Nat Nat} {t : TSt Nat Nat Nat}, fhokb cfg t h = true → FOk cfg t h ∧ FAllInTime cfg t h
  | [], _, _ => ⟨trivial, trivial⟩
  | (env, e) :: h, t, hh => by
    simp only [fhokb, Bool.and_eq_true] at hh
    obtain ⟨⟨h1, h2⟩, h3⟩ := hh
    have ih := ok_of_fhokb h3
    refine ⟨⟨?_, ih.1⟩, ?_, ih.2⟩
    · cases e with
      | ev e => exact ok_of_tokb h1
      | fail i r b f => simpa [fokb, FEv.ok] using h1
    · cases e with
      | ev e =>
        cases e with
        | op o => trivial
        | expire i => trivial
        | handler i r b =>
          intro hne
          simp only [fintimeb, intimeb, Bool.or_eq_true, List.isEmpty_iff, List.any_eq_true, beq_iff_eq] at h2
          rcases h2 with h2 | h2
          · exact absurd h2 hne
          · exact h2
      | fail i r b f =>
        intro hne
        simp only [fintimeb, Bool.or_eq_true, List.isEmpty_iff, List.any_eq_true, beq_iff_eq] at h2
        rcases h2 with h2 | h2
        · exact absurd h2 hne
        · exact h2

/-- At 10 the refresh of the value of key 1 fails, because memory runs out; at 12 that of key 2 succeeds. -/
def unlucky : FHist Nat Nat Nat :=
  [(at_ 0, .ev (.op (.get 1 (.ok 5)))), (at_ 2, .ev (.op (.get 2 (.ok 6)))), (at_ 10, .ev (.expire 0)), (at_ 10, .fail 0 (.ok 7) .later .alloc),
   (at_ 12, .ev (.expire 1)), (at_ 12, .ev (.handler 1 (.ok 8) .later))]

/-- At 10 the functor throws, having let go of its handle. -/
def thrower : FHist Nat Nat Nat :=
  [(at_ 0, .ev (.op (.asyncGet 1 10 .later))), (at_ 0, .ev (.op (.complete 0 (.ok 5)))), (at_ 10, .ev (.expire 0)), (at_ 10, .fail 0 (.ok 7) .drop .functor)]

theorem unlucky_ok : FOk timed10 {} unlucky ∧ FAllInTime timed10 {} unlucky := ok_of_fhokb (by decide +kernel)
theorem thrower_ok : FOk atimed10 {} thrower ∧ FAllInTime atimed10 {} thrower := ok_of_fhokb (by decide +kernel)

theorem unlucky_tame : Tame unlucky := by
  intro p hp
  simp only [unlucky, List.mem_cons, List.not_mem_nil, or_false] at hp
  rcases hp with rfl | rfl | rfl | rfl | rfl | rfl <;> trivial

theorem thrower_tame : Tame thrower := by
  intro p hp
  simp only [thrower, List.mem_cons, List.not_mem_nil, or_false] at hp
  rcases hp with rfl | rfl | rfl | rfl <;> trivial

/-! ## The values -/

/-- C102, values.  Refreshes may fail at any time: a stored value that is shown is still the one written last, and neither too old nor idle for
too long.  (If no handler is late, no functor keeps its handle and throws, and no registration fails: see below.) -/
theorem C102_answers_are_current_partial (hc : cfg.Ok) (h : FHist K V E) (hok : FOk cfg {} h) (ht : Tame h) (hin : FAllInTime cfg {} h) (env : Env V) (o : Op K V E)
    (ho : o.ok cfg (fstate cfg h).s) (k : K) (v : V) (ha : answered o (fout cfg h env (.ev (.op o))) = some (k, v))
    (hca : (fout cfg h env (.ev (.op o))).calls = []) (hm : (fout cfg h env (.ev (.op o))).made = false) :
    (fledgerAfter cfg h).cur k = some v ∧ env.now.past ((fledgerAfter cfg h).ageLimit cfg.maxAge cfg.wall k) = false ∧
      reached env.now ((fledgerAfter cfg h).idleLimit cfg.refresh k) = false := by
  have g := (reach_goodF hc (mo := False) (ex := False) (fun h => h.elim) h env hok ht hin (fun h => h.elim) (fun h => h.elim)).good
  obtain ⟨h1, h2, _⟩ := stored_valid hc g (fun h => h) ho ha hca hm
  simp only [not_or, Bool.not_eq_true] at h2
  exact ⟨h1, h2.1, h2.2⟩

theorem fnoEvict_free (hs : cfg.maxSize = none) : ∀ (h : FHist K V E) (t : TSt K V E), FNoEvict cfg t h
  | [], _ => fun N hN => by rw [hs] at hN; cases hN
  | (_, _) :: h, _ => ⟨fun N hN => by rw [hs] at hN; (cases hN), fnoEvict_free hs h _⟩

/-- C102, no value is lost.  Without a size limit, what is shown is exactly what was written last, until it is too old or idle for too long. -/
theorem C102_exact_partial (hc : cfg.Ok) (hs : cfg.maxSize = none) (h : FHist K V E) (hok : FOk cfg {} h) (ht : Tame h) (hin : FAllInTime cfg {} h) (env : Env V)
    (hm : Mono (h.map (·.1) ++ [env])) (k : K) :
    (fout cfg h env (.ev (.op (.getIfExists k)))).ret =
      match (fledgerAfter cfg h).cur k with
      | none => .miss
      | some v => if env.now.past ((fledgerAfter cfg h).ageLimit cfg.maxAge cfg.wall k) || reached env.now ((fledgerAfter cfg h).idleLimit cfg.refresh k) then .miss else .val v :=
  peek_exact hc (reach_goodF hc (mo := True) (ex := True) (fun _ => .inl trivial) h env hok ht hin (fun _ => hm) (fun _ => fnoEvict_free hs h _)).good trivial hs k

/-- The hypotheses hold for both histories; 5 is shown although its refresh failed, and 8 although that of another key failed. -/
example : timed10.Ok ∧ timed10.maxSize = none ∧ FOk timed10 {} unlucky ∧ Tame unlucky ∧ FAllInTime timed10 {} unlucky ∧ Mono (unlucky.map (·.1) ++ [at_ 20]) ∧
    (fout timed10 (unlucky.take 3) (at_ 10) (.fail 0 (.ok 7) .later .alloc)).ret = .throws ∧
    answered (.get 1 (.ok 9)) (fout timed10 unlucky (at_ 20) (.ev (.op (.get 1 (.ok 9))))) = some (1, 5) ∧
    (fout timed10 unlucky (at_ 20) (.ev (.op (.get 1 (.ok 9))))).calls = [] ∧ (fout timed10 unlucky (at_ 20) (.ev (.op (.get 1 (.ok 9))))).made = false ∧
    (fout timed10 unlucky (at_ 20) (.ev (.op (.getIfExists 2)))).ret = .val 8 ∧ (fledgerAfter timed10 unlucky).cur 2 = some 8 :=
  ⟨nat_ok rfl (by intro d i h; cases h; decide), rfl, unlucky_ok.1, unlucky_tame, unlucky_ok.2, mono_at [0, 2, 10, 10, 12, 12, 20] (by decide), by decide +kernel, by decide +kernel, by decide +kernel,
    by decide +kernel, by decide +kernel, by decide +kernel⟩

/-- C102, one failure.  A refresh that throws changes nothing of what can be read, of any key. -/
theorem C102_failed_refresh_changes_no_value_partial (hc : cfg.Ok) (hs : cfg.maxSize = none) (h : FHist K V E) (env : Env V) (i : Nat) (r : Res V E) (b : Beh V E) (f : RFail)
    (hok : FOk cfg {} (h ++ [(env, .fail i r b f)])) (ht : Tame (h ++ [(env, .fail i r b f)])) (hin : FAllInTime cfg {} (h ++ [(env, .fail i r b f)])) (env' : Env V)
    (hm : Mono (h.map (·.1) ++ [env, env'])) (hthrows : (fout cfg h env (.fail i r b f)).ret = .throws) (k : K) :
    (fout cfg (h ++ [(env, .fail i r b f)]) env' (.ev (.op (.getIfExists k)))).ret = (fout cfg h env' (.ev (.op (.getIfExists k)))).ret := by
  have hm2 : Mono ((h ++ [(env, FEv.fail i r b f)] : FHist K V E).map (·.1) ++ [env']) := by simpa using hm
  have hm1 : Mono (h.map (·.1) ++ [env']) := by
    unfold Mono at hm ⊢
    rw [List.pairwise_append] at hm ⊢
    exact ⟨hm.1, by simp, fun a ha b hb => hm.2.2 a ha b (by simp at hb ⊢; exact .inr hb)⟩
  rw [C102_exact_partial hc hs _ hok ht hin env' hm2 k,
    C102_exact_partial hc hs h ((FOk_snoc _ _ _ _).1 hok).1 (Tame_snoc.1 ht).1 ((FAllInTime_snoc _ _ _ _).1 hin).1 env' hm1 k]
  obtain ⟨h1, h2, h3⟩ := throws_ledger (L := fledgerAfter cfg h) (Tame_snoc.1 ht).2 hthrows
  rw [fledgerAfter_snoc]
  unfold fout
  simp only [Ledger.ageLimit, Ledger.idleLimit, h1, h2, h3]
  cases (fledgerAfter cfg h).cur k <;> rfl

/-- The functor of `thrower` throws, and 5 can still be read. -/
example : atimed10.Ok ∧ FOk atimed10 {} thrower ∧ Tame thrower ∧ FAllInTime atimed10 {} thrower ∧ Mono ((thrower.take 3).map (·.1) ++ [at_ 10, at_ 30]) ∧
    thrower = thrower.take 3 ++ [(at_ 10, .fail 0 (.ok 7) .drop .functor)] ∧
    (fout atimed10 (thrower.take 3) (at_ 10) (.fail 0 (.ok 7) .drop .functor)).ret = .throws ∧
    (fout atimed10 thrower (at_ 30) (.ev (.op (.getIfExists 1)))).ret = .val 5 :=
  ⟨nat_ok rfl (by intro d i h; cases h; decide), thrower_ok.1, thrower_tame, thrower_ok.2, mono_at [0, 0, 10, 10, 30] (by decide), rfl, by decide +kernel, by decide +kernel⟩

/-- C102, when.  A refresh for which growing the table would fail throws exactly if the refresh would have changed the number of buckets. -/
theorem C102_growth_fails_exactly (h : FHist K V E) (env : Env V) (i : Nat) (r : Res V E) (b : Beh V E) :
    (fout cfg h env (.fail i r b .grow)).ret = .throws ↔
      (fstate cfg (h ++ [(env, .ev (.handler i r b))])).s.tbl.length ≠ (fstate cfg h).s.tbl.length := by
  rw [fstate_snoc]
  unfold fout
  generalize fstate cfg h = t
  rcases fail_eq (cfg := cfg) (env := env) t i r b .grow with ⟨hd, h1⟩ | ⟨hd, e, hf, h1⟩
  · rw [h1]
    have : (fnext cfg env t (.ev (.handler i r b))).1.s = t.s := by
      rcases hd with hd | hd
      · simp [fnext, next, hd]
      · simp only [fnext, next, hd]; split <;> rfl
    simp [this]
  · rw [h1]
    simp only [fnext, next, hd, hf, Bool.false_eq_true, if_false]
    exact refreshFail_grow t.s e r b

/-- C102, when.  A refresh that does not throw is as if nothing could have failed. -/
theorem C102_no_failure_no_difference (h : FHist K V E) (env : Env V) (i : Nat) (r : Res V E) (b : Beh V E) (f : RFail) (hn : (fout cfg h env (.fail i r b f)).ret ≠ .throws) :
    fstate cfg (h ++ [(env, .fail i r b f)]) = fstate cfg (h ++ [(env, .ev (.handler i r b))]) ∧ fout cfg h env (.fail i r b f) = fout cfg h env (.ev (.handler i r b)) := by
  rw [fstate_snoc, fstate_snoc]
  unfold fout at hn ⊢
  generalize fstate cfg h = t at hn
  have : fnext cfg env t (.fail i r b f) = fnext cfg env t (.ev (.handler i r b)) := by
    simp only [fnext, next] at hn ⊢
    cases hd : t.s.destroyed with
    | true => rfl
    | false =>
      simp only [hd, Bool.false_eq_true, if_false] at hn ⊢
      cases hf : t.s.findAny i with
      | none => rfl
      | some e =>
        rw [hf] at hn
        simp only at hn ⊢
        rw [refreshFail_ok t.s e r b f hn]
  rw [this]
  exact ⟨rfl, rfl⟩

/-- The refresh of key 1 would need no new buckets; that of key 1 among four values does. -/
example :
    let h : FHist Nat Nat Nat := [(at_ 0, .ev (.op (.get 1 (.ok 5)))), (at_ 10, .ev (.expire 0))]
    let h' : FHist Nat Nat Nat := [(at_ 0, .ev (.op (.get 1 (.ok 5)))), (at_ 0, .ev (.op (.get 2 (.ok 5)))), (at_ 0, .ev (.op (.get 3 (.ok 5)))), (at_ 0, .ev (.op (.get 4 (.ok 5)))), (at_ 10, .ev (.expire 0))]
    (fout timed10 h (at_ 10) (.fail 0 (.ok 7) .later .grow)).ret ≠ .throws ∧ (fout timed10 h (at_ 10) (.fail 0 (.ok 7) .later .grow)).calls = [(1, 1)] ∧
    (fout timed10 h' (at_ 10) (.fail 0 (.ok 7) .later .grow)).ret = .throws := by decide +kernel

/-! ## No second attempt -/

/-- C102, no second attempt.  A handler is called at most once, whether it fails or not; and once it was called, the timer of the value does not
run out again. -/
theorem C102_no_second_attempt (hc : cfg.Ok) (h1 : FHist K V E) (env : Env V) (e : FEv K V E) (h2 : FHist K V E) (hok : FOk cfg {} (h1 ++ (env, e) :: h2)) (i : Nat)
    (hi : e.handles i = true) : ∀ p ∈ h2, p.2.handles i = false ∧ p.2 ≠ .ev (.expire i) := by
  have key : ∀ (h2 : FHist K V E), FOk cfg {} (h1 ++ [(env, e)] ++ h2) → Spent i (fstate cfg (h1 ++ [(env, e)] ++ h2)) ∧
      ∀ p ∈ h2, p.2.handles i = false ∧ p.2 ≠ .ev (.expire i) := by
    intro h2
    induction h2 using snoc_ind with
    | h0 =>
      intro hok
      rw [List.append_nil] at hok ⊢
      have h0 := (FOk_snoc _ _ _ _).1 hok
      rw [fstate_snoc]
      exact ⟨spent_after hc (ftinv hc h1 h0.1) e h0.2 hi, by simp⟩
    | h1 h2 a ih =>
      obtain ⟨env', e'⟩ := a
      intro hok
      rw [← List.append_assoc] at hok ⊢
      have h0 := (FOk_snoc _ _ _ _).1 hok
      obtain ⟨s1, s2⟩ := ih h0.1
      have s3 := spent_keeps hc (ftinv hc _ h0.1) s1 e' h0.2
      rw [fstate_snoc]
      refine ⟨s3.1, fun p hp => ?_⟩
      rcases List.mem_append.1 hp with hp | hp
      · exact s2 p hp
      · simp only [List.mem_singleton] at hp
        subst hp
        refine ⟨s3.2, ?_⟩
        rintro rfl
        exact s1.2.2.2 h0.2.1
  exact (key h2 (by simpa using hok)).2

/-- The handler that fails in `unlucky` is followed by others. -/
example : timed10.Ok ∧ FOk timed10 {} (unlucky.take 3 ++ (at_ 10, .fail 0 (.ok 7) .later .alloc) :: unlucky.drop 4) ∧
    (FEv.fail 0 (.ok 7) .later .alloc : FEv Nat Nat Nat).handles 0 = true :=
  ⟨nat_ok rfl (by intro d i h; cases h; decide), unlucky_ok.1, rfl⟩

/-- The value of key 1 was due to be refreshed every 10.  One failed allocation at 10 is enough: it is shown ever after, and the resolver is not asked. -/
theorem C102_value_stays_for_ever (t : Int) (ht : 12 ≤ t) :
    (fout timed10 unlucky (at_ t) (.ev (.op (.getIfExists 1)))).ret = .val 5 ∧ (fstate timed10 unlucky).queue = [] ∧
    (fstate timed10 unlucky).s.delayQ = [2] ∧ (fledgerAfter timed10 unlucky).cur 2 = some 8 := by
  refine ⟨?_, by decide +kernel, by decide +kernel, by decide +kernel⟩
  rw [C102_exact_partial (nat_ok rfl (by intro d i h; cases h; decide)) rfl unlucky unlucky_ok.1 unlucky_tame unlucky_ok.2 (at_ t)]
  · have h1 : (fledgerAfter timed10 unlucky).cur 1 = some 5 := by decide +kernel
    rw [h1]; rfl
  · simp only [unlucky, List.map_cons, List.map_nil, List.cons_append, List.nil_append]
    exact mono_at [0, 2, 10, 10, 12, 12, t] (by simp; omega)

/-! ## The others -/

/-- C102, the others.  As long as a value is shown that is due and for which no refresh was started since it was written, its handler is queued, or its
timer can run out now, and when the handler runs the resolver is called for that key; unless that very handler has thrown before.  So a refresh that
fails costs no other value its refresh. -/
theorem C102_others_are_refreshed_partial (hc : cfg.Ok) (d I : Int) (hr : cfg.refresh = some (d, I)) (hk : cfg.resolver ≠ .none) (h : FHist K V E) (hok : FOk cfg {} h)
    (htm : Tame h) (hin : FAllInTime cfg {} h) (env : Env V) (hm : Mono (h.map (·.1) ++ [env])) (k : K) (v : V)
    (hv : (fout cfg h env (.ev (.op (.getIfExists k)))).ret = .val v) (hdue : (fledgerAfter cfg h).time k + d ≤ env.now) (ht : (fledgerAfter cfg h).tried k = false) :
    ∃ i, (∀ r b, ∃ a tok, (fout cfg h env (.ev (.handler i r b))).calls = [(a, tok)] ∧ cfg.eqv a k = true) ∧
      (FThrew cfg h i ∨ ∃ pre : FHist K V E, (pre = [] ∨ pre = [(env, .ev (.expire i))]) ∧ ∀ r b, FOk cfg {} (h ++ pre ++ [(env, .ev (.handler i r b))]) ∧
        ∃ a tok, (fout cfg (h ++ pre) env (.ev (.handler i r b))).calls = [(a, tok)] ∧ cfg.eqv a k = true) := by
  have g := reach_goodF hc (mo := True) (ex := False) (fun h => h.elim) h env hok htm hin (fun _ => hm) (fun h => h.elim)
  obtain ⟨e, he, hek, hx, hev⟩ := (peek_val hc g.good env k v).1 hv
  obtain ⟨_, _, _, c4, c5⟩ := (g.good.v k).c1 e he hek v hev
  have hrf : e.refreshing = false := by
    cases hh : e.refreshing
    · rfl
    · rw [hh, ht] at c5; simp at c5
  have hd : (fstate cfg h).s.destroyed = false := by
    cases hh : (fstate cfg h).s.destroyed
    · rfl
    · rw [g.good.wf2.opD hh] at he; cases he
  have run : ∀ t : TSt K V E, t.s.ents = (fstate cfg h).s.ents → t.s.destroyed = false → ∀ r b,
      ∃ a tok, (fnext cfg env t (.ev (.handler e.id r b))).2.calls = [(a, tok)] ∧ cfg.eqv a k = true := by
    intro t hents hdt r b
    have hf : t.s.findAny e.id = some e := by
      unfold St.findAny
      rw [hents, List.find?_append]
      have : (fstate cfg h).s.ents.find? (fun x => x.id == e.id) = some e := by
        cases hq : (fstate cfg h).s.ents.find? (fun x => x.id == e.id) with
        | none =>
          rw [List.find?_eq_none] at hq
          exact absurd (by simp) (hq e he)
        | some y =>
          have hy := List.mem_of_find?_eq_some hq
          have hyi : y.id = e.id := by simpa using List.find?_some hq
          rw [eq_of_id g.good.wf1 hy he hyi]
      rw [this]; rfl
    show ∃ a tok, (Timers.next cfg env t (.handler e.id r b)).2.calls = _ ∧ _
    rcases handler_eq (cfg := cfg) (env := env) t e.id r b with ⟨q, _⟩ | ⟨_, y, hy, q2⟩
    · rcases q with q | q
      · rw [hdt] at q; cases q
      · rw [hf] at q; cases q
    · rw [hf] at hy; cases hy
      rw [q2]
      rcases refresh_calls (cfg := cfg) (env := env) t.s e r b with ⟨q, _⟩ | q
      · exfalso
        unfold refresh at q
        rw [if_neg (by simp [hrf, hx])] at q
        revert q
        simp only
        repeat' split
        all_goals simp
      · exact ⟨e.key, _, q, hek⟩
  refine ⟨e.id, run _ rfl hd, ?_⟩
  rcases g.good.dq.dl3 trivial (by rw [hr]; rfl) e he (by simp [hev]) hrf with hh | hh | hh | hh
  · have hex : (FEv.ev (.expire e.id) : FEv K V E).ok cfg env (fstate cfg h) := by
      refine ⟨hh, e, he, rfl, ?_⟩
      rw [c4]; simp only [Ledger.dueAt, hr, Option.map_some, reached, decide_eq_true_eq]; exact hdue
    refine .inr ⟨[(env, .ev (.expire e.id))], .inr rfl, fun r b => ⟨?_, ?_⟩⟩
    · refine (FOk_snoc _ _ _ _).2 ⟨(FOk_snoc _ _ _ _).2 ⟨hok, hex⟩, ?_, hk⟩
      show e.id ∈ (fstate cfg (h ++ [(env, .ev (.expire e.id))])).queue
      rw [fstate_snoc]; simp [fnext, Timers.next]
    · unfold fout
      rw [fstate_snoc]
      exact run (Timers.next cfg env (fstate cfg h) (.expire e.id)).1 rfl hd r b
  · rw [hx] at hh; cases hh
  · refine .inr ⟨[], .inl rfl, fun r b => ⟨?_, ?_⟩⟩
    · rw [List.append_nil]
      exact (FOk_snoc _ _ _ _).2 ⟨hok, hh, hk⟩
    · rw [List.append_nil]
      exact run _ rfl hd r b
  · exact .inl hh

/-- At 22 the new value of key 2 is due again, ten after it was refreshed; its timer is started.  That of key 1, whose refresh failed, is not. -/
example : timed10.Ok ∧ timed10.refresh = some (10, 0) ∧ timed10.resolver ≠ .none ∧ FOk timed10 {} unlucky ∧ Tame unlucky ∧ FAllInTime timed10 {} unlucky ∧
    Mono (unlucky.map (·.1) ++ [at_ 22]) ∧ (fout timed10 unlucky (at_ 22) (.ev (.op (.getIfExists 2)))).ret = .val 8 ∧
    (fledgerAfter timed10 unlucky).time 2 + (10 : Int) ≤ (at_ 22).now ∧ (fledgerAfter timed10 unlucky).tried 2 = false ∧
    (fout timed10 unlucky (at_ 22) (.ev (.op (.getIfExists 1)))).ret = .val 5 ∧ (fledgerAfter timed10 unlucky).tried 1 = false ∧ FThrew timed10 unlucky 0 :=
  ⟨nat_ok rfl (by intro d i h; cases h; decide), rfl, by decide, unlucky_ok.1, unlucky_tame, unlucky_ok.2, mono_at [0, 2, 10, 10, 12, 12, 22] (by decide), by decide +kernel,
    by decide +kernel, by decide +kernel, by decide +kernel, by decide +kernel,
    unlucky.take 3, at_ 10, .ok 7, .later, .alloc, unlucky.drop 4, rfl, by decide +kernel⟩

/-! ## What goes wrong -/

/-- A functor that keeps its handle, throws, and delivers later: the new value 6 is stored, but the old one is shown. -/
theorem C102_late_delivery_is_hidden :
    let h : FHist Nat Nat Nat := thrower.take 3 ++ [(at_ 10, .fail 0 (.ok 7) .later .functor), (at_ 11, .ev (.op (.complete 1 (.ok 6))))]
    FOk atimed10 {} h ∧ FAllInTime atimed10 {} h ∧ (fledgerAfter atimed10 h).cur 1 = some 6 ∧
    (fout atimed10 h (at_ 12) (.ev (.op (.getIfExists 1)))).ret = .val 5 := by
  intro h
  exact ⟨(ok_of_fhokb (cfg := atimed10) (h := h) (by decide +kernel)).1, (ok_of_fhokb (cfg := atimed10) (h := h) (by decide +kernel)).2, by decide +kernel, by decide +kernel⟩

/-- C102, a failed registration.  If the callback that would retire the old value cannot be registered, the old value is retired at once: the key has no
value then, whatever the functor did with the handle so far. -/
theorem C102_failed_registration_removes_the_value (hc : cfg.Ok) (h : FHist K V E) (hok : FOk cfg {} h) (ht : Tame h) (hin : FAllInTime cfg {} h) (env : Env V) (i : Nat)
    (r : Res V E) (b : Beh V E) (he : (FEv.fail i r b .register).ok cfg env (fstate cfg h)) (hl : FInTime cfg env (fstate cfg h) (.fail i r b .register))
    (hthrows : (fout cfg h env (.fail i r b .register)).ret = .throws) :
    ∃ k tok v, (fout cfg h env (.fail i r b .register)).calls = [(k, tok)] ∧ (fout cfg h env (.ev (.op (.getIfExists k)))).ret = .val v ∧
      ∀ env' u, (fout cfg (h ++ [(env, .fail i r b .register)]) env' (.ev (.op (.getIfExists k)))).ret ≠ .val u := by
  have g := reach_goodF hc (mo := False) (ex := False) (fun h => h.elim) h env hok ht hin (fun h => h.elim) (fun h => h.elim)
  rcases fail_eq (cfg := cfg) (env := env) (fstate cfg h) i r b .register with ⟨_, h1⟩ | ⟨hd, e, hf, h1⟩
  · unfold fout at hthrows; rw [h1] at hthrows; cases hthrows
  · have hi := find_any hf
    subst hi
    have hthrows' := hthrows
    unfold fout at hthrows'
    rw [h1] at hthrows'
    simp only at hthrows'
    rcases refreshFail_cases (cfg := cfg) (env := env) (fstate cfg h).s e r b .register with ⟨_, q⟩ | q | ⟨gx, ⟨_, _, _, h0⟩ | ⟨_, _, _, h0⟩ | ⟨_, h0, _⟩ | ⟨ga, _, ⟨n, hn, hnp⟩, q⟩⟩
    · rw [q] at hthrows'; cases hthrows'
    · rw [q, refresh_ret] at hthrows'; cases hthrows'
    · exact absurd rfl h0
    · exact absurd rfl h0
    · cases h0
    · have hmem : e ∈ (fstate cfg h).s.ents := by
        rcases find_any_linked hf with h2 | h2
        · exact h2
        · obtain ⟨x, hx, hxi⟩ := hl (by rw [h1, q]; simp)
          exact absurd hxi (h2 x hx)
      have hR := refr_entry hc g trivial hmem he.1 gx
      obtain ⟨v, hv⟩ := Option.ne_none_iff_exists'.1 hR.val
      simp only [Bool.or_eq_false_iff] at gx
      refine ⟨e.key, (fstate cfg h).s.nextId, v, by unfold fout; rw [h1, q], (peek_val hc g.good env e.key v).2 ⟨e, hmem, hc.refl _, gx.2, hv⟩, ?_⟩
      intro env' u hu
      rw [show fout cfg (h ++ [(env, FEv.fail e.id r b .register)]) env' (.ev (.op (.getIfExists e.key))) =
        getIfExists cfg env' (fstate cfg (h ++ [(env, FEv.fail e.id r b .register)])).s e.key from rfl, fstate_snoc, h1, q] at hu
      simp only [getIfExists] at hu
      generalize hp : peekWalk cfg env' e.key _ = l at hu
      cases l <;> simp [optRet] at hu
      subst hu
      obtain ⟨x, hx, hxk, hxv⟩ := peekWalk_val hp
      have hx := bucket_mem hx
      obtain ⟨_, w, rr, _, _, _, _⟩ := resolveAsync_spc (F := ({} : Eff K V)) env g.good.wf1 g.good.wf2 hd e.key b
      generalize (resolveAsync cfg env (fstate cfg h).s e.key b).1 = s1 at *
      have w2 := w.modify e.id (f := fun x => { x with refreshing := true }) (fun _ => ⟨rfl, rfl⟩)
      obtain ⟨hn1, hn2⟩ := find_some hn
      rw [ents_modify] at hx
      obtain ⟨y, hy, rfl⟩ := List.mem_map.1 hx
      by_cases hye : y.id = e.id
      · simp only [atId, hye, if_true, Entry.upd] at hxv
        cases hm : y.mapped <;> rw [hm] at hxv <;> simp [Mapped.markExpired, Mapped.val?] at hxv
      · have hyy : atId e.id (·.upd .markExpired) y = y := by simp [atId, hye]
        rw [hyy] at hxk hxv
        by_cases hyn : y.id = (fstate cfg h).s.nextId
        · have : y = n := eq_of_id w2 hy hn1 (hyn.trans hn2.symm)
          subst this
          cases hm : y.mapped <;> rw [hm] at hxv <;> simp [Mapped.val?, Entry.isPending, Mapped.isPending, hm] at hxv hnp
        · rw [ents_modify] at hy
          obtain ⟨z, hz, rfl⟩ := List.mem_map.1 hy
          have hze : z.id ≠ e.id := by
            intro hh; apply hye; simp [atId, hh]
          have hzz : atId e.id (fun x : Entry K V E => { x with refreshing := true }) z = z := by simp [atId, hze]
          rw [hzz] at hxk hxv hyn
          obtain ⟨z0, hz0, sh⟩ := rr.bwd z hz hyn
          exact hze (sh.id.trans (hR.only z0 hz0 (sh.key ▸ hxk) (by rw [sh.val _ hxv]; simp)))

/-- At 10 the registration fails.  5 is gone; the functor still has its handle, and delivers 6 at 11.  Had it let go of the handle, nothing would be stored any more. -/
example :
    let f : FEv Nat Nat Nat := .fail 0 (.ok 7) .later .register
    let h : FHist Nat Nat Nat := thrower.take 3 ++ [(at_ 10, f)]
    atimed10.Ok ∧ FOk atimed10 {} (thrower.take 3) ∧ Tame (thrower.take 3) ∧ FAllInTime atimed10 {} (thrower.take 3) ∧ f.ok atimed10 (at_ 10) (fstate atimed10 (thrower.take 3)) ∧
    FInTime atimed10 (at_ 10) (fstate atimed10 (thrower.take 3)) f ∧ (fout atimed10 (thrower.take 3) (at_ 10) f).ret = .throws ∧
    (fout atimed10 h (at_ 11) (.ev (.op (.getIfExists 1)))).ret = .miss ∧
    (fout atimed10 (h ++ [(at_ 11, .ev (.op (.complete 1 (.ok 6))))]) (at_ 12) (.ev (.op (.getIfExists 1)))).ret = .val 6 ∧
    (fledgerAfter atimed10 (thrower.take 3 ++ [(at_ 10, .fail 0 (.ok 7) .drop .register)])).cur 1 = some 5 ∧
    (fout atimed10 (thrower.take 3 ++ [(at_ 10, .fail 0 (.ok 7) .drop .register)]) (at_ 11) (.ev (.op (.getIfExists 1)))).ret = .miss := by
  intro f h
  have h3 := ok_of_fhokb (cfg := atimed10) (h := thrower.take 3) (t := {}) (by decide +kernel)
  refine ⟨nat_ok rfl (by intro d i h; cases h; decide), h3.1, fun p hp => thrower_tame p (List.mem_of_mem_take hp), h3.2, ⟨by decide +kernel, by decide⟩,
    fun _ => ?_, by decide +kernel, by decide +kernel, by decide +kernel, by decide +kernel, by decide +kernel⟩
  have : ((fstate atimed10 (thrower.take 3)).s.ents.any (fun e => e.id == 0)) = true := by decide +kernel
  simpa using this

/-! ## The refresh thread -/

/-- C102, refresh thread.  If a refresh of the refresh thread cannot get memory, or its functor throws, the program ends: exactly when there was a
value to refresh. -/
theorem C102_refresh_thread_ends_the_program (h : Hist K V E) (env : Env V) (r : Res V E) (b : Beh V E) (f : RFail)
    (hf : f = .alloc ∨ cfg.resolver = .async ∧ f = .functor) :
    (tickFail cfg env (stateAfter cfg h) r b f).2.2 = true ↔ (outAt cfg h env (.tick r b)).calls ≠ [] := by
  have key : ∀ (s : St K V E) (e : Entry K V E), (refreshFail cfg env s e r b f).2.ret = .throws ↔ (refresh cfg env s e r b).2.calls ≠ [] := by
    intro s e
    by_cases hx : (e.refreshing || e.expired env) = true
    · simp [refreshFail, refresh, hx]
    · rw [refreshed_calls s e r b (by simpa using hx)]
      rcases hf with rfl | ⟨ha, rfl⟩ <;> simp [refreshFail, *]
  show (tickFail cfg env (stateAfter cfg h) r b f).2.2 = true ↔ (tick cfg env (stateAfter cfg h) r b).2.calls ≠ []
  generalize stateAfter cfg h = s
  unfold tickFail tick
  cases s.delayQ with
  | nil => simp
  | cons i q =>
    simp only
    cases s.find i with
    | none => simp
    | some e =>
      simp only
      split
      · rw [← key]
        simp only
        split
        · rename_i hh; simp [hh]
        · rename_i hh; simpa using hh
      · simp

/-- The value stored at 0 is to be refreshed at 10. -/
example :
    let h : Hist Nat Nat Nat := [(at_ 0, .get 1 (.ok 5))]
    (outAt timed10 h (at_ 10) (.tick (.ok 6) .later)).calls = [(1, 1)] ∧ (tickFail timed10 (at_ 10) (stateAfter timed10 h) (.ok 6) .later .alloc).2.2 = true ∧
    (tickFail timed10 (at_ 9) (stateAfter timed10 h) (.ok 6) .later .alloc).2.2 = false := by decide +kernel

end Hoard.Props
