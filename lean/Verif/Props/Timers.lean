import Verif.TimersInv
import Verif.ValueLemmas
import Verif.Demo
/-! # Refreshing by timers: C60, C61, C62 -/
namespace Hoard.Props
open Hoard Spec Demo Timers
variable {K V E : Type} {cfg : Cfg K}

/-! ## Checking concrete histories -/

def tokb (cfg : Cfg Nat) (env : Env Nat) (t : TSt Nat Nat Nat) : Timers.Ev Nat Nat Nat → Bool
  | .op o => decide (o.ok cfg t.s) && (match o with | .tick _ _ => false | _ => true)
  | .expire i => decide (i ∈ t.s.delayQ) && t.s.ents.any (fun e => e.id == i && reached env.now e.refTp)
  | .handler i _ _ => decide (i ∈ t.queue) && decide (cfg.resolver ≠ .none)

def intimeb (cfg : Cfg Nat) (env : Env Nat) (t : TSt Nat Nat Nat) : Timers.Ev Nat Nat Nat → Bool
  | .handler i r b => (next cfg env t (.handler i r b)).2.calls.isEmpty || t.s.ents.any (fun e => e.id == i)
  | _ => true

def thokb (cfg : Cfg Nat) (late : Bool) : TSt Nat Nat Nat → THist Nat Nat Nat → Bool
  | _, [] => true
  | t, (env, e) :: h => tokb cfg env t e && (late || intimeb cfg env t e) && thokb cfg late (next cfg env t e).1 h

theorem ok_of_tokb {cfg : Cfg Nat} {env : Env Nat} {t : TSt Nat Nat Nat} {e : Timers.Ev Nat Nat Nat} (h : tokb cfg env t e = true) : e.ok cfg env t := by
  cases e with
  | op o =>
    simp only [tokb, Bool.and_eq_true, decide_eq_true_eq] at h
    exact ⟨h.1, fun r b hh => by subst hh; cases h.2⟩
  | expire i =>
    simp only [tokb, Bool.and_eq_true, decide_eq_true_eq, List.any_eq_true, beq_iff_eq] at h
    obtain ⟨h1, e, h2, h3, h4⟩ := h
    exact ⟨h1, e, h2, h3, h4⟩
  | handler i r b => simpa [tokb, Ev.ok] using h

theorem ok_of_thokb {cfg : Cfg Nat} {late : Bool} : ∀ {h : THist Nat Nat Nat} {t : TSt Nat Nat Nat}, thokb cfg late t h = true →
    TOk cfg t h ∧ (late = false → AllInTime cfg t h)
  | [], _, _ => ⟨trivial, fun _ => trivial⟩
  | (env, e) :: h, t, hh => by
    simp only [thokb, Bool.and_eq_true] at hh
    obtain ⟨⟨h1, h2⟩, h3⟩ := hh
    have ih := ok_of_thokb h3
    refine ⟨⟨ok_of_tokb h1, ih.1⟩, fun hl => ⟨?_, ih.2 hl⟩⟩
    subst hl
    cases e with
    | op o => trivial
    | expire i => trivial
    | handler i r b =>
      intro hne
      simp only [intimeb, Bool.false_or, Bool.or_eq_true, List.isEmpty_iff, List.any_eq_true, beq_iff_eq] at h2
      rcases h2 with h2 | h2
      · exact absurd h2 hne
      · exact h2

/-- Refresh by timers every 10, synchronous resolver. -/
def timed10 : Cfg Nat := { plain with resolver := .sync, refresh := some (10, 0) }

/-- The same with an asynchronous resolver. -/
def atimed10 : Cfg Nat := { plain with resolver := .async, refresh := some (10, 0) }

/-! ## C60 -/

/-- C60, if no handler is late.  A stored value that is shown is the one written last, by the user, the resolver or a refresh; it was not
removed since, and it is not too old.

The full claim, for handlers that may be late, is false: see `C60_erased_key_comes_back` and `C60_overtaken_value_shown`. -/
theorem C60_answers_are_current_partial (hc : cfg.Ok) (h : THist K V E) (hok : TOk cfg {} h) (hin : AllInTime cfg {} h) (env : Env V) (o : Op K V E)
    (ho : o.ok cfg (stateT cfg h).s) (k : K) (v : V) (ha : answered o (outT cfg h env (.op o)) = some (k, v))
    (hca : (outT cfg h env (.op o)).calls = []) (hm : (outT cfg h env (.op o)).made = false) :
    (ledgerAfterT cfg h).cur k = some v ∧ env.now.past ((ledgerAfterT cfg h).ageLimit cfg.maxAge cfg.wall k) = false ∧
      reached env.now ((ledgerAfterT cfg h).idleLimit cfg.refresh k) = false := by
  have g := (reach_goodT hc (mo := False) (ex := False) (fun h => h.elim) h env hok hin (fun h => h.elim) (fun h => h.elim)).good
  obtain ⟨h1, h2, _⟩ := stored_valid hc g (fun h => h) ho ha hca hm
  simp only [not_or, Bool.not_eq_true] at h2
  exact ⟨h1, h2.1, h2.2⟩

/-- C60, exactness, if no handler is late and there is no size limit: a key has its value written last until it is removed or too old.  In
particular a value stays available while it is being refreshed. -/
theorem C60_exact_partial (hc : cfg.Ok) (hs : cfg.maxSize = none) (h : THist K V E) (hok : TOk cfg {} h) (hin : AllInTime cfg {} h) (env : Env V)
    (hm : Mono (h.map (·.1) ++ [env])) (k : K) :
    (outT cfg h env (.op (.getIfExists k))).ret =
      match (ledgerAfterT cfg h).cur k with
      | none => .miss
      | some v => if env.now.past ((ledgerAfterT cfg h).ageLimit cfg.maxAge cfg.wall k) || reached env.now ((ledgerAfterT cfg h).idleLimit cfg.refresh k) then .miss else .val v := by
  have hx : NoEvictT cfg {} h := by
    have : ∀ (h : THist K V E) (t : TSt K V E), NoEvictT cfg t h := by
      intro h
      induction h with
      | nil => intro t N hN; rw [hs] at hN; cases hN
      | cons p h ih => intro t; exact ⟨fun N hN => by rw [hs] at hN; (cases hN), ih _⟩
    exact this h _
  have g := (reach_goodT hc (mo := True) (ex := True) (fun _ => .inl trivial) h env hok hin (fun _ => hm) (fun _ => hx)).good
  exact peek_exact hc g trivial hs k

/-- A handler that runs as soon as its timer has run out is in time. -/
theorem C60_prompt_handlers_are_in_time (h : THist K V E) (hok : TOk cfg {} h)
    (hp : ∀ h1 env i r b h2, h = h1 ++ (env, .handler i r b) :: h2 → ∃ h0 env0, h1 = h0 ++ [(env0, .expire i)]) : AllInTime cfg {} h := by
  induction h using snoc_ind with
  | h0 => trivial
  | h1 h a ih =>
    obtain ⟨env, e⟩ := a
    rw [TOk_snoc] at hok
    refine (AllInTime_snoc _ _ _ _).2 ⟨ih hok.1 fun h1 env' i r b h2 hh => hp h1 env' i r b (h2 ++ [(env, e)]) (by simp [hh]), ?_⟩
    cases e with
    | op o => trivial
    | expire i => trivial
    | handler i r b =>
      intro _
      obtain ⟨h0, env0, rfl⟩ := hp h env i r b [] rfl
      have h2 := (TOk_snoc _ _ _ _).1 hok.1
      obtain ⟨_, e, he, hi, _⟩ := h2.2
      rw [runT_snoc]
      exact ⟨e, he, hi⟩

/-- Where values come from, whether or not handlers are late: a value shown for a key was inserted for it, or the resolver delivered it for
that key. -/
theorem C60_values_have_a_source (hc : cfg.Ok) (h : THist K V E) (hok : TOk cfg {} h) (env : Env V) (o : Op K V E) (ho : (Timers.Ev.op o).ok cfg env (stateT cfg h))
    (k : K) (v : V) (ha : answered o (outT cfg h env (.op o)) = some (k, v)) : ProvidedT cfg (h ++ [(env, .op o)]) k v :=
  shown_provided hc h hok o ho ha

/-- A value is stored, refreshed at 12, removed at 13, and stored again at 14. -/
def punctual : THist Nat Nat Nat :=
  [(at_ 0, .op (.get 1 (.ok 5))), (at_ 12, .expire 0), (at_ 12, .handler 0 (.ok 6) .later), (at_ 13, .op (.erase 1)), (at_ 14, .op (.get 1 (.ok 7)))]

/-- The hypotheses of the theorems hold for it, and a stored value is shown. -/
example : timed10.Ok ∧ TOk timed10 {} punctual ∧ AllInTime timed10 {} punctual ∧ Mono (punctual.map (·.1) ++ [at_ 15]) ∧
    answered (.getIfExists 1) (outT timed10 punctual (at_ 15) (.op (.getIfExists 1))) = some (1, 7) ∧
    (ledgerAfterT timed10 (punctual.take 3)).cur 1 = some 6 :=
  have h := ok_of_thokb (cfg := timed10) (late := false) (h := punctual) (t := {}) (by decide +kernel)
  ⟨nat_ok rfl (by intro d i h; cases h; decide), h.1, h.2 rfl, mono_at [0, 12, 12, 13, 14, 15] (by decide), by decide +kernel, by decide +kernel⟩

/-- Its handler is prompt. -/
example : ∀ h1 env i r b h2, punctual = h1 ++ (env, .handler i r b) :: h2 → ∃ h0 env0, h1 = h0 ++ [(env0, .expire i)] := by
  intro h1 env i r b h2 h
  match h1 with
  | [] => simp [punctual] at h
  | [_] => simp [punctual] at h
  | [x, y] =>
    simp [punctual] at h
    obtain ⟨rfl, rfl, ⟨_, rfl, _⟩, _⟩ := h
    exact ⟨[(at_ 0, .op (.get 1 (.ok 5)))], at_ 12, rfl⟩
  | [_, _, _] => simp [punctual] at h
  | [_, _, _, _] => simp [punctual] at h
  | _ :: _ :: _ :: _ :: _ :: _ => simp [punctual] at h

/-- C60 is false if handlers can be late.  A timer runs out at 10; before its handler runs, the user erases the key.  The handler
asks the resolver all the same, and from then on the erased key has a value. -/
theorem C60_erased_key_comes_back : ∃ h : THist Nat Nat Nat, TOk timed10 {} (h ++ [(at_ 11, .op (.erase 1)), (at_ 12, .handler 0 (.ok 7) .later)]) ∧
    (outT timed10 (h ++ [(at_ 11, .op (.erase 1))]) (at_ 11) (.op (.getIfExists 1))).ret = .miss ∧
    (outT timed10 (h ++ [(at_ 11, .op (.erase 1)), (at_ 12, .handler 0 (.ok 7) .later)]) (at_ 12) (.op (.getIfExists 1))).ret = .val 7 :=
  ⟨[(at_ 0, .op (.get 1 (.ok 5))), (at_ 10, .expire 0)], (ok_of_thokb (late := true) (by decide +kernel)).1, by decide +kernel, by decide +kernel⟩

/-- The user inserts 6 between the timer and its handler, which gets 7 from the resolver.  At 21 the value 6 is refreshed to 8. -/
def overtaken : THist Nat Nat Nat :=
  [(at_ 0, .op (.get 1 (.ok 5))), (at_ 10, .expire 0), (at_ 11, .op (.emplace 1 6 .none)), (at_ 12, .handler 0 (.ok 7) .later), (at_ 21, .expire 1),
   (at_ 21, .handler 1 (.ok 8) .later)]

/-- C60 is false if handlers can be late, even without any removal: the cache goes on showing 7, although the resolver returned 8 later. -/
theorem C60_overtaken_value_shown : TOk timed10 {} overtaken ∧ (ledgerAfterT timed10 overtaken).cur 1 = some 8 ∧
    (outT timed10 overtaken (at_ 21) (.op (.get 1 (.ok 9)))).ret = .val 7 ∧ (outT timed10 overtaken (at_ 21) (.op (.get 1 (.ok 9)))).calls = [] :=
  ⟨(ok_of_thokb (late := true) (by decide +kernel)).1, by decide +kernel, by decide +kernel, by decide +kernel⟩

/-! ## C61 -/

/-- C61, at most once.  The handler of a stored value is called at most once, whatever the schedule. -/
theorem C61_handler_runs_once (hc : cfg.Ok) (h : THist K V E) (hok : TOk cfg {} h) (i : Nat) : h.countP (fun p => p.2.handles i) ≤ 1 :=
  (handled_once hc h hok i).1

/-- C61, not early and not in vain, if no handler is late: a handler calls the resolver at most once, and only if the key has a live value, that was written
at least the delay ago, and for which no refresh was started since. -/
theorem C61_refresh_is_due_partial (hc : cfg.Ok) (h : THist K V E) (hok : TOk cfg {} h) (hin : AllInTime cfg {} h) (env : Env V)
    (hm : Mono (h.map (·.1) ++ [env])) (i : Nat) (r : Res V E) (b : Beh V E) (he : (Timers.Ev.handler i r b : Timers.Ev K V E).ok cfg env (stateT cfg h))
    (hl : InTime cfg env (stateT cfg h) (.handler i r b)) :
    (outT cfg h env (.handler i r b)).calls = [] ∨
    ∃ k tok v, (outT cfg h env (.handler i r b)).calls = [(k, tok)] ∧ (outT cfg h env (.op (.getIfExists k))).ret = .val v ∧
      reached env.now ((ledgerAfterT cfg h).dueAt cfg.refresh k) = true ∧ (ledgerAfterT cfg h).tried k = false := by
  have g := reach_goodT hc (mo := True) (ex := False) (fun h => h.elim) h env hok hin (fun _ => hm) (fun h => h.elim)
  have ti := tinv hc h hok
  rcases (handler_ok hc g trivial ti i r b he.1 hl).2 trivial with h1 | ⟨k, h1, ⟨v, hv⟩, h2, _, h3⟩
  · left; unfold outT; exact congrArg Out.calls h1
  · have h1' : (next cfg env (stateT cfg h) (.handler i r b)).2.calls = [(k, (stateT cfg h).s.nextId)] := congrArg Out.calls h1
    right
    rcases handler_eq (cfg := cfg) (env := env) (stateT cfg h) i r b with ⟨_, q2⟩ | ⟨_, e, hf, q2⟩
    · rw [q2] at h1'; cases h1'
    · have hcall := h1'
      rw [q2] at hcall
      simp only at hcall
      obtain ⟨x, hx, hxi⟩ := hl (by rw [h1']; simp)
      have hel : e ∈ (stateT cfg h).s.ents := by
        rcases find_any_linked hf with h | h
        · exact h
        · exact absurd hxi (h x hx)
      have hne : (e.refreshing || e.expired env) = false := by
        cases hh : (e.refreshing || e.expired env) with
        | false => rfl
        | true => unfold refresh at hcall; rw [if_pos hh] at hcall; cases hcall
      have hkey : e.key = k := by
        rcases refresh_calls (cfg := cfg) (env := env) (stateT cfg h).s e r b with ⟨q, _⟩ | q
        · rw [q] at hcall; cases hcall
        · rw [q] at hcall; simp at hcall; exact hcall
      have hnp := (g.due e hel (by rw [find_any hf]; exact he.1)).1
      simp only [Bool.or_eq_false_iff] at hne
      obtain ⟨u, hu⟩ := Option.ne_none_iff_exists'.1 (refr_of hc g.good.wf2 hel hnp hne.1 hne.2 (g.good.dq.noVoid trivial e hel)).val
      exact ⟨k, _, u, h1', (peek_val hc g.good env k u).2 ⟨e, hel, by rw [hkey]; exact hc.refl k, hne.2, hu⟩, h2, h3⟩

/-- C61, none is forgotten, if no handler is late: as long as a value is shown that is due and for which no refresh was started since it was written, its
handler is queued, or its timer can run out now; and when the handler runs, the resolver is called for that key. -/
theorem C61_due_value_is_refreshed_partial (hc : cfg.Ok) (d I : Int) (hr : cfg.refresh = some (d, I)) (hk : cfg.resolver ≠ .none) (h : THist K V E) (hok : TOk cfg {} h)
    (hin : AllInTime cfg {} h) (env : Env V) (hm : Mono (h.map (·.1) ++ [env])) (k : K) (v : V)
    (hv : (outT cfg h env (.op (.getIfExists k))).ret = .val v) (hdue : (ledgerAfterT cfg h).time k + d ≤ env.now) (ht : (ledgerAfterT cfg h).tried k = false) :
    ∃ i, ∃ pre : THist K V E, (pre = [] ∨ pre = [(env, .expire i)]) ∧ ∀ r b, TOk cfg {} (h ++ pre ++ [(env, .handler i r b)]) ∧
      ∃ a tok, (outT cfg (h ++ pre) env (.handler i r b)).calls = [(a, tok)] ∧ cfg.eqv a k = true := by
  have g := reach_goodT hc (mo := True) (ex := False) (fun h => h.elim) h env hok hin (fun _ => hm) (fun h => h.elim)
  obtain ⟨e, he, hek, hx, hev⟩ := (peek_val hc g.good env k v).1 hv
  obtain ⟨_, _, _, c4, c5⟩ := (g.good.v k).c1 e he hek v hev
  have hrf : e.refreshing = false := by
    cases hh : e.refreshing
    · rfl
    · rw [hh, ht] at c5; simp at c5
  have hd : (stateT cfg h).s.destroyed = false := by
    cases hh : (stateT cfg h).s.destroyed
    · rfl
    · rw [g.good.wf2.opD hh] at he; cases he
  have run : ∀ t : TSt K V E, t.s.ents = (stateT cfg h).s.ents → t.s.destroyed = false → ∀ r b,
      ∃ a tok, (next cfg env t (.handler e.id r b)).2.calls = [(a, tok)] ∧ cfg.eqv a k = true := by
    intro t hents hdt r b
    have hf : t.s.findAny e.id = some e := by
      unfold St.findAny
      rw [hents, List.find?_append]
      have : (stateT cfg h).s.ents.find? (fun x => x.id == e.id) = some e := by
        cases hq : (stateT cfg h).s.ents.find? (fun x => x.id == e.id) with
        | none =>
          rw [List.find?_eq_none] at hq
          exact absurd (by simp) (hq e he)
        | some y =>
          have hy := List.mem_of_find?_eq_some hq
          have hyi : y.id = e.id := by simpa using List.find?_some hq
          rw [eq_of_id g.good.wf1 hy he hyi]
      rw [this]; rfl
    rcases handler_eq (cfg := cfg) (env := env) t e.id r b with ⟨q, _⟩ | ⟨_, y, hy, q2⟩
    · rcases q with q | q
      · rw [hdt] at q; cases q
      · rw [hf] at q; cases q
    · rw [hf] at hy; cases hy
      rw [q2]
      rcases refresh_calls (cfg := cfg) (env := env) t.s e r b with ⟨q, _⟩ | q
      · exfalso
        unfold refresh at q
        rw [if_neg (by simp [hrf, hx])] at q
        revert q
        simp only
        repeat' split
        all_goals simp
      · exact ⟨e.key, _, q, hek⟩
  rcases g.good.dq.dl3 trivial (by rw [hr]; rfl) e he (by simp [hev]) hrf with hh | hh | hh
  · have hex : (Timers.Ev.expire e.id : Timers.Ev K V E).ok cfg env (stateT cfg h) := by
      refine ⟨hh, e, he, rfl, ?_⟩
      rw [c4]; simp only [Ledger.dueAt, hr, Option.map_some, reached, decide_eq_true_eq]; exact hdue
    refine ⟨e.id, [(env, .expire e.id)], .inr rfl, fun r b => ⟨?_, ?_⟩⟩
    · refine (TOk_snoc _ _ _ _).2 ⟨(TOk_snoc _ _ _ _).2 ⟨hok, hex⟩, ?_, hk⟩
      rw [runT_snoc]; simp [next]
    · unfold outT
      rw [stateT_snoc]
      exact run (next cfg env (stateT cfg h) (.expire e.id)).1 rfl hd r b
  · rw [hx] at hh; cases hh
  · refine ⟨e.id, [], .inl rfl, fun r b => ⟨?_, ?_⟩⟩
    · rw [List.append_nil]
      exact (TOk_snoc _ _ _ _).2 ⟨hok, hh, hk⟩
    · rw [List.append_nil]
      exact run _ rfl hd r b

/-- C61, after destruction: a handler that runs after the cache was destroyed does nothing. -/
theorem C61_silent_after_destruction (h : THist K V E) (hd : (stateT cfg h).s.destroyed = true) (env : Env V) (i : Nat) (r : Res V E) (b : Beh V E) :
    (outT cfg h env (.handler i r b)).calls = [] ∧ (stateT cfg (h ++ [(env, .handler i r b)])).s = (stateT cfg h).s := by
  rw [stateT_snoc]
  unfold outT
  simp [next, hd]

/-- At 12 the handler of the value stored at 0 is queued; when it runs the resolver is called. -/
example : TOk timed10 {} (punctual.take 2) ∧ (outT timed10 (punctual.take 2) (at_ 12) (.handler 0 (.ok 6) .later)).calls = [(1, 1)] ∧
    (Timers.Ev.handler 0 (.ok 6) .later : Timers.Ev Nat Nat Nat).ok timed10 (at_ 12) (stateT timed10 (punctual.take 2)) ∧
    InTime timed10 (at_ 12) (stateT timed10 (punctual.take 2)) (.handler 0 (.ok 6) .later) ∧
    (outT timed10 (punctual.take 2) (at_ 12) (.op (.getIfExists 1))).ret = .val 5 ∧ (ledgerAfterT timed10 (punctual.take 2)).tried 1 = false ∧
    ((ledgerAfterT timed10 (punctual.take 2)).time 1).steady + 10 ≤ 12 ∧ punctual.countP (fun p => p.2.handles 0) = 1 := by
  refine ⟨(ok_of_thokb (late := true) (by decide +kernel)).1, by decide +kernel, ok_of_tokb (by decide +kernel), fun _ => ?_, by decide +kernel, by decide +kernel,
    by decide +kernel, by decide +kernel⟩
  have : (stateT timed10 (punctual.take 2)).s.ents.any (fun e => e.id == 0) = true := by decide +kernel
  simpa using this

/-! ## C62 -/

/-- C62 for a cache without size limit, if no handler is late: with the policy that computes the delay from the value, completing a lookup with a value terminates the
program exactly if the lookup was invalidated since it was started.  The full claim, "never", is false: see `C62_completion_terminates`. -/
theorem C62_terminates_iff_invalidated_partial (hc : cfg.Ok) (hs : cfg.maxSize = none) (h : THist K V E) (hok : TOk cfg {} h) (hin : AllInTime cfg {} h) (env : Env V)
    (hm : Mono (h.map (·.1) ++ [env])) (hd : (stateT cfg h).s.destroyed = false) (tok : Nat) (v : V)
    (ho : (outT cfg h env (.op (.complete tok (.ok v)))).ret = .bool true) :
    terminates cfg env (stateT cfg h) (.op (.complete tok (.ok v))) = true ↔ ∀ k, (ledgerAfterT cfg h).valid k ≠ some tok := by
  have hx : NoEvictT cfg {} h := by
    have : ∀ (h : THist K V E) (t : TSt K V E), NoEvictT cfg t h := by
      intro h
      induction h with
      | nil => intro t N hN; rw [hs] at hN; cases hN
      | cons p h ih => intro t; exact ⟨fun N hN => by rw [hs] at hN; (cases hN), ih _⟩
    exact this h _
  have g := (reach_goodT hc (mo := True) (ex := True) (fun _ => .inl trivial) h env hok hin (fun _ => hm) (fun _ => hx)).good
  have hopen : tok ∈ (stateT cfg h).s.opens := by
    by_cases hh : tok ∈ (stateT cfg h).s.opens
    · exact hh
    · simp [outT, next, step, complete, hh] at ho
  obtain ⟨T, hT, hid, hp⟩ := g.wf2.opE hd tok hopen
  have hf : (stateT cfg h).s.findAny tok = some T := by
    unfold St.findAny
    rw [List.find?_append]
    cases hq : (stateT cfg h).s.ents.find? (fun x => x.id == tok) with
    | none =>
      rw [List.find?_eq_none] at hq
      exact absurd (by simpa using hid) (hq T hT)
    | some y =>
      have hy := List.mem_of_find?_eq_some hq
      have hyi : y.id = tok := by simpa using List.find?_some hq
      rw [eq_of_id g.wf1 hy hT (hyi.trans hid.symm)]; rfl
  have hst := g.g.st trivial (.inr (.inr hs)) T hT
  have hval : (∃ k, (ledgerAfterT cfg h).valid k = some tok) ↔ T.mapped.live = true := by
    constructor
    · rintro ⟨k, hk⟩
      obtain ⟨_, T', hT', hi', _, _, hl, _⟩ := (g.p k).c3 hd tok hk
      rw [eq_of_id g.wf1 hT hT' (hid.trans hi'.symm)]
      exact hl trivial
    · intro hl
      exact ⟨T.key, by rw [← hid]; exact (g.p T.key).c2 T hT (hc.refl _) hl⟩
  have hu : terminates cfg env (stateT cfg h) (.op (.complete tok (.ok v))) = !T.mapped.live := by
    simp only [terminates, unreadable, hopen, hd, hf, decide_true, Bool.not_false, Bool.and_self, Bool.true_and]
    unfold Entry.isPending at hp
    cases hmp : T.mapped <;> rw [hmp] at hp hst <;> simp only [Mapped.isPending, Bool.false_eq_true] at hp
    rename_i p
    simp only [Mapped.strong, Bool.not_eq_true'] at hst
    cases he : p.expired <;> simp [completed, Mapped.assigned, Mapped.get, Mapped.live, he, hst]
  rw [hu]
  constructor
  · intro h1 k hk
    rw [hval.1 ⟨k, hk⟩] at h1; cases h1
  · intro h1
    cases hl : T.mapped.live
    · rfl
    · obtain ⟨k, hk⟩ := hval.2 hl
      exact absurd hk (h1 k)

/-- C62: only a step that completes a lookup with a value can terminate the program; a completion that comes too late, or after the end of the cache, cannot. -/
theorem C62_only_effective_completions (h : THist K V E) (env : Env V) (e : Timers.Ev K V E) (ht : terminates cfg env (stateT cfg h) e = true) :
    ∃ tok v, e = .op (.complete tok (.ok v)) ∧ (outT cfg h env e).ret = .bool true := by
  cases e with
  | op o =>
    cases o with
    | complete tok r =>
      cases r with
      | ok v =>
        simp only [terminates, Bool.and_eq_true, decide_eq_true_eq, Bool.not_eq_true'] at ht
        exact ⟨tok, v, rfl, by simp [outT, next, step, complete, ht.1.1, ht.1.2]⟩
      | err x => cases ht
    | _ => cases ht
  | _ => cases ht

/-- C62 is false: the key is erased while its lookup is in flight, and then the lookup delivers a value. -/
theorem C62_completion_terminates : ∃ h : THist Nat Nat Nat, TOk atimed10 {} h ∧ AllInTime atimed10 {} h ∧
    (outT atimed10 h (at_ 2) (.op (.complete 0 (.ok 5)))).ret = .bool true ∧
    terminates atimed10 (at_ 2) (stateT atimed10 h) (.op (.complete 0 (.ok 5))) = true :=
  have q := ok_of_thokb (cfg := atimed10) (late := false) (t := {}) (h := [(at_ 0, .op (.asyncGet 1 10 .later)), (at_ 1, .op (.erase 1))]) (by decide +kernel)
  ⟨[(at_ 0, .op (.asyncGet 1 10 .later)), (at_ 1, .op (.erase 1))], q.1, q.2 rfl, by decide +kernel, by decide +kernel⟩

/-- Without the removal it does not. -/
example : atimed10.Ok ∧ TOk atimed10 {} ([(at_ 0, .op (.asyncGet 1 10 .later))] : THist Nat Nat Nat) ∧
    (stateT atimed10 ([(at_ 0, .op (.asyncGet 1 10 .later))] : THist Nat Nat Nat)).s.destroyed = false ∧
    (outT atimed10 ([(at_ 0, .op (.asyncGet 1 10 .later))] : THist Nat Nat Nat) (at_ 2) (.op (.complete 0 (.ok 5)))).ret = .bool true ∧
    (ledgerAfterT atimed10 ([(at_ 0, .op (.asyncGet 1 10 .later))] : THist Nat Nat Nat)).valid 1 = some 0 ∧
    terminates atimed10 (at_ 2) (stateT atimed10 [(at_ 0, .op (.asyncGet 1 10 .later))]) (.op (.complete 0 (.ok 5)) : Timers.Ev Nat Nat Nat) = false :=
  ⟨nat_ok rfl (by intro d i h; cases h; decide), (ok_of_thokb (late := true) (by decide +kernel)).1, by decide +kernel, by decide +kernel, by decide +kernel, by decide +kernel⟩

end Hoard.Props
