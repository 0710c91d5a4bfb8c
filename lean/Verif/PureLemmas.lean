import Verif.Spec.Pure
import Verif.ValueLemmas
import Verif.AsyncLemmas
import Verif.Demo
import Verif.Spec.MapSpec
import Verif.Destroyed
/-! Helper lemmas for `Props/Pure.lean`. -/
namespace Hoard
open Spec
variable {K V E : Type} {cfg : Cfg K} {f : K → Res V E}

theorem outAt_mem {h h1 h2 : Hist K V E} {e : Env V} {o : Op K V E} (hh : h = h1 ++ (e, o) :: h2) : outAt cfg h1 e o ∈ outsOf cfg h := by
  subst hh
  rw [outsOf_append]
  exact List.mem_append_right _ (List.mem_cons_self ..)

theorem histOk_at {h h1 h2 : Hist K V E} {e : Env V} {o : Op K V E} (hh : h = h1 ++ (e, o) :: h2) (hok : HistOk cfg St.init h) :
    HistOk cfg St.init h1 ∧ o.ok cfg (stateAfter cfg h1) := by
  subst hh
  obtain ⟨a, b, _⟩ := HistOk_append.1 hok
  exact ⟨a, b⟩

/-- The only key a get asks for is its own. -/
theorem get_calls1 (hc : cfg.Ok) {h : Hist K V E} (hok : HistOk cfg St.init h) (env : Env V) (k : K) (r : Res V E)
    (ho : (Op.get k r : Op K V E).ok cfg (stateAfter cfg h)) :
    (outAt cfg h env (.get k r)).calls = [] ∨ ∃ t, (outAt cfg h env (.get k r)).calls = [(k, t)] := by
  rcases (get_ok hc (good_any hc h hok env) ho.2 ho.1 k r).2 with ⟨u, q1, _, q⟩ | ⟨⟨q1, q, _⟩ | ⟨q1, q2, _⟩, _⟩
  · exact .inl q
  · exact .inl q
  · exact .inr ⟨_, q2⟩

theorem asyncGet_calls1 (hc : cfg.Ok) {h : Hist K V E} (hok : HistOk cfg St.init h) (env : Env V) (k : K) (w : Nat) (b : Beh V E)
    (ho : (Op.asyncGet k w b : Op K V E).ok cfg (stateAfter cfg h)) :
    (outAt cfg h env (.asyncGet k w b)).calls = [] ∨ ∃ t, (outAt cfg h env (.asyncGet k w b)).calls = [(k, t)] := by
  obtain ⟨_, _, ⟨u, _, q, _⟩ | ⟨⟨_, q, _⟩, _⟩ | ⟨q, _⟩⟩ := (asyncGet_ok hc (good_any hc h hok env) ho.2 ho.1 k w b).2
  · exact .inl q
  · exact .inl q
  · exact .inr ⟨_, q⟩

/-- The lookup in flight of a key was given to the resolver with an equal key. -/
theorem valid_computes (hc : cfg.Ok) {h : Hist K V E} (hok : HistOk cfg St.init h) {k : K} {tok : Nat}
    (hv : (ledgerAfter cfg h).valid k = some tok) : ∃ out ∈ outsOf cfg h, ∃ p ∈ out.calls, p.2 = tok ∧ cfg.eqv k p.1 = true := by
  obtain ⟨h1, e1, o1, h2, hh, hs, _⟩ := lookup_origin h hv
  obtain ⟨ok1, oo⟩ := histOk_at hh hok
  refine ⟨_, outAt_mem hh, ?_⟩
  unfold StartsAt Ledger.Starts at hs
  split at hs
  · obtain ⟨he, p, hp, ht⟩ := hs
    rcases asyncGet_calls1 hc ok1 e1 _ _ _ oo with q | ⟨t, q⟩
    · rw [q] at hp; cases hp
    · rw [q] at hp ⊢
      cases hp
      exact ⟨_, List.mem_singleton.2 rfl, ht, he⟩
  · obtain ⟨_, p, hp, ht, he⟩ := hs
    exact ⟨p, List.mem_of_mem_head? hp, ht, he⟩
  · cases hs

/-- What such an operation writes is what the function says. -/
theorem writes_computes (hc : cfg.Ok) (hf : ∀ a b, cfg.eqv a b = true → f a = f b) {h : Hist K V E} (hok : HistOk cfg St.init h)
    {env : Env V} {o : Op K V E} (ho : o.ok cfg (stateAfter cfg h)) (hp : ComputesAt f cfg h env o) {k : K} {v : V}
    (hw : WritesAt cfg k v h env o) : f k = .ok v := by
  cases o with
  | emplace k' v' e => obtain ⟨a, _, c⟩ := hw; rw [hf _ _ a, ← c]; exact hp
  | getOrEmplace k' v' e => obtain ⟨a, _, c⟩ := hw; rw [hf _ _ a, ← c]; exact hp
  | get k' r =>
    obtain ⟨a, b, c⟩ := hw
    rcases get_calls1 hc hok env k' r ho with q | ⟨t, q⟩
    · exact absurd q b
    · rw [hf _ _ a, ← c]
      exact (hp (k', t) (by rw [q]; exact List.mem_singleton.2 rfl)).symm
  | asyncGet k' w b =>
    obtain ⟨a, b', c⟩ := hw
    rcases asyncGet_calls1 hc hok env k' w b ho with q | ⟨t, q⟩
    · exact absurd q b'
    · rw [hf _ _ a]
      exact (hp (k', t) (by rw [q]; exact List.mem_singleton.2 rfl) _ c).symm
  | complete tok r =>
    obtain ⟨a, _, c⟩ := hw
    obtain ⟨out, ho, p, hpc, ht, he⟩ := valid_computes hc hok a
    rw [hf _ _ he, ← c]
    exact (hp out ho p hpc ht).symm
  | tick r b =>
    obtain ⟨⟨p, hpc, he⟩, c⟩ := hw
    have := hp p (List.mem_of_mem_head? hpc)
    rw [hf _ _ he]
    split at c
    · next ha => exact (this.2 ha _ c).symm
    · next ha =>
      have hs : cfg.resolver = .sync := by
        have := ho.1; have := ho.2.1
        cases hr : cfg.resolver <;> simp_all
      rw [← c]; exact (this.1 hs).symm
  | getIfExists => cases hw
  | erase => cases hw
  | clear => cases hw
  | count => cases hw
  | drop => cases hw
  | destroy => cases hw

/-- What is stored is what the function says. -/
theorem cur_computes (hc : cfg.Ok) (hf : ∀ a b, cfg.eqv a b = true → f a = f b) {h : Hist K V E} (hok : HistOk cfg St.init h)
    (hp : Computes f cfg h) {k : K} {v : V} (hv : (ledgerAfter cfg h).cur k = some v) : f k = .ok v := by
  obtain ⟨h1, e1, o1, h2, hh, hw, _⟩ := last_write h hv
  obtain ⟨ok1, oo⟩ := histOk_at hh hok
  exact writes_computes hc hf ok1 oo (hp _ _ _ _ hh) hw

theorem mem_asked {h : Hist K V E} {e : Env V} {k : K} {w : Nat} {b : Beh V E} (hm : (e, Op.asyncGet k w b) ∈ h) : w ∈ asked h := by
  obtain ⟨h1, h2, rfl⟩ := List.append_of_mem hm
  rw [asked_append]
  exact List.mem_append_right _ (List.mem_cons_self ..)

/-- A callback that is used once was passed for one key. -/
theorem askedFor_unique {h : Hist K V E} (hN : (asked h).Nodup) {w : Nat} {k k' : K} (h1 : AskedFor w k h) (h2 : AskedFor w k' h) : k = k' := by
  obtain ⟨e1, b1, h1⟩ := h1
  obtain ⟨e2, b2, h2⟩ := h2
  obtain ⟨l, l', rfl⟩ := List.append_of_mem h1
  rw [asked_append] at hN
  have hN' := List.nodup_append.1 hN
  rcases List.mem_append.1 h2 with hm | hm
  · exact absurd rfl (hN'.2.2 w (mem_asked hm) w (List.mem_cons_self ..))
  · rcases List.mem_cons.1 hm with hm | hm
    · cases hm; rfl
    · exact absurd (mem_asked hm) (List.nodup_cons.1 hN'.2.1).1

theorem getAll_snoc (f : K → Res V E) (ks : List (Env V × K)) (e : Env V) (k : K) : getAll f (ks ++ [(e, k)]) = getAll f ks ++ [(e, .get k (f k))] := by
  simp [getAll]

theorem getAll_open (f : K → Res V E) (ks : List (Env V × K)) : (stateAfter cfg (getAll f ks)).destroyed = false := by
  induction ks using snoc_ind with
  | h0 => rfl
  | h1 l a ih =>
    obtain ⟨e, k⟩ := a
    rw [getAll_snoc, stateAfter_snoc]
    exact (step_destroyed cfg e _ (.get k (f k)) (by intro h; cases h)).trans ih

theorem getAll_ok (hr : cfg.resolver = .sync) (f : K → Res V E) (ks : List (Env V × K)) : HistOk cfg St.init (getAll f ks) := by
  induction ks using snoc_ind with
  | h0 => trivial
  | h1 l a ih =>
    obtain ⟨e, k⟩ := a
    rw [getAll_snoc, HistOk_append]
    exact ⟨ih, ⟨by rw [hr]; decide, getAll_open f l⟩, trivial⟩

theorem getAll_computes (hc : cfg.Ok) (hr : cfg.resolver = .sync) (f : K → Res V E) (ks : List (Env V × K)) : Computes f cfg (getAll f ks) := by
  intro h1 e o h2 hh
  obtain ⟨ok1, oo⟩ := histOk_at hh (getAll_ok hr f ks)
  have hm : (e, o) ∈ getAll f ks := by rw [hh]; exact List.mem_append_right _ (List.mem_cons_self ..)
  simp only [getAll, List.mem_map] at hm
  obtain ⟨p, _, hp⟩ := hm
  injection hp with h3 h4
  subst h4
  intro q hq
  rcases get_calls1 hc ok1 e p.2 (f p.2) oo with hn | ⟨t, ht⟩
  · rw [hn] at hq; cases hq
  · rw [ht] at hq; cases List.mem_singleton.1 hq; rfl

theorem getAll_keys (f : K → Res V E) (ks : List (Env V × K)) : getKeys (getAll f ks) = ks.map (·.2) := by
  induction ks with
  | nil => rfl
  | cons p ks ih => simpa [getAll, getKeys] using ih

theorem getAll_rets (f : K → Res V E) (ks : List (Env V × K)) : ∀ outs : List (Out K V E), outs.length = ks.length →
    getRets (getAll f ks) outs = outs.map (·.ret) := by
  induction ks with
  | nil => intro outs h; rw [List.length_eq_zero_iff.1 h]; rfl
  | cons p ks ih =>
    intro outs h
    cases outs with
    | nil => cases h
    | cons o outs =>
      simp only [List.length_cons, Nat.add_right_cancel_iff] at h
      simpa [getAll, getRets] using ih outs h

/-- The contents of the map after a sequence of calls. -/
def mapEnd (eqv : K → K → Bool) (memo : Bool) (m : K → Option V) (os : List (MapOp K V E)) : K → Option V :=
  os.foldl (fun m o => (mapStep eqv memo m o).1) m

theorem mapRun_snoc (eqv : K → K → Bool) (memo : Bool) (m : K → Option V) (os : List (MapOp K V E)) (o : MapOp K V E) :
    mapRun eqv memo m (os ++ [o]) = mapRun eqv memo m os ++ [(mapStep eqv memo (mapEnd eqv memo m os) o).2] := by
  induction os generalizing m with
  | nil => rfl
  | cons p os ih => simp [mapRun, ih, mapEnd]

/-- The memo table after some calls of `get`. -/
theorem mapEnd_gets (hc : cfg.Ok) {f : K → Res V E} (hf : ∀ a b, cfg.eqv a b = true → f a = f b) (ks : List K) (k : K) :
    mapEnd cfg.eqv true (fun _ => none) (ks.map (fun a => (.get a (f a) : MapOp K V E))) k = if ks.any (fun a => cfg.eqv k a) then value? (f k) else none := by
  induction ks using snoc_ind generalizing k with
  | h0 => rfl
  | h1 l a ih =>
    have e : mapEnd cfg.eqv true (fun _ => none) ((l ++ [a]).map (fun a => (.get a (f a) : MapOp K V E))) =
        (mapStep cfg.eqv true (mapEnd cfg.eqv true (fun _ => none) (l.map (fun a => (.get a (f a) : MapOp K V E)))) (.get a (f a))).1 := by
      simp [mapEnd]
    rw [e]
    have ia := ih a
    have ik := ih k
    generalize mapEnd cfg.eqv true (fun _ => none) (l.map (fun a => (.get a (f a) : MapOp K V E))) = m at *
    simp only [List.any_append, List.any_cons, List.any_nil, Bool.or_false]
    by_cases hka : cfg.eqv k a = true
    · have hl : l.any (fun b => cfg.eqv k b) = l.any (fun b => cfg.eqv a b) := by
        congr 1; funext b
        rw [Bool.eq_iff_iff]
        exact ⟨fun h => hc.trans _ _ _ (hc.symm _ _ hka) h, fun h => hc.trans _ _ _ hka h⟩
      rw [hf k a hka, hl] at ik
      simp only [hka, Bool.or_true, if_true]
      rw [hf k a hka]
      have hm : m k = m a := ik.trans ia.symm
      cases hma : m a with
      | some u =>
        have hs : (mapStep cfg.eqv true m (.get a (f a) : MapOp K V E)).1 = m := by simp [mapStep, hma]
        rw [hs, hm, hma]
        rw [hma] at ia
        split at ia
        · exact ia
        · cases ia
      | none =>
        cases hfa : f a with
        | ok v =>
          have hs : (mapStep cfg.eqv true m (.get a (.ok v) : MapOp K V E)).1 = setAt cfg.eqv m a (some v) := by simp [mapStep, hma]
          rw [hs]; simp [setAt, hka, value?]
        | err x =>
          have hs : (mapStep cfg.eqv true m (.get a (.err x) : MapOp K V E)).1 = m := by simp [mapStep, hma]
          rw [hs, hm, hma]; rfl
    · simp only [Bool.not_eq_true] at hka
      rw [hka, Bool.or_false, ← ik]
      cases hma : m a with
      | some u =>
        have hs : (mapStep cfg.eqv true m (.get a (f a) : MapOp K V E)).1 = m := by simp [mapStep, hma]
        rw [hs]
      | none =>
        cases hfa : f a with
        | ok v =>
          have hs : (mapStep cfg.eqv true m (.get a (.ok v) : MapOp K V E)).1 = setAt cfg.eqv m a (some v) := by simp [mapStep, hma]
          rw [hs]; simp [setAt, hka]
        | err x =>
          have hs : (mapStep cfg.eqv true m (.get a (.err x) : MapOp K V E)).1 = m := by simp [mapStep, hma]
          rw [hs]

end Hoard

/-! Decidability of the vocabulary, for the concrete cases. -/
namespace Hoard.Demo
open Spec

instance computesAtDec (f : Nat → Res Nat Nat) (cfg : Cfg Nat) (h : Hist Nat Nat Nat) (env : Env Nat) (o : Op Nat Nat Nat) :
    Decidable (ComputesAt f cfg h env o) :=
  match o with
  | .get _ _ => inferInstanceAs (Decidable (∀ p ∈ _, _))
  | .asyncGet _ _ b =>
    have : ∀ p : Nat × Nat, Decidable (∀ r, b = .now r → r = f p.1) := fun p =>
      match b with
      | .now r => decidable_of_iff (r = f p.1) ⟨fun h _ e => by cases e; exact h, fun h => h _ rfl⟩
      | .later => isTrue (fun _ e => by cases e)
      | .drop => isTrue (fun _ e => by cases e)
    inferInstanceAs (Decidable (∀ p ∈ _, _))
  | .tick _ b =>
    have : ∀ p : Nat × Nat, Decidable (∀ r, b = .now r → r = f p.1) := fun p =>
      match b with
      | .now r => decidable_of_iff (r = f p.1) ⟨fun h _ e => by cases e; exact h, fun h => h _ rfl⟩
      | .later => isTrue (fun _ e => by cases e)
      | .drop => isTrue (fun _ e => by cases e)
    inferInstanceAs (Decidable (∀ p ∈ _, _))
  | .complete _ _ => inferInstanceAs (Decidable (∀ out ∈ _, ∀ p ∈ _, _))
  | .emplace _ _ _ => inferInstanceAs (Decidable (_ = _))
  | .getOrEmplace _ _ _ => inferInstanceAs (Decidable (_ = _))
  | .getIfExists _ => isTrue trivial
  | .erase _ => isTrue trivial
  | .clear => isTrue trivial
  | .count => isTrue trivial
  | .drop _ => isTrue trivial
  | .destroy => isTrue trivial

/-- The second part of a history keeps to `f`. -/
def ComputesFrom (f : Nat → Res Nat Nat) (cfg : Cfg Nat) : Hist Nat Nat Nat → Hist Nat Nat Nat → Prop
  | _, [] => True
  | h, (env, o) :: h' => ComputesAt f cfg h env o ∧ ComputesFrom f cfg (h ++ [(env, o)]) h'

instance computesFromDec (f : Nat → Res Nat Nat) (cfg : Cfg Nat) : (h h' : Hist Nat Nat Nat) → Decidable (ComputesFrom f cfg h h')
  | _, [] => isTrue trivial
  | h, (env, o) :: h' =>
    have := computesFromDec f cfg (h ++ [(env, o)]) h'
    inferInstanceAs (Decidable (_ ∧ _))

theorem computes_of (f : Nat → Res Nat Nat) (cfg : Cfg Nat) (h : Hist Nat Nat Nat) (hh : ComputesFrom f cfg [] h) : Computes f cfg h := by
  have : ∀ h' h1, ComputesFrom f cfg h1 h' → ∀ a env o b, h' = a ++ (env, o) :: b → ComputesAt f cfg (h1 ++ a) env o := by
    intro h'
    induction h' with
    | nil => intro h1 _ a env o b e; cases a <;> cases e
    | cons p h' ih =>
      obtain ⟨e, o⟩ := p
      intro h1 hc a env o' b he
      cases a with
      | nil => cases he; simpa using hc.1
      | cons q a =>
        injection he with h3 h4
        subst h3
        simpa using ih _ hc.2 a env o' b h4
  exact this h [] hh

end Hoard.Demo
