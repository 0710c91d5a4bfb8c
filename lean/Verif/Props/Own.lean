import Verif.Spec.Own
import Verif.OwnLemmas
import Verif.Demo
/-! C52: a size limit with weakening, and how many objects the cache keeps alive. -/
namespace Hoard.Props
open Spec Demo
variable {K V E : Type} {cfg : Cfg K}

/-- C52, as far as it is true.  On a cache with size limit `N`, with or without weakening
and with any resolver: when `emplace` has stored a value, or `get_or_emplace` has
returned one, the cache itself owns at most `N` objects, or at most one half of the
entries in its table.  What is missing to the full statement: entries that are only
weakened stay in the table, so that one half of them may be more than `N`, and `get`
takes ownership without any check, see `C52_owned_objects_unbounded`. -/
theorem C52_insertion_limits_ownership_partial (hc : cfg.Ok) (N : Nat) (hN : cfg.maxSize = some N) (h : Hist K V E)
    (hok : HistOk cfg St.init h) (env : Env V) (o : Op K V E) (hi : ∃ k v, o = .emplace k v .none ∨ o = .getOrEmplace k v .none) :
    ownedCount (stateAfter cfg (h ++ [(env, o)])) ≤ max N ((stateAfter cfg (h ++ [(env, o)])).size / 2) := by
  have := insertion_strong hc hN (good_any hc h hok env) o hi
  rw [stateAfter_snoc]
  rwa [strongIds, List.length_map] at this

/-- C52, in particular: as long as the table holds no more than `2 * N + 1` entries,
weakened ones included, the insertion leaves the cache owner of at most `N` objects. -/
theorem C52_insertion_limits_ownership_small_partial (hc : cfg.Ok) (N : Nat) (hN : cfg.maxSize = some N) (h : Hist K V E)
    (hok : HistOk cfg St.init h) (env : Env V) (o : Op K V E) (hi : ∃ k v, o = .emplace k v .none ∨ o = .getOrEmplace k v .none)
    (hsz : (stateAfter cfg (h ++ [(env, o)])).size ≤ 2 * N + 1) :
    ownedCount (stateAfter cfg (h ++ [(env, o)])) ≤ N := by
  have := C52_insertion_limits_ownership_partial hc N hN h hok env o hi
  omega

/-- A cache of pointers with size limit `N` and weakening. -/
def weakN (N : Nat) : Cfg Nat := { plain with ptr := true, weaken := true, maxSize := some N }

/-- `m` objects are stored, then the first `j` of them are asked for. -/
def storeAndAsk (m j : Nat) : Hist Nat Nat Nat :=
  (List.range m).map (fun i => (at_ 0, .emplace i i .none)) ++ (List.range j).map (fun i => (at_ 0, .get i (.ok 0)))

theorem mono_const {es : List (Env Nat)} (h : ∀ e ∈ es, e = at_ 0) : Mono es := by
  have : es = (List.replicate es.length 0).map at_ := by
    rw [List.map_replicate, ← List.eq_replicate_iff.2 ⟨rfl, h⟩]
  rw [this]
  exact mono_at _ (by simp [List.pairwise_replicate])

theorem stored_all (N m : Nat) : HistOk (weakN N) St.init (storeAndAsk m 0) ∧ (stateAfter (weakN N) (storeAndAsk m 0)).destroyed = false ∧
    ∀ i < m, (ledgerAfter (weakN N) (storeAndAsk m 0)).cur i = some i := by
  induction m with
  | zero => exact ⟨trivial, rfl, by simp⟩
  | succ m ih =>
    obtain ⟨h1, h2, h3⟩ := ih
    have e : storeAndAsk (m + 1) 0 = storeAndAsk m 0 ++ [(at_ 0, .emplace m m .none)] := by
      simp [storeAndAsk, List.range_succ]
    rw [e, stateAfter_snoc, ledgerAfter_snoc]
    refine ⟨HistOk_append.2 ⟨h1, (show _ = false from h2), trivial⟩, (step_destroyed _ _ _ _ (by simp)).trans h2, ?_⟩
    intro i hi
    have hmade : (outAt (weakN N) (storeAndAsk m 0) (at_ 0) (.emplace m m .none)).made = true := by
      unfold outAt
      simp only [step, emplace, tryLink, if_true]
    simp only [Ledger.after, Ledger.write, Ledger.put, hmade, if_true]
    by_cases hx : i = m
    · subst hx; simp [weakN, plain]
    · rw [if_neg (by simpa [weakN, plain] using hx)]
      exact h3 i (by omega)

theorem weakN_ok (N : Nat) : (weakN N).Ok := nat_ok rfl (by intro d i h; cases h)

theorem asked_all (N m j : Nat) (hj : j ≤ m) : HistOk (weakN N) St.init (storeAndAsk m j) ∧ (stateAfter (weakN N) (storeAndAsk m j)).destroyed = false ∧
    (∀ i < m, (ledgerAfter (weakN N) (storeAndAsk m j)).cur i = some i) ∧
    ∀ i < j, ∃ e ∈ (stateAfter (weakN N) (storeAndAsk m j)).ents, e.mapped = .value i ∧ e.expired (at_ 0) = false := by
  induction j with
  | zero =>
    obtain ⟨h1, h2, h3⟩ := stored_all N m
    exact ⟨h1, h2, h3, by simp⟩
  | succ j ih =>
    obtain ⟨h1, h2, h3, h4⟩ := ih (by omega)
    have e : storeAndAsk m (j + 1) = storeAndAsk m j ++ [(at_ 0, .get j (.ok 0))] := by
      simp [storeAndAsk, List.range_succ]
    have hno : ∀ (h : Hist Nat Nat Nat) (s : St Nat Nat Nat), NoEvictH (weakN N) s h := by
      intro h
      induction h with
      | nil => exact fun s n _ => .inr ⟨rfl, rfl⟩
      | cons p h ih => exact fun s => ⟨fun n _ => .inr ⟨rfl, rfl⟩, ih _⟩
    have g := good_exact (weakN_ok N) _ h1 (at_ 0) (mono_const (by
      intro x hx
      simp [storeAndAsk] at hx
      grind)) (hno _ _)
    have hpk : (getIfExists (weakN N) (at_ 0) (stateAfter (weakN N) (storeAndAsk m j)) j).ret = .val j := by
      rcases (getIfExists_ok (weakN_ok N) g j).2 with ⟨u, hu, hv, _⟩ | ⟨_, hd⟩
      · rw [h3 j (by omega)] at hv; cases hv; exact hu
      · exfalso
        rcases hd trivial j (h3 j (by omega)) with hd | hd | hd
        · simp [Ledger.ageLimit, weakN, plain, reached] at hd
        · simp [Ledger.idleLimit, weakN, plain, reached] at hd
        · simp [at_] at hd
    have ho : (Op.get j (.ok 0) : Op Nat Nat Nat).ok (weakN N) (stateAfter (weakN N) (storeAndAsk m j)) := ⟨by simp [weakN, plain], h2⟩
    have hs : StoredAnswer (weakN N) j j (storeAndAsk m j) (at_ 0) (.get j (.ok 0)) :=
      stored_of_peek (weakN_ok N) g.wf1 g.wf2 hpk ho rfl
    rw [e, stateAfter_snoc, ledgerAfter_snoc]
    refine ⟨HistOk_append.2 ⟨h1, ho, trivial⟩, (step_destroyed _ _ _ _ (by simp)).trans h2, ?_, ?_⟩
    · intro i hi
      have hcl := hs.2.1
      simp only [Ledger.after, hcl, Ledger.read]
      split <;> exact h3 i hi
    · intro i hi
      by_cases hx : i = j
      · subst hx
        obtain ⟨e, a1, _, a2, a3⟩ := hit_strong (weakN_ok N) g.wf1 rfl (.inl ⟨_, _, rfl⟩) hs.1 hs.2.1
        exact ⟨e, a1, a2, a3 _ rfl⟩
      · exact get_keeps_strong (weakN_ok N) g.wf1 rfl rfl _ _ (h4 i (by omega))

/-- C52 is false: whatever the size limit `N`, there are histories of `emplace` and
`get` after which a cache with weakening owns `m` objects. -/
theorem C52_owned_objects_unbounded (N m : Nat) :
    ∃ h : Hist Nat Nat Nat, (weakN N).Ok ∧ HistOk (weakN N) St.init h ∧ m ≤ ownedCount (stateAfter (weakN N) h) := by
  obtain ⟨h1, _, _, h4⟩ := asked_all N m m (Nat.le_refl m)
  refine ⟨_, weakN_ok N, h1, ?_⟩
  have hl : ∀ l : List (Entry Nat Nat Nat), (l.filterMap (fun e => match e.mapped with | .value v => some v | _ => none)).length ≤ l.length :=
    fun l => List.length_filterMap_le _ l
  unfold ownedCount
  refine Nat.le_trans ?_ (hl _)
  conv => lhs; rw [← List.length_range (n := m)]
  refine nodup_len_le List.nodup_range ?_
  intro i hi
  obtain ⟨e, a1, a2, _⟩ := h4 i (List.mem_range.1 hi)
  exact List.mem_filterMap.2 ⟨e, List.mem_filter.2 ⟨a1, by rw [a2]⟩, by rw [a2]⟩

set_option maxRecDepth 20000 in
/-- C52 is false also right after an insertion: the limit is 1, and the `emplace` of a
sixth object leaves the cache owner of three. -/
theorem C52_owned_objects_after_insertion :
    ownedCount (stateAfter (weakN 1) (storeAndAsk 5 5 ++ [(at_ 1, .emplace 5 5 .none)])) = 3 ∧
    HistOk (weakN 1) St.init (storeAndAsk 5 5 ++ [(at_ 1, .emplace 5 5 .none)]) := by decide +kernel

set_option maxRecDepth 20000 in
/-- The bound is reached, and by far more objects than the limit; without the
weakening by the insertion the cache would own seven. -/
example : (weakN 2).Ok ∧ HistOk (weakN 2) St.init (storeAndAsk 6 6) ∧ ownedCount (stateAfter (weakN 2) (storeAndAsk 6 6)) = 6 ∧
    ownedCount (stateAfter (weakN 2) (storeAndAsk 6 6 ++ [(at_ 1, .getOrEmplace 7 7 .none)])) = 3 ∧
    (stateAfter (weakN 2) (storeAndAsk 6 6 ++ [(at_ 1, .getOrEmplace 7 7 .none)])).size / 2 = 3 :=
  ⟨nat_ok rfl (by intro d i h; cases h), by decide +kernel, by decide +kernel, by decide +kernel, by decide +kernel⟩

end Hoard.Props
