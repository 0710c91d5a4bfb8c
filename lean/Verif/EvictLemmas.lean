import Verif.PeekLemmas
/-! Fate of a value right after it is emplaced; caches filled by a resolver; caches
within their limit. -/
namespace Hoard
open Spec
variable {K V E : Type} {cfg : Cfg K} {M : Md V} {s s' : St K V E} {L : Ledger K V} {env : Env V}

/-- The entry linked last is evicted exactly when there are at least twice as many
entries as allowed. -/
theorem new_victim {s : St K V E} (w : WF1 cfg s) {N : Nat} (hN : cfg.maxSize = some N) {hs cs : List Nat} {i : Nat}
    (sh : s.bq.Shape hs (i :: cs)) : i ∈ victimIds cfg s ↔ 2 * N ≤ s.size := by
  have hp := (w.bq (by simp [hN])).2
  have hsz : s.size = hs.length + (cs.length + 1) := by
    have := hp.length_eq
    rw [sh.q] at this
    simp [St.size] at this ⊢; omega
  have hvi : victimIds cfg s = s.bq.victims (s.size - N) := by simp [victimIds, hN]
  have hl := sh.lens
  simp only [List.length_cons] at hl
  have hnd := sh.nodup
  rw [sh.q, List.nodup_append, List.nodup_cons] at hnd
  rw [hvi, BQ.mem_victims sh]
  simp only [List.length_cons]
  by_cases hle : cs.length + 1 ≤ s.size - N
  · rw [show cs.length + 1 - (s.size - N) = 0 by omega]
    simp; omega
  · obtain ⟨j, hj⟩ : ∃ j, cs.length + 1 - (s.size - N) = j + 1 := ⟨cs.length - (s.size - N), by omega⟩
    rw [hj, List.drop_succ_cons]
    constructor
    · intro h; exact absurd (List.mem_of_mem_drop h) hnd.2.1.1
    · intro h; omega

theorem assignTimes_fresh (hage : ∀ A, cfg.maxAge = some A → 0 < A) (hidle : ∀ d i, cfg.refresh = some (d, i) → 0 ≤ i) (i : Nat) (k : K) (v : V) :
    (linkUpd cfg env ({ id := i, key := k, mapped := .value v } : Entry K V E)).expired env = false := by
  simp only [linkUpd, Entry.isPending, Mapped.isPending, Bool.false_eq_true, if_false, Mapped.holdsValue, assignTimes, ageTp]
  cases ha : cfg.maxAge with
  | none =>
    cases hr : cfg.refresh with
    | none => simp [Entry.expired, Mapped.expired, Mapped.holdsError, reached]
    | some p =>
      obtain ⟨d, i⟩ := p
      have := hidle d i hr
      by_cases h0 : i = 0
      · simp [h0, Entry.expired, Mapped.expired, Mapped.holdsError, reached]
      · simp [h0, Entry.expired, Mapped.expired, Mapped.holdsError, reached, tpMin]; omega
  | some A =>
    have hA := hage A ha
    cases hr : cfg.refresh with
    | none => simp [Entry.expired, Mapped.expired, Mapped.holdsError, reached, tpMin, deadMin, Time.past]; cases cfg.wall <;> simp <;> omega
    | some p =>
      obtain ⟨d, i⟩ := p
      have := hidle d i hr
      by_cases h0 : i = 0
      · simp [h0, Entry.expired, Mapped.expired, Mapped.holdsError, reached, tpMin, deadMin, Time.past]; cases cfg.wall <;> simp <;> omega
      · simp [h0, Entry.expired, Mapped.expired, Mapped.holdsError, reached, tpMin, deadMin, Time.past]; cases cfg.wall <;> simp <;> omega

theorem emplace_none (cfg : Cfg K) (env : Env V) (s : St K V E) (k : K) (v : V) :
    emplace cfg env s k v .none =
      (maintenance cfg (link cfg env (expire_ cfg env s k) (newEntry (expire_ cfg env s k) k (.value v))), { made := true }) := rfl

/-- Whether the value just emplaced is found. -/
theorem emplace_peek (hc : cfg.Ok) {X} (h : Good cfg ⟨False, False, env, True⟩ X s L) (hd : s.destroyed = false) (k : K) (v : V)
    (hage : ∀ A, cfg.maxAge = some A → 0 < A) :
    (getIfExists cfg env (emplace cfg env s k v .none).1 k).ret =
      if (∀ N, cfg.maxSize = some N → (emplace cfg env s k v .none).1.size < 2 * N) ∨ (cfg.weaken = true ∧ cfg.ptr = true ∧ env.alive v = true)
      then .val v else .miss := by
  obtain ⟨g1, c1, d1⟩ := expire_ok hc h k
  have g2 := insert_ok hc g1 (d1.trans hd) c1 (m := .value v) rfl rfl rfl
  have g3 := maintenance_ok hc g2 (fun h => h.elim)
  have hfresh : ∀ i, (linkUpd cfg env ({ id := i, key := k, mapped := .value v } : Entry K V E)).expired env = false :=
    fun i => assignTimes_fresh hage hc.idle i k v
  rw [emplace_none]
  simp only
  generalize hs1 : expire_ cfg env s k = s1 at *
  obtain ⟨wl, _, hin, _⟩ := link_spc (F := ({} : Eff K V)) env g1.wf1 (e := newEntry s1 k (.value v)) rfl
  have hf := linkUpd_facts cfg env (newEntry s1 k (.value v : Mapped V E))
  have hbq : cfg.maxSize.isSome = true → ∃ hs cs, (link cfg env s1 (newEntry s1 k (.value v))).bq.Shape hs (s1.nextId :: cs) :=
    fun hm => link_bq (env := env) g1.wf1 (e := newEntry s1 k (.value v)) rfl hm
  have hsize : (maintenance cfg (link cfg env s1 (newEntry s1 k (.value v)))).size = (link cfg env s1 (newEntry s1 k (.value v))).size := maintenance_size _ _
  rw [hsize]
  -- the new entry after the eviction
  have hmem : (if s1.nextId ∈ victimIds cfg (link cfg env s1 (newEntry s1 k (.value v))) then evUpd cfg (linkUpd cfg env (newEntry s1 k (.value v)))
      else linkUpd cfg env (newEntry s1 k (.value v))) ∈ (maintenance cfg (link cfg env s1 (newEntry s1 k (.value v)))).ents := by
    rw [maintenance_ents wl]
    refine List.mem_map.2 ⟨_, hin, ?_⟩
    rw [hf.1]; rfl
  have hvic : s1.nextId ∈ victimIds cfg (link cfg env s1 (newEntry s1 k (.value v))) ↔
      ¬ ∀ N, cfg.maxSize = some N → (link cfg env s1 (newEntry s1 k (.value v))).size < 2 * N := by
    cases hm : cfg.maxSize with
    | none => simp [victimIds, hm]
    | some N =>
      obtain ⟨hs, cs, sh⟩ := hbq (by simp [hm])
      rw [new_victim wl hm sh]
      simp
  have hek : cfg.eqv (linkUpd cfg env (newEntry s1 k (.value v))).key k = true := by rw [hf.2.1]; exact hc.refl k
  split
  · rename_i hcond
    apply (peek_val hc g3 env k v).2
    by_cases hv : s1.nextId ∈ victimIds cfg (link cfg env s1 (newEntry s1 k (.value v)))
    · rw [if_pos hv] at hmem
      rcases hcond with hcond | ⟨hw, hp, hal⟩
      · exact absurd hcond (hvic.1 hv)
      · have hmap : (evUpd cfg (linkUpd cfg env (newEntry s1 k (.value v)))).mapped = .weak v := by
          simp only [evUpd, Entry.upd, hf.2.2.1, hw, hp]; rfl
        refine ⟨_, hmem, hek, ?_, by rw [hmap]; rfl⟩
        have h0 := hfresh s1.nextId
        simp only [Entry.expired, Bool.or_eq_false_iff] at h0 ⊢
        rw [hmap]
        exact ⟨⟨⟨by simp [Mapped.expired, hal], rfl⟩, h0.1.2⟩, h0.2⟩
    · rw [if_neg hv] at hmem
      exact ⟨_, hmem, hek, hfresh _, by rw [hf.2.2.1]; rfl⟩
  · rename_i hcond
    rw [not_or] at hcond
    have hv := hvic.2 hcond.1
    rw [if_pos hv] at hmem
    rcases optRet_cases (peekWalk cfg env k ((maintenance cfg (link cfg env s1 (newEntry s1 k (.value v)))).bucket ((maintenance cfg (link cfg env s1 (newEntry s1 k (.value v)))).bucketFor (cfg.hash k)))) with h1 | ⟨u, h1⟩
    · exact h1
    · exfalso
      obtain ⟨e', he', hk', hx', hv'⟩ := (peek_val hc g3 env k u).1 h1
      rw [maintenance_ents wl] at he'
      obtain ⟨e, he, rfl⟩ := List.mem_map.1 he'
      have hval : e.mapped.val? = some u := by
        split at hv'
        · have : (evUpd cfg e).mapped.val? = some u := hv'
          exact (ShrE.evUpd (cfg := cfg) (env := env) (F := { vic := fun _ => True }) e trivial).val u this
        · exact hv'
      have hkey : cfg.eqv e.key k = true := by
        split at hk' <;> exact hk'
      have hid := g2.wf2.va _ he _ hin u v hval (by rw [hf.2.2.1]; rfl) (hc.trans _ _ _ hkey (by rw [hf.2.1]; exact hc.refl k))
      have heq := eq_of_id wl he hin hid
      subst heq
      rw [hf.1] at hx' hv'
      have hv2 : (newEntry s1 k (.value v : Mapped V E)).id ∈ victimIds cfg (link cfg env s1 (newEntry s1 k (.value v))) := hv
      rw [if_pos hv2] at hx' hv'
      simp only [evUpd, Entry.upd, hf.2.2.1] at hx' hv'
      simp only [newEntry] at hx' hv'
      cases hw : cfg.weaken with
      | false => rw [hw] at hv'; simp [Mapped.markExpired, Mapped.val?] at hv'
      | true =>
        rw [hw] at hx' hv'
        cases hp : cfg.ptr with
        | false => rw [hp] at hv'; simp [Mapped.weaken, Mapped.val?] at hv'
        | true =>
          rw [hp] at hx' hv'
          apply hcond.2
          refine ⟨hw, hp, ?_⟩
          simp [Entry.expired, Mapped.weaken, Mapped.expired] at hx'
          exact hx'.1.1.1

end Hoard
