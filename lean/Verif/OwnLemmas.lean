import Verif.WithinLemmas
import Verif.PeekLemmas
/-! How many objects the cache keeps alive itself, after an eviction (for C52). -/
namespace Hoard
open Spec
variable {K V E : Type} {cfg : Cfg K} {M : Md V} {s s' : St K V E} {L : Ledger K V} {env : Env V}

/-- The entry holds a strong reference. -/
def strong (e : Entry K V E) : Bool := match e.mapped with | .value _ => true | _ => false

def strongIds (s : St K V E) : List Nat := (s.ents.filter strong).map (·.id)

theorem mem_strongIds {i : Nat} : i ∈ strongIds s ↔ ∃ e ∈ s.ents, e.id = i ∧ strong e = true := by
  simp only [strongIds, List.mem_map, List.mem_filter]
  exact ⟨fun ⟨e, ⟨h1, h2⟩, h3⟩ => ⟨e, h1, h3, h2⟩, fun ⟨e, h1, h3, h2⟩ => ⟨e, ⟨h1, h2⟩, h3⟩⟩

theorem strongIds_nodup (w : WF1 cfg s) : (strongIds s).Nodup :=
  (nodup_ents w).sublist ((List.filter_sublist (l := s.ents)).map _)

theorem evUpd_not_strong (e : Entry K V E) : strong (evUpd cfg e) = false := by
  unfold strong evUpd
  simp only [Entry.upd]
  cases cfg.weaken <;> cases cfg.ptr <;> cases e.mapped <;> simp [Mapped.markExpired, Mapped.weaken]

theorem maintenance_strong (w : WF1 cfg s) {N : Nat} (hN : cfg.maxSize = some N) :
    (strongIds (maintenance cfg s)).length ≤ max N (s.size / 2) := by
  have hv : ∀ i ∈ strongIds (maintenance cfg s), i ∈ strongIds s ∧ i ∉ s.bq.victims (s.size - N) := by
    intro i hi
    obtain ⟨e', he', rfl, ha⟩ := mem_strongIds.1 hi
    rw [maintenance_ents w] at he'
    obtain ⟨e, he, rfl⟩ := List.mem_map.1 he'
    have hvi : victimIds cfg s = s.bq.victims (s.size - N) := by simp [victimIds, hN]
    rw [hvi] at ha
    split at ha
    · rw [evUpd_not_strong] at ha; cases ha
    · rename_i hn
      rw [hvi, if_neg hn]
      exact ⟨mem_strongIds.2 ⟨e, he, rfl, ha⟩, hn⟩
  obtain ⟨⟨hs, cs, sh⟩, hp⟩ := w.bq (by simp [hN])
  have hsz : s.size = hs.length + cs.length := by
    have := hp.length_eq
    rw [sh.q] at this
    simp [St.size] at this ⊢; omega
  have hvs := fun x => BQ.mem_victims sh (s.size - N) x
  have hsub : ∀ i ∈ strongIds (maintenance cfg s), i ∈ hs ++ cs.take (cs.length - (s.size - N)) := by
    intro i hi
    obtain ⟨h1, h2⟩ := hv i hi
    rw [hvs] at h2
    obtain ⟨e, he, rfl, _⟩ := mem_strongIds.1 h1
    have := hp.mem_iff.2 (List.mem_map.2 ⟨e, he, rfl⟩)
    rw [sh.q, List.mem_append] at this
    rw [List.mem_append]
    rcases this with h | h
    · exact .inl h
    · rw [← List.take_append_drop (cs.length - (s.size - N)) cs, List.mem_append] at h
      rcases h with h | h
      · exact .inr h
      · exact absurd h h2
  have := nodup_len_le (strongIds_nodup (maintenance_wf1 w)) hsub
  rw [List.length_append, List.length_take] at this
  have hh := sh.lens
  omega

/-- After a completed insertion. -/
theorem insertion_strong (hc : cfg.Ok) {N : Nat} (hN : cfg.maxSize = some N) {X} (h : Good cfg M X s L) (o : Op K V E)
    (hi : ∃ k v, o = .emplace k v .none ∨ o = .getOrEmplace k v .none) :
    (strongIds (step cfg M.env s o).1).length ≤ max N ((step cfg M.env s o).1.size / 2) := by
  have w := h.wf1
  have key : ∀ {s1 : St K V E}, WF1 cfg s1 → (strongIds (maintenance cfg s1)).length ≤ max N ((maintenance cfg s1).size / 2) := by
    intro s1 w1
    rw [maintenance_size]; exact maintenance_strong w1 hN
  obtain ⟨k, v, rfl | rfl⟩ := hi
  · simp only [step, emplace, tryLink]
    exact key (link_spec M.env (expire_wf1 hc w M.env k) rfl).1
  · have w1 := get__wf1 hc w M.env k true
    simp only [step, getOrEmplace]
    generalize get_ cfg M.env s k true = g at *
    obtain ⟨s1, l⟩ := g
    cases l with
    | none => simp only [tryLink]; exact key (link_spec M.env w1 rfl).1
    | val u => exact key w1
    | err u => exact key w1
    | pend => exact key w1

/-- A lookup on a cache without resolver leaves the cache owner of what it owns, as
long as that has not expired. -/
theorem get_keeps_strong (hc : cfg.Ok) (w : WF1 cfg s) (hr : cfg.resolver = .none) (hm : cfg.maxSize.isSome = true) (k : K) (r : Res V E)
    {v : V} (h : ∃ e ∈ s.ents, e.mapped = .value v ∧ e.expired env = false) :
    ∃ e ∈ (step cfg env s (.get k r)).1.ents, e.mapped = .value v ∧ e.expired env = false := by
  obtain ⟨e, he, hv, hx⟩ := h
  have hst : stale env e = false := by simp [stale, hx]
  have hwk : e ∈ (walked cfg env s k false).ents := by
    obtain ⟨rem, hp, hrem⟩ := walked_drops (cfg := cfg) s env k false
    rcases List.mem_append.1 (hp.mem_iff.1 he) with h | h
    · exact h
    · rw [hrem e h] at hst; cases hst
  have hgoal : ∃ e ∈ (get_ cfg env s k false).1.ents, e.mapped = .value v ∧ e.expired env = false := by
    rw [get__eq hc w.placed]
    cases hf : s.ents.find? (isHit cfg env k false) with
    | none => exact ⟨e, hwk, hv, hx⟩
    | some e0 =>
      simp only
      rw [onHit_ents]
      by_cases hid : e.id = e0.id
      · refine ⟨hitUpd cfg env e, List.mem_map.2 ⟨e, hwk, by simp [atId, hid]⟩, ?_⟩
        have := hitUpd_strong hc hm (k := k) (incl := false) hx (v := v) (by rw [hv]; rfl) env rfl
        exact this
      · exact ⟨e, List.mem_map.2 ⟨e, hwk, by simp [atId, hid]⟩, hv, hx⟩
  simp only [step, get]
  revert hgoal
  generalize get_ cfg env s k false = g
  obtain ⟨s1, l⟩ := g
  simp only [hr]
  cases l <;> exact id

end Hoard
