import Verif.MachineRun
import Verif.Spec.Memory
import Verif.AnswerLemmas
import Verif.AsyncLemmas
import Verif.Demo
/-!
# Properties: the cache with pointers (C49, C50)

The pointer-level model is in `Verif.Machine`; each of its functions has no result when
the code would use a freed entry, dereference a null pointer, or free an entry whose
callbacks have not been destroyed.  The specification is in `Verif.Spec.Memory`.
-/
namespace Hoard
variable {K V E : Type} {cfg : Cfg K}

theorem prun_snoc (p : PSt K V E) (h : Hist K V E) (env : Env V) (o : Op K V E) :
    PSt.run cfg p (h ++ [(env, o)]) = (PSt.run cfg p h).bind (fun r => (r.1.step cfg env o).map (fun r2 => (r2.1, r.2 ++ [r2.2]))) := by
  induction h generalizing p with
  | nil =>
    simp only [List.nil_append, PSt.run, Option.bind_eq_bind, Option.bind_some]
    cases p.step cfg env o <;> rfl
  | cons a h ih =>
    obtain ⟨env', o'⟩ := a
    simp only [List.cons_append, PSt.run, Option.bind_eq_bind]
    cases hs : p.step cfg env' o' with
    | none => rfl
    | some r =>
      simp only [Option.bind_some, ih]
      cases hr : PSt.run cfg r.1 h with
      | none => rfl
      | some r2 =>
        simp only [Option.bind_some]
        cases r2.1.step cfg env o <;> rfl

theorem psim_run (hc : cfg.Ok) (obj : Nat → Entry K V E) (h : Hist K V E) (hok : HistOk cfg St.init h) :
    ∃ p bs, PSt.run cfg (PSt.init obj) h = some (p, (run cfg (St.init : St K V E) h).2) ∧ PSim cfg p (stateAfter cfg h) bs [] := by
  induction h using snoc_ind with
  | h0 => exact ⟨_, [], rfl, psim_init cfg obj⟩
  | h1 h a ih =>
    obtain ⟨env, o⟩ := a
    rw [HistOk_append] at hok
    obtain ⟨p, bs, e, hp⟩ := ih hok.1
    obtain ⟨p', bs', e', hp'⟩ := hp.step (good_any hc h hok.1 env).wf2 env o hok.2.1
    refine ⟨p', bs', ?_, by rw [stateAfter_snoc]; exact hp'⟩
    rw [prun_snoc, e]
    simp only [Option.bind_some, e', Option.map_some]
    have := outsOf_snoc (cfg := cfg) h env o
    unfold outsOf at this
    rw [this]; rfl

theorem follows_of_path {nx : Nat → Option Nat} {l : List Nat} : ∀ {o : Option Nat}, Chain.Path nx o l → Follows nx o l := by
  induction l with
  | nil => intro o h; exact h
  | cons i l ih => intro o h; exact ⟨h.1, ih h.2⟩

theorem follows_unique {nx : Nat → Option Nat} : ∀ {l l' : List Nat} {o : Option Nat}, Follows nx o l → Follows nx o l' → l = l'
  | [], [], _, _, _ => rfl
  | [], i :: l, o, h, h' => by cases (show o = none from h).symm.trans h'.1
  | i :: l, [], o, h, h' => by cases (show o = none from h').symm.trans h.1
  | i :: l, j :: l', o, h, h' => by
    obtain rfl : i = j := Option.some.inj (h.1.symm.trans h'.1)
    rw [follows_unique h.2 h'.2]

theorem refreshOwners_eq (p : PSt K V E) (es : List Nat) (i : Nat) : p.refreshOwners es i = (refsOf (es.map p.obj)).count i := by
  unfold PSt.refreshOwners refsOf
  induction es with
  | nil => rfl
  | cons j es ih =>
    simp only [List.map_cons, List.flatMap_cons, List.countP_append, List.count_append, ih]
    congr 1
    generalize (p.obj j).mapped.cbs = cbs
    induction cbs with
    | nil => rfl
    | cons cb cbs ih2 =>
      cases cb with
      | user w => simpa [olds, List.countP_cons] using ih2
      | refresh j => simp only [List.countP_cons, ih2]; simp [olds, List.count_cons]

theorem linkRep_succ {H : DL.Heap} {l : List Nat} (h : LinkRep H l) {a i : Nat} (ha : a = 0 ∨ ∃ j, a = j + 1) (hs : H.succ a = some (i + 1)) : i ∈ l := by
  rcases ha with rfl | ⟨j, rfl⟩
  · have := (linkRep_ptrs (l1 := []) h).1
    rw [show addr (([] : List Nat).getLast?) = 0 from rfl, hs] at this
    cases l with
    | nil => simp [addr] at this
    | cons k l => simp [addr] at this; simp [this]
  · by_cases hj : j ∈ l
    · obtain ⟨l1, l2, rfl⟩ := List.append_of_mem hj
      have h' : LinkRep H ((l1 ++ [j]) ++ l2) := by simpa using h
      have := (linkRep_ptrs h').1
      simp only [List.getLast?_concat, addr] at this
      rw [hs] at this
      cases l2 with
      | nil => simp at this
      | cons k l2 => simp at this; simp [this]
    · rw [h.2 j hj] at hs; cases hs

theorem linkRep_pred {H : DL.Heap} {l : List Nat} (h : LinkRep H l) {a i : Nat} (ha : a = 0 ∨ ∃ j, a = j + 1 ∧ H.succ a ≠ none)
    (hs : H.pred a = some (i + 1)) : i ∈ l := by
  rcases ha with rfl | ⟨j, rfl, hn⟩
  · have h' : LinkRep H (l ++ []) := by simpa using h
    have := (linkRep_ptrs h').2
    rw [show addr (([] : List Nat).head?) = 0 from rfl, hs] at this
    cases hl : l.getLast? with
    | none => rw [hl] at this; simp [addr] at this
    | some k => rw [hl] at this; simp [addr] at this; rw [this]; exact List.mem_of_getLast? hl
  · by_cases hj : j ∈ l
    · obtain ⟨l1, l2, rfl⟩ := List.append_of_mem hj
      have := (linkRep_ptrs h).2
      simp only [List.head?_cons, addr] at this
      rw [hs] at this
      cases hl : l1.getLast? with
      | none => rw [hl] at this; simp at this
      | some k => rw [hl] at this; simp at this; rw [this]; exact List.mem_append_left _ (List.mem_of_getLast? hl)
    · exact absurd (h.2 j hj) hn

theorem slots_mem {own i : Nat} : ∀ (bs : List (List Nat)) (pre : List Nat), Chain.Slot.node i ∈ Chain.slotsOf own pre bs → i ∈ pre ++ bs.flatten
  | [], pre, h => by simp [Chain.slotsOf] at h
  | b :: bs, pre, h => by
    simp only [Chain.slotsOf, List.mem_cons] at h
    rcases h with h | h
    · unfold Chain.slotOf at h
      split at h
      · cases h
      · rename_i y hy
        cases h
        have := List.mem_of_getLast? hy
        simp only [List.flatten_cons, ← List.append_assoc]
        exact List.mem_append_left _ this
    · have := slots_mem bs (pre ++ b) h
      simpa using this

namespace Props
open Demo

/-- C49.  Whatever the history, the pointer-level cache never does anything
undefined (use of a freed entry, null pointer, end of a list taken for an element, freeing an
entry with callbacks), and every result is the one of the model
without pointers, about which the other properties are stated. -/
theorem C49_no_undefined_behaviour (hc : cfg.Ok) (obj : Nat → Entry K V E) (h : Hist K V E) (hok : HistOk cfg St.init h) :
    ∃ p, PSt.run cfg (PSt.init obj) h = some (p, (run cfg (St.init : St K V E) h).2) := by
  obtain ⟨p, bs, e, _⟩ := psim_run hc obj h hok
  exact ⟨p, e⟩

/-- C50.  After every history no pointer in the data structure is dangling, and
no freed entry is in one of the queues. -/
theorem C50_no_dangling_pointers (hc : cfg.Ok) (obj : Nat → Entry K V E) (h : Hist K V E) (hok : HistOk cfg St.init h)
    {p : PSt K V E} {outs : List (Out K V E)} (hr : PSt.run cfg (PSt.init obj) h = some (p, outs)) :
    (∀ i, p.PointsTo cfg i → p.Allocated i) ∧ p.QueuedAllocated cfg := by
  obtain ⟨p', bs, e, hp⟩ := psim_run hc obj h hok
  rw [hr] at e
  obtain ⟨rfl, rfl⟩ := Prod.mk.inj (Option.some.inj e)
  have hls : ∀ {i}, i ∈ bs.flatten → 0 < p.rc i := fun hi => hp.core.pos_ls hi
  have hq : cfg.maxSize.isSome = true → LinkRep p.pq.heap (stateAfter cfg h).bq.q ∧ ∀ {i}, i ∈ (stateAfter cfg h).bq.q → 0 < p.rc i :=
    fun hm => ⟨hp.core.bqr.links, fun hi => hls ((hp.core.bqi hm).2.mem_iff.1 hi)⟩
  have hd : ∀ {i}, i ∈ (stateAfter cfg h).delayQ → 0 < p.rc i := fun hi => hls (hp.core.dqm _ hi)
  refine ⟨?_, ?_⟩
  · intro i hi
    show 0 < p.rc i
    cases hi with
    | head hh =>
      have := hp.rep.path
      rw [hh] at this
      cases hb : bs.flatten with
      | nil => rw [hb] at this; cases (show some i = none from this)
      | cons j l => rw [hb] at this; obtain rfl := Option.some.inj this.1; exact hls (by simp [hb])
    | next j hj hn =>
      by_cases hjl : j ∈ bs.flatten
      · obtain ⟨l1, l2, hb⟩ := List.append_of_mem hjl
        have hpth := hp.rep.path
        rw [hb, show l1 ++ j :: l2 = (l1 ++ [j]) ++ l2 by simp] at hpth
        obtain ⟨o, ho, hpo⟩ := Chain.Path.rd_slot hpth
        have ho' : o = some i := by
          have : p.tab.rd (Chain.slotOf p.tab.own (l1 ++ [j])) = some (p.tab.next j) := by
            simp [Chain.slotOf, Chain.Tab.rd]
          rw [ho, hn] at this; exact Option.some.inj this
        subst ho'
        cases l2 with
        | nil => cases (show some i = none from hpo)
        | cons k l2 => obtain rfl := Option.some.inj hpo.1; exact hls (by simp [hb])
      · rw [hp.nxt j hjl] at hn; cases hn
    | bucket hb =>
      rw [hp.rep.slots] at hb
      exact hls (by simpa using slots_mem _ _ hb)
    | queueHead hm hh =>
      rcases hh with hh | hh
      · exact (hq hm).2 (linkRep_succ (hq hm).1 (Or.inl rfl) hh)
      · exact (hq hm).2 (linkRep_pred (hq hm).1 (Or.inl rfl) hh)
    | queueSucc j hm hh => exact (hq hm).2 (linkRep_succ (hq hm).1 (Or.inr ⟨j, rfl⟩) hh)
    | queuePred j hm hn hh => exact (hq hm).2 (linkRep_pred (hq hm).1 (Or.inr ⟨j, rfl, hn⟩) hh)
    | queueMid hm hh =>
      have h1 := hp.core.bqr.mid
      rw [hh] at h1
      obtain ⟨hI, _⟩ := hp.core.bqi hm
      obtain ⟨hs, cs, hsh⟩ := hI
      have h2 := hsh.mid
      apply (hq hm).2
      rw [hsh.q]
      cases hmid : (stateAfter cfg h).bq.mid with
      | none => rw [hmid] at h1; simp [addr] at h1
      | some m =>
        rw [hmid] at h1 h2
        obtain rfl : i = m := by simpa [addr] using h1
        exact List.mem_append_right _ (List.mem_of_head? h2.symm)
    | delayHead hh =>
      rcases hh with hh | hh
      · exact hd (linkRep_succ hp.core.dqr (Or.inl rfl) hh)
      · exact hd (linkRep_pred hp.core.dqr (Or.inl rfl) hh)
    | delaySucc j hh => exact hd (linkRep_succ hp.core.dqr (Or.inr ⟨j, rfl⟩) hh)
    | delayPred j hn hh => exact hd (linkRep_pred hp.core.dqr (Or.inr ⟨j, rfl, hn⟩) hh)
    | callback j hj hcb =>
      have hjm : j ∈ bs.flatten ++ (stateAfter cfg h).limbo.map (·.id) := by
        have h1 : 0 < p.rc j := hj
        rw [hp.core.rc] at h1
        have := List.count_pos_iff.1 h1
        simp only [List.append_nil, List.mem_append] at this
        rcases this with (h2 | h2) | h2
        · simp [h2]
        · exact hp.core.kn j (by simp [h2])
        · exact hp.core.kn j (by simp [h2])
      rcases List.mem_append.1 hjm with h1 | h1
      · apply hp.core.pos_r (hp.olds_known h1 ?_)
        simp only [olds, List.mem_filterMap]
        exact ⟨_, hcb, rfl⟩
      · obtain ⟨e, he, rfl⟩ := List.mem_map.1 h1
        rw [hp.core.lim e he hj, hp.core.lcb e he] at hcb
        simp at hcb
    | resolver hi => exact hp.core.pos_h hi
  · rintro i (⟨hm, hh⟩ | hh)
    · apply (hq hm).2
      apply Classical.byContradiction
      intro hn; exact hh ((hq hm).1.2 i hn)
    · apply hd
      apply Classical.byContradiction
      intro hn; exact hh (hp.core.dqr.2 i hn)

/-- C50.  After every history, the counter of every entry is the number of its owners:
the table, the resolver's callback object, and the callbacks of refreshes.  So an entry is
freed exactly when nobody owns it any more, and nothing is leaked. -/
theorem C50_counters_are_owners (hc : cfg.Ok) (obj : Nat → Entry K V E) (h : Hist K V E) (hok : HistOk cfg St.init h)
    {p : PSt K V E} {outs : List (Out K V E)} (hr : PSt.run cfg (PSt.init obj) h = some (p, outs)) :
    ∃ linked, Follows p.tab.next p.tab.head linked ∧ linked.Nodup ∧ p.handles.Nodup ∧
      ∀ i, p.rc i = (if i ∈ linked then 1 else 0) + (if i ∈ p.handles then 1 else 0) + p.refreshOwners linked i := by
  obtain ⟨p', bs, e, hp⟩ := psim_run hc obj h hok
  rw [hr] at e
  obtain ⟨rfl, rfl⟩ := Prod.mk.inj (Option.some.inj e)
  refine ⟨bs.flatten, follows_of_path hp.rep.path, hp.nd, hp.core.hnd, ?_⟩
  intro i
  rw [hp.core.rc i, refreshOwners_eq, ← hp.core.ents]
  have hcount : ∀ l : List Nat, l.Nodup → l.count i = if i ∈ l then 1 else 0 := by
    intro l hl
    split
    · rename_i hm; rw [hl.count, if_pos hm]
    · rename_i hm; exact List.count_eq_zero.2 hm
  simp only [List.append_nil, List.count_append, hcount _ hp.nd, hcount _ hp.core.hnd]

/-- C50.  Once the cache is destroyed and every resolver has dropped its callback object, every
entry has been freed. -/
theorem C50_everything_freed (hc : cfg.Ok) (obj : Nat → Entry K V E) (h : Hist K V E) (hok : HistOk cfg St.init h)
    {p : PSt K V E} {outs : List (Out K V E)} (hr : PSt.run cfg (PSt.init obj) h = some (p, outs))
    (hd : p.destroyed = true) (hh : p.handles = []) (i : Nat) : ¬ p.Allocated i := by
  obtain ⟨p', bs, e, hp⟩ := psim_run hc obj h hok
  rw [hr] at e
  obtain ⟨rfl, rfl⟩ := Prod.mk.inj (Option.some.inj e)
  obtain ⟨env0⟩ : Nonempty (Env V) := ⟨⟨⟨0, 0⟩, fun _ => true⟩⟩
  have h2 := (good_any hc h hok env0).wf2.opD (by rw [← hp.core.des]; exact hd)
  have h3 := hp.core.ents
  rw [h2] at h3
  have h4 : bs.flatten = [] := by simpa using h3.symm
  unfold PSt.Allocated
  rw [hp.core.rc i, h4, hh, h2]
  simp [refsOf]

/-- The callback objects still held by resolvers are exactly those of lookups that
were started and not dropped. -/
theorem C50_open_lookups_are_held (hc : cfg.Ok) (obj : Nat → Entry K V E) (h : Hist K V E) (hok : HistOk cfg St.init h)
    {p : PSt K V E} {outs : List (Out K V E)} (hr : PSt.run cfg (PSt.init obj) h = some (p, outs)) :
    p.opens = (stateAfter cfg h).opens ∧ ∀ t ∈ p.opens, t ∈ p.handles ∧ p.Allocated t := by
  obtain ⟨p', bs, e, hp⟩ := psim_run hc obj h hok
  rw [hr] at e
  obtain ⟨rfl, rfl⟩ := Prod.mk.inj (Option.some.inj e)
  refine ⟨hp.core.ops, ?_⟩
  intro t ht
  rw [hp.core.ops] at ht
  have := hp.core.opn t ht
  exact ⟨this, hp.core.pos_h this⟩

/-! ### Concrete cases

A cache for at most two entries with asynchronous lookups and refreshing.  The history
inserts, starts a lookup with two waiters, evicts, refreshes, completes and destroys. -/

def small : Cfg Nat := { hash := fun k => k % 4, eqv := fun a b => a == b, maxSize := some 2, resolver := .async, refresh := some (10, 0) }

def busy : Hist Nat Nat Nat :=
  [(at_ 0, .emplace 1 5 .none), (at_ 1, .asyncGet 2 70 .later), (at_ 2, .asyncGet 2 71 .later), (at_ 10, .tick (.ok 0) .later), (at_ 11, .emplace 3 8 .none),
   (at_ 12, .complete 1 (.ok 9)), (at_ 13, .drop 1), (at_ 14, .complete 2 (.ok 6))]

def anyObj : Nat → Entry Nat Nat Nat := fun _ => { id := 0, key := 0, mapped := .gone }

example : small.Ok ∧ HistOk small St.init busy ∧
    (PSt.run small (PSt.init anyObj) busy).map (fun r => r.2.map (·.fired)) = some [[], [], [], [], [], [(70, .ok 9), (71, .ok 9)], [], []] :=
  ⟨nat_ok rfl (by intro d i h; cases h; decide), by decide, by decide +kernel⟩

/-- After the refresh has been started, the new entry is owned by the table and by the
resolver, and the old one by the table and by the callback of the refresh. -/
example : (PSt.run small (PSt.init anyObj) (busy.take 4)).map (fun r => (r.1.rc 0, r.1.rc 1, r.1.rc 2, r.1.handles)) = some (2, 2, 2, [1, 2]) := by decide +kernel

/-- At the end the replaced entry is still linked, and expired; after destruction only the entry still held by
a resolver remains, and when it is dropped nothing. -/
example : (PSt.run small (PSt.init anyObj) busy).map (fun r => (List.range 5).map r.1.rc) = some [1, 1, 2, 1, 0] ∧
    (PSt.run small (PSt.init anyObj) (busy ++ [(at_ 20, .destroy)])).map (fun r => ((List.range 5).map r.1.rc, r.1.handles)) = some ([0, 0, 1, 0, 0], [2]) ∧
    (PSt.run small (PSt.init anyObj) (busy ++ [(at_ 20, .destroy), (at_ 21, .drop 2)])).map (fun r => ((List.range 5).map r.1.rc, r.1.handles)) = some ([0, 0, 0, 0, 0], []) := by
  decide +kernel

/-- The machine does notice: a cache whose entry was freed while still linked has no
result for the lookup that visits it. -/
example : ((PSt.run small (PSt.init anyObj) (busy.take 1)).bind (fun r => PSt.run small { r.1 with rc := fun _ => 0 } [(at_ 1, .getIfExists 1)])).isNone = true ∧
    ((PSt.run small (PSt.init anyObj) (busy.take 1)).bind (fun r => PSt.run small r.1 [(at_ 1, .getIfExists 1)])).isSome = true := by decide +kernel

end Props
end Hoard
