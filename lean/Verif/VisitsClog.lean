import Verif.VisitsLemmas
import Verif.AnswerLemmas
/-! # A full cache with a size limit -/
namespace Hoard.Visits
open Spec Demo
open Compare (bucketOf)
variable {m mb : Nat}

theorem lru_ok : (lru m mb).Ok := nat_ok rfl (by intro d i h; cases h)

/-- A value, or nothing any more; no deadlines. -/
def PlainE (e : Entry Nat Nat Nat) : Prop := ((∃ v, e.mapped = .value v) ∨ e.mapped = .gone) ∧ e.expTp = none ∧ e.canTp = none

theorem PlainE.stale {e : Entry Nat Nat Nat} (h : PlainE e) {env : Env Nat} : stale env e = e.expired env := by
  obtain ⟨h | h, _⟩ := h
  · obtain ⟨v, h⟩ := h
    simp [Hoard.stale, Entry.isPending, h, Mapped.isPending]
  · simp [Hoard.stale, Entry.isPending, h, Mapped.isPending]

theorem PlainE.exp {e : Entry Nat Nat Nat} (h : PlainE e) {env : Env Nat} : e.expired env = true ↔ e.mapped = .gone := by
  obtain ⟨h | h, h1, h2⟩ := h
  · obtain ⟨v, h⟩ := h
    simp [Entry.expired, h, h1, h2, Mapped.expired, Mapped.holdsError, Time.past, reached]
  · simp [Entry.expired, h, Mapped.expired]

theorem plain_cre (o : Option Nat) {env : Env Nat} {e : Entry Nat Nat Nat} (h : PlainE e) : PlainE (creUpd o env e) ∧ (creUpd o env e).mapped = e.mapped := by
  obtain ⟨hm, h1, h2⟩ := h
  have : (creUpd o env e).mapped = e.mapped := by
    unfold creUpd
    split
    · rcases hm with ⟨v, hm⟩ | hm <;> simp [Entry.upd, hm, Mapped.strengthen]
    · rfl
  refine ⟨⟨by rw [this]; exact hm, ?_, ?_⟩, this⟩
  · unfold creUpd; split <;> exact h1
  · unfold creUpd; split <;> exact h2

theorem plain_link {env : Env Nat} (s : St Nat Nat Nat) (k v : Nat) : PlainE (linkUpd (lru m mb) env (newEntry s k (.value v))) ∧
    (linkUpd (lru m mb) env (newEntry s k (.value v))).mapped = .value v := by
  refine ⟨⟨.inl ⟨v, rfl⟩, rfl, rfl⟩, rfl⟩

theorem plain_ev {e : Entry Nat Nat Nat} (h : PlainE e) : PlainE (evUpd (lru m mb) e) ∧ (evUpd (lru m mb) e).mapped = .gone := by
  obtain ⟨hm, h1, h2⟩ := h
  have : (evUpd (lru m mb) e).mapped = .gone := by
    rcases hm with ⟨v, hm⟩ | hm <;> simp [evUpd, Entry.upd, lru, hm, Mapped.markExpired]
  exact ⟨⟨.inr this, h1, h2⟩, this⟩

/-- Nothing is to be done before the insertion. -/
theorem expire_same {env : Env Nat} {s : St Nat Nat Nat} {k : Nat} (h : ∀ e ∈ bucketOf (lru m mb) s k, stale env e = false ∧ e.key ≠ k) :
    expire_ (lru m mb) env s k = s := by
  have hw := expireWalk_eq (cfg := lru m mb) lru_ok env k (bucketOf (lru m mb) s k)
  have h1 : (Hoard.expireWalk (lru m mb) env k (bucketOf (lru m mb) s k)).kept = bucketOf (lru m mb) s k := by
    rw [hw.1]
    rw [List.filter_eq_self.2]
    · rw [List.map_congr_left (g := id)]
      · simp
      · intro e he
        have : (lru m mb).eqv e.key k = false := by simpa [lru] using (h e he).2
        simp [this]
    · intro e he
      have : (lru m mb).eqv e.key k = false := by simpa [lru] using (h e he).2
      simp [this, (h e he).1]
  have h2 : (Hoard.expireWalk (lru m mb) env k (bucketOf (lru m mb) s k)).removed = [] := by
    rw [hw.2, List.filter_eq_nil_iff]
    intro e he
    have : (lru m mb).eqv e.key k = false := by simpa [lru] using (h e he).2
    simp [this, (h e he).1]
  unfold expire_ applyWalk
  simp only
  have hb : s.bucket (s.bucketFor ((lru m mb).hash k)) = bucketOf (lru m mb) s k := rfl
  rw [hb, h1, h2]
  unfold dispose St.setBucket
  simp only [List.foldl_nil]
  have : s.tbl.set (s.bucketFor ((lru m mb).hash k)) (bucketOf (lru m mb) s k) = s.tbl := by
    by_cases hl : s.bucketFor ((lru m mb).hash k) < s.tbl.length
    · rw [← hb]
      have := bucket_some hl
      rw [List.getElem?_eq_getElem hl] at this
      rw [← Option.some.inj this]
      exact List.set_getElem_self hl
    · exact List.set_eq_of_length_le (by omega)
  rw [this]

/-- Nothing but insertions has happened. -/
structure Plainly (s : St Nat Nat Nat) : Prop where
  wf : WF1 (lru m mb) s
  plain : ∀ e ∈ s.ents, PlainE e

/-- The entries after an insertion into a table where nothing is to be done before. -/
theorem link_ents {env : Env Nat} {s : St Nat Nat Nat} (h : Plainly (m := m) (mb := mb) s) (k v : Nat) :
    ∃ kept : List (Entry Nat Nat Nat), Drops env s.ents kept ∧ kept.length = (maybeRehash (lru m mb) env s).size ∧
      (∀ e ∈ (link (lru m mb) env s (newEntry s k (.value v))).ents, PlainE e) ∧
      ((link (lru m mb) env s (newEntry s k (.value v))).ents.map (·.key)).Perm (kept.map (·.key) ++ [k]) ∧
      ((∀ e ∈ kept, stale env e = false) → ∀ e ∈ (link (lru m mb) env s (newEntry s k (.value v))).ents, stale env e = false) := by
  obtain ⟨_, _, _, _, kept, o, hd, hp, _⟩ := link_spec (cfg := lru m mb) env h.wf (e := newEntry s k (.value v)) rfl
  have hk : ∀ e ∈ kept, PlainE e := by
    obtain ⟨rem, hr, _⟩ := hd
    exact fun e he => h.plain e (hr.mem_iff.2 (List.mem_append_left _ he))
  refine ⟨kept, hd, ?_, ?_, ?_, ?_⟩
  · have h1 := hp.length_eq
    have h2 := (link_shape (cfg := lru m mb) (env := env) (s := s) (newEntry s k (.value v))).2
    simp only [List.length_append, List.length_map, List.length_cons, List.length_nil] at h1
    simp only [St.size] at h2 ⊢
    omega
  · intro e he
    rcases List.mem_append.1 (hp.mem_iff.1 he) with q | q
    · obtain ⟨x, hx, rfl⟩ := List.mem_map.1 q
      exact (plain_cre o (hk x hx)).1
    · rw [List.mem_singleton] at q
      subst q
      exact (plain_link s k v).1
  · refine (hp.map _).trans ?_
    rw [List.map_append, List.map_map]
    have : kept.map ((fun e : Entry Nat Nat Nat => e.key) ∘ creUpd o env) = kept.map (·.key) := by
      apply List.map_congr_left
      intro e _
      exact (creUpd_idKey o env e).2
    rw [this]
    exact List.Perm.refl _
  · intro hs e he
    rcases List.mem_append.1 (hp.mem_iff.1 he) with q | q
    · obtain ⟨x, hx, rfl⟩ := List.mem_map.1 q
      have := plain_cre o (env := env) (hk x hx)
      have h2 := hs x hx
      rw [(hk x hx).stale] at h2
      rw [this.1.stale]
      cases hq : (creUpd o env x).expired env with
      | false => rfl
      | true =>
        rw [this.1.exp, this.2, ← (hk x hx).exp (env := env), h2] at hq
        cases hq
    · rw [List.mem_singleton] at q
      subst q
      have := plain_link (m := m) (mb := mb) (env := env) s k v
      rw [this.1.stale]
      cases hq : (linkUpd (lru m mb) env (newEntry s k (.value v))).expired env with
      | false => rfl
      | true =>
        rw [this.1.exp, this.2] at hq
        cases hq

theorem emplace_eq {env : Env Nat} {s : St Nat Nat Nat} {k v : Nat} (h : expire_ (lru m mb) env s k = s) :
    (step (lru m mb) env s (.emplace k v .none)).1 = maintenance (lru m mb) (link (lru m mb) env s (newEntry s k (.value v))) := by
  simp [step, emplace, h, tryLink]

theorem seen_eq {env : Env Nat} {s : St Nat Nat Nat} {k v : Nat} (h : expire_ (lru m mb) env s k = s) :
    (seen (lru m mb) env s (.emplace k v .none)).all = pass (lru m mb) env s ∧
    (seen (lru m mb) env s (.emplace k v .none)).tail = tail (lru m mb) (link (lru m mb) env s (newEntry s k (.value v))) := by
  simp [seen, insertion, h, tryLink]

theorem cold_len {b : BQ} {hs cs : List Nat} (h : b.Shape hs cs) : b.q.length ≤ 2 * cs.length := by
  have := h.len
  have h2 : b.q.length = hs.length + cs.length := by rw [h.q, List.length_append]
  omega

theorem lruGo_cold {hot : Nat → Bool} : ∀ {cs : List Nat} {t : List Nat} {c : Nat}, (∀ x ∈ cs, hot x = false) → c ≤ cs.length → (lruGo hot (cs ++ t) c).2.length = c
  | [], [], c, _, hc => by simp at hc; simp [lruGo, hc]
  | [], _ :: _, c, _, hc => by simp at hc; subst hc; rfl
  | _ :: _, _, 0, _, _ => rfl
  | x :: cs, t, c + 1, hx, hc => by
    have ih := lruGo_cold (hot := hot) (cs := cs) (t := t) (c := c) (fun y hy => hx y (List.mem_cons_of_mem _ hy)) (by simpa using hc)
    have h1 : hot x = false := hx x (List.mem_cons_self ..)
    simp [lruGo, h1, ih]

theorem bq_len {s : St Nat Nat Nat} (h : WF1 (lru m mb) s) : s.bq.q.length = s.size := by
  have := (h.bq rfl).2.length_eq
  simpa [St.size] using this

theorem tail_len {s : St Nat Nat Nat} (h : WF1 (lru m mb) s) (hm : s.size ≤ 2 * m) : (tail (lru m mb) s).length = s.size - m := by
  obtain ⟨⟨hs, cs, hsh⟩, _⟩ := h.bq rfl
  have h1 := cold_len hsh
  have h2 := bq_len h
  unfold tail
  show (lruGo s.bq.hot s.bq.q.reverse (s.size - m)).2.length = _
  rw [hsh.q, List.reverse_append]
  apply lruGo_cold
  · intro x hx; exact hsh.cold x (List.mem_reverse.1 hx)
  · rw [List.length_reverse]; omega

theorem filter_one : ∀ {l : List Nat} {v : Nat}, l.Nodup → v ∈ l → (l.filter (· == v)).length = 1
  | x :: l, v, hn, hv => by
    rw [List.nodup_cons] at hn
    by_cases hx : x = v
    · subst hx
      have : l.filter (· == x) = [] := by
        rw [List.filter_eq_nil_iff]
        intro y hy
        simp only [beq_iff_eq]
        rintro rfl
        exact hn.1 hy
      simp [this]
    · have := filter_one hn.2 ((List.mem_cons.1 hv).resolve_left (fun h => hx h.symm))
      simp [hx, this]

/-- One victim, exactly. -/
theorem count_evict {env : Env Nat} {l : List (Entry Nat Nat Nat)} (hn : (l.map (·.id)).Nodup) (hp : ∀ e ∈ l, PlainE e) (hs : ∀ e ∈ l, stale env e = false)
    {v : Nat} (hv : v ∈ l.map (·.id)) :
    ((l.map (fun e => if e.id ∈ [v] then evUpd (lru m mb) e else e)).filter (fun e => e.expired env)).length = 1 := by
  rw [List.filter_map, List.length_map]
  have h1 : l.filter ((fun e : Entry Nat Nat Nat => e.expired env) ∘ fun e => if e.id ∈ [v] then evUpd (lru m mb) e else e) = l.filter (fun e => e.id == v) := by
    apply List.filter_congr
    intro e he
    simp only [Function.comp, List.mem_singleton]
    by_cases hi : e.id = v
    · have := plain_ev (m := m) (mb := mb) (hp e he)
      simp only [hi, if_true, beq_self_eq_true]
      rw [this.1.exp]; exact this.2
    · have h2 := hs e he
      rw [(hp e he).stale] at h2
      simp [hi, h2]
  rw [h1]
  have h3 : (l.filter (fun e => e.id == v)).length = ((l.map (·.id)).filter (· == v)).length := by
    rw [List.filter_map, List.length_map]; rfl
  rw [h3]
  exact filter_one hn hv

theorem maint_plain {s : St Nat Nat Nat} (hw : WF1 (lru m mb) s) (h : ∀ e ∈ s.ents, PlainE e) : ∀ e ∈ (maintenance (lru m mb) s).ents, PlainE e := by
  rw [maintenance_ents hw]
  intro e he
  obtain ⟨x, hx, rfl⟩ := List.mem_map.1 he
  split
  · exact (plain_ev (h x hx)).1
  · exact h x hx

theorem maint_keys {s : St Nat Nat Nat} (hw : WF1 (lru m mb) s) : (maintenance (lru m mb) s).ents.map (·.key) = s.ents.map (·.key) := by
  rw [maintenance_ents hw, List.map_map]
  apply List.map_congr_left
  intro e _
  simp only [Function.comp]
  split <;> rfl

theorem victims_lru {s : St Nat Nat Nat} : victimIds (lru m mb) s = s.bq.victims (s.size - m) := rfl

theorem maint_one {env : Env Nat} {s : St Nat Nat Nat} (hw : WF1 (lru m mb) s) (h : ∀ e ∈ s.ents, PlainE e) (hs : ∀ e ∈ s.ents, stale env e = false) (hm : s.size = m + 1) :
    ((maintenance (lru m mb) s).ents.filter (fun e => e.expired env)).length = 1 := by
  rw [maintenance_ents hw, victims_lru]
  obtain ⟨⟨hh, cs, hsh⟩, hq⟩ := hw.bq rfl
  have h1 := cold_len hsh
  have h2 := bq_len hw
  have : s.size - m = 1 := by omega
  rw [this, BQ.victims_eq hsh]
  cases hc : cs.reverse with
  | nil =>
    have := List.reverse_eq_nil_iff.1 hc
    subst this
    simp at h1; simp [h1] at h2; omega
  | cons v t =>
    simp only [List.take_succ_cons, List.take_zero]
    refine count_evict (nodup_ents hw) h hs (hq.mem_iff.1 ?_)
    rw [hsh.q]
    exact List.mem_append_right _ (List.mem_reverse.1 (hc ▸ List.mem_cons_self ..))

theorem maint_zero {s : St Nat Nat Nat} (hw : WF1 (lru m mb) s) (hm : s.size ≤ m) : (maintenance (lru m mb) s).ents = s.ents := by
  rw [maintenance_ents hw, victims_lru]
  obtain ⟨⟨hh, cs, hsh⟩, _⟩ := hw.bq rfl
  have : s.size - m = 0 := by omega
  rw [this, BQ.victims_eq hsh]
  simp

/-! ## Insertions only -/

theorem puts_snoc (ks : List Nat) (k : Nat) : puts (ks ++ [k]) = puts ks ++ [(at_ 0, .emplace k k .none)] := by simp [puts]

theorem puts_open (ks : List Nat) : (stateAfter (lru m mb) (puts ks)).destroyed = false := by
  induction ks using snoc_ind with
  | h0 => rfl
  | h1 l k ih =>
    rw [puts_snoc, stateAfter_snoc]
    exact (step_destroyed _ _ _ (.emplace k k .none) (by intro h; cases h)).trans ih

theorem puts_ok (ks : List Nat) : HistOk (lru m mb) St.init (puts ks) := by
  induction ks using snoc_ind with
  | h0 => trivial
  | h1 l k ih =>
    rw [puts_snoc, HistOk_append]
    exact ⟨ih, puts_open l, trivial⟩

theorem puts_wf (ks : List Nat) : WF1 (lru m mb) (stateAfter (lru m mb) (puts ks)) := (good_any lru_ok _ (puts_ok ks) (at_ 0)).wf1

theorem expire_plain {env : Env Nat} {s : St Nat Nat Nat} (h : Plainly (m := m) (mb := mb) s) (k : Nat) : ∀ e ∈ (expire_ (lru m mb) env s k).ents, PlainE e := by
  obtain ⟨kept, rem, p1, p2, _, p4⟩ := expire_spec lru_ok h.wf env k
  intro e he
  obtain ⟨x, hx, rfl⟩ := List.mem_map.1 (p2.mem_iff.1 he)
  have hp := h.plain x (p1.mem_iff.2 (List.mem_append_left _ hx))
  unfold expUpd
  split
  · rename_i hq
    have := p4 x hx hq
    obtain ⟨⟨v, h1⟩ | h1, _⟩ := hp <;> simp [Entry.isPending, h1, Mapped.isPending] at this
  · exact hp

theorem puts_plain (ks : List Nat) : Plainly (m := m) (mb := mb) (stateAfter (lru m mb) (puts ks)) := by
  refine ⟨puts_wf ks, ?_⟩
  induction ks using snoc_ind with
  | h0 => intro e he; cases he
  | h1 l k ih =>
    rw [puts_snoc, stateAfter_snoc]
    have hw := puts_wf (m := m) (mb := mb) l
    have he := expire_wf1 lru_ok hw (at_ 0) k
    have hp : Plainly (m := m) (mb := mb) (expire_ (lru m mb) (at_ 0) (stateAfter (lru m mb) (puts l)) k) := ⟨he, expire_plain ⟨hw, ih⟩ k⟩
    obtain ⟨kept, _, _, h3, _⟩ := link_ents (env := at_ 0) hp k k
    show ∀ e ∈ (maintenance (lru m mb) (link (lru m mb) (at_ 0) (expire_ (lru m mb) (at_ 0) (stateAfter (lru m mb) (puts l)) k) _)).ents, _
    exact maint_plain (link_spec (cfg := lru m mb) (at_ 0) he rfl).1 h3

theorem count_split {env : Env Nat} {s : St Nat Nat Nat} (h : ∀ e ∈ s.ents, PlainE e) :
    s.size = needed env s + (s.ents.filter (fun e => e.expired env)).length := by
  have h1 := (filter_append_not s.ents (fun e => !stale env e)).length_eq
  rw [List.length_append] at h1
  have h2 : s.ents.filter (fun e => !!stale env e) = s.ents.filter (fun e => e.expired env) := by
    apply List.filter_congr
    intro e he
    rw [Bool.not_not, (h e he).stale]
  rw [h2] at h1
  exact h1

theorem drops_clean {env : Env Nat} {l l' : List (Entry Nat Nat Nat)} (h : Drops env l l') (hn : l'.length = (l.filter (fun e => !stale env e)).length) : ∀ e ∈ l', stale env e = false := by
  obtain ⟨rem, hp, hr⟩ := h
  have h1 := (hp.filter (fun e => !stale env e)).length_eq
  rw [List.filter_append, List.length_append] at h1
  have h2 : rem.filter (fun e => !stale env e) = [] := by
    rw [List.filter_eq_nil_iff]; intro e he; simp [hr e he]
  rw [h2, List.length_nil, Nat.add_zero, ← hn] at h1
  have := List.length_filter_eq_length_iff.1 h1.symm
  intro e he
  simpa using this e he

/-- An insertion that finds the table clogged. -/
theorem clogged_step {s : St Nat Nat Nat} (hp : Plainly (m := m) (mb := mb) s) (h : Clogged m s) {k : Nat}
    (hk : ∀ e ∈ bucketOf (lru m mb) s k, e.expired (at_ 0) = false ∧ e.key ≠ k) :
    (seen (lru m mb) (at_ 0) s (.emplace k k .none)).all.length = m + 1 ∧ Clogged m (step (lru m mb) (at_ 0) s (.emplace k k .none)).1 := by
  obtain ⟨h1, h2, h3⟩ := h
  have hsub : ∀ e ∈ bucketOf (lru m mb) s k, e ∈ s.ents := by
    intro e he
    rw [bucketOf_eq hp.wf.placed] at he
    exact (List.mem_filter.1 he).1
  have hx : expire_ (lru m mb) (at_ 0) s k = s := expire_same (fun e he => ⟨by rw [(hp.plain e (hsub e he)).stale]; exact (hk e he).1, (hk e he).2⟩)
  have ho : (lru m mb).over (s.size + 1) s.tbl.length = true := by rw [h1, h2]; simp [lru]
  have hn : needed (at_ 0) s = m := by
    have := count_split (env := at_ 0) hp.plain
    omega
  refine ⟨?_, ?_⟩
  · rw [(seen_eq hx).1, pass_eq, if_pos ho, List.length_map]
    exact h2
  · rw [emplace_eq hx]
    obtain ⟨a, b⟩ := maybeRehash_shape (cfg := lru m mb) (env := at_ 0) s
    have hsz : (maybeRehash (lru m mb) (at_ 0) s).size = m := by
      rcases a with a | a
      · rw [a.1, hn]
      · rw [ho] at a; exact absurd a.2 (by decide)
    have hln : (maybeRehash (lru m mb) (at_ 0) s).tbl.length = m + 1 := by
      rcases b with b | b | b
      · rw [b, h1]
      · omega
      · have := b.2.2.1
        rw [hn, h1] at this
        simp [lru] at this
    obtain ⟨kept, k1, k2, k3, k4, k5⟩ := link_ents (env := at_ 0) hp k k
    have hl := link_shape (cfg := lru m mb) (env := at_ 0) (s := s) (newEntry s k (.value k))
    have hw := (link_spec (cfg := lru m mb) (at_ 0) hp.wf (e := newEntry s k (.value k)) rfl).1
    have hm := maintenance_same2 (cfg := lru m mb) (s := link (lru m mb) (at_ 0) s (newEntry s k (.value k)))
    refine ⟨by rw [hm.1, hl.1, hln], by rw [hm.2, hl.2, hsz], ?_⟩
    refine maint_one hw k3 (k5 (drops_clean k1 ?_)) (by rw [hl.2, hsz])
    rw [k2, hsz]; exact hn.symm

/-! ## Filling a table -/

/-- The keys below `n` are in the table, no two of them in the same bucket. -/
structure Filled (m mb n : Nat) (s : St Nat Nat Nat) : Prop where
  keys : (s.ents.map (·.key)).Perm (List.range n)
  fits : n ≤ s.tbl.length

theorem Filled.size {n : Nat} {s : St Nat Nat Nat} (h : Filled m mb n s) : s.size = n := by
  have := h.keys.length_eq
  simpa [St.size] using this

theorem Filled.lt {n : Nat} {s : St Nat Nat Nat} (h : Filled m mb n s) {e : Entry Nat Nat Nat} (he : e ∈ s.ents) : e.key < n :=
  List.mem_range.1 (h.keys.mem_iff.1 (List.mem_map.2 ⟨e, he, rfl⟩))

/-- The bucket of the next key is empty, or the table is full. -/
theorem Filled.bucket {n : Nat} {s : St Nat Nat Nat} (h : Filled m mb n s) (hw : WF1 (lru m mb) s) {e : Entry Nat Nat Nat} (he : e ∈ bucketOf (lru m mb) s n) :
    s.tbl.length = n ∧ e ∈ s.ents ∧ e.key ≠ n := by
  rw [bucketOf_eq hw.placed] at he
  obtain ⟨he, hq⟩ := List.mem_filter.1 he
  have hlt := h.lt he
  have hf := h.fits
  refine ⟨?_, he, by omega⟩
  simp only [lru, id, beq_iff_eq] at hq
  rcases Nat.lt_or_ge n s.tbl.length with hl | hl
  · rw [Nat.mod_eq_of_lt hl, Nat.mod_eq_of_lt (by omega)] at hq; omega
  · omega

theorem filled_same {n : Nat} {s : St Nat Nat Nat} (hp : Plainly (m := m) (mb := mb) s) (h : Filled m mb n s)
    (hs : s.tbl.length = n → ∀ e ∈ s.ents, e.expired (at_ 0) = false) : expire_ (lru m mb) (at_ 0) s n = s := by
  apply expire_same
  intro e he
  obtain ⟨a, b, c⟩ := h.bucket hp.wf he
  exact ⟨by rw [(hp.plain e b).stale]; exact hs a e b, c⟩

/-- Inserting the next key into a table with room for it. -/
theorem filled_room {n : Nat} {s : St Nat Nat Nat} (hp : Plainly (m := m) (mb := mb) s) (h : Filled m mb n s) (hr : n < s.tbl.length) :
    Filled m mb (n + 1) (step (lru m mb) (at_ 0) s (.emplace n n .none)).1 ∧ (step (lru m mb) (at_ 0) s (.emplace n n .none)).1.tbl.length = s.tbl.length ∧
    (n + 1 ≤ 2 * m → (seen (lru m mb) (at_ 0) s (.emplace n n .none)).tail.length = n + 1 - m) ∧
    ((∀ e ∈ s.ents, e.expired (at_ 0) = false) → n < m → ∀ e ∈ (step (lru m mb) (at_ 0) s (.emplace n n .none)).1.ents, e.expired (at_ 0) = false) ∧
    ((∀ e ∈ s.ents, e.expired (at_ 0) = false) → n = m → ((step (lru m mb) (at_ 0) s (.emplace n n .none)).1.ents.filter (fun e => e.expired (at_ 0))).length = 1) := by
  have hx := filled_same hp h (fun e => absurd e (by omega))
  have hsz := h.size
  have hov : (lru m mb).over (s.size + 1) s.tbl.length = false := by rw [hsz]; simp [lru]; omega
  obtain ⟨a, b⟩ := maybeRehash_shape (cfg := lru m mb) (env := at_ 0) s
  have h1 : (maybeRehash (lru m mb) (at_ 0) s).size = n := by
    rcases a with a | a
    · rw [hov] at a; exact absurd a.2 (by decide)
    · rw [a.1, hsz]
  have h2 : (maybeRehash (lru m mb) (at_ 0) s).tbl.length = s.tbl.length := by
    rcases b with b | b | b
    · exact b
    · omega
    · have h3 := b.2.2.1
      have : needed (at_ 0) s ≤ s.size := List.length_filter_le ..
      simp [lru] at h3
      omega
  obtain ⟨kept, k1, k2, k3, k4, k5⟩ := link_ents (env := at_ 0) hp n n
  have hl := link_shape (cfg := lru m mb) (env := at_ 0) (s := s) (newEntry s n (.value n))
  have hw := (link_spec (cfg := lru m mb) (at_ 0) hp.wf (e := newEntry s n (.value n)) rfl).1
  have hm := maintenance_same2 (cfg := lru m mb) (s := link (lru m mb) (at_ 0) s (newEntry s n (.value n)))
  rw [emplace_eq hx, (seen_eq hx).2]
  have hkept : s.ents.Perm kept := by
    obtain ⟨rem, hr, _⟩ := k1
    have := hr.length_eq
    rw [List.length_append, k2, h1] at this
    have hrem : rem = [] := List.eq_nil_of_length_eq_zero (by simp only [St.size] at hsz; omega)
    simpa [hrem] using hr
  have hst : (∀ e ∈ s.ents, e.expired (at_ 0) = false) → ∀ e ∈ (link (lru m mb) (at_ 0) s (newEntry s n (.value n))).ents, stale (at_ 0) e = false :=
    fun hs => k5 (fun e he => by rw [(hp.plain e (hkept.mem_iff.2 he)).stale]; exact hs e (hkept.mem_iff.2 he))
  refine ⟨⟨?_, ?_⟩, ?_, ?_, ?_, ?_⟩
  · rw [maint_keys hw, List.range_succ]
    exact k4.trans (List.Perm.append_right _ ((hkept.map _).symm.trans h.keys))
  · rw [hm.1, hl.1, h2]; omega
  · rw [hm.1, hl.1, h2]
  · intro h2m
    rw [tail_len hw (by rw [hl.2, h1]; exact h2m), hl.2, h1]
  · intro hs hnm
    rw [maint_zero hw (by rw [hl.2, h1]; omega)]
    intro e he
    rw [← (k3 e he).stale]
    exact hst hs e he
  · intro hs hnm
    exact maint_one hw k3 (hst hs) (by rw [hl.2, h1, hnm])

/-- Inserting the next key into a full table without expired entries. -/
theorem filled_grow {n : Nat} {s : St Nat Nat Nat} (hp : Plainly (m := m) (mb := mb) s) (h : Filled m mb n s) (hr : s.tbl.length = n)
    (hs : ∀ e ∈ s.ents, e.expired (at_ 0) = false) (hnm : n + 1 ≤ 2 * m) (hb : 2 * n ≤ mb) (hn4 : n ≠ 0) :
    Filled m mb (n + 1) (step (lru m mb) (at_ 0) s (.emplace n n .none)).1 ∧ (step (lru m mb) (at_ 0) s (.emplace n n .none)).1.tbl.length = 2 * n ∧
    (seen (lru m mb) (at_ 0) s (.emplace n n .none)).tail.length = n + 1 - m ∧
    (n < m → ∀ e ∈ (step (lru m mb) (at_ 0) s (.emplace n n .none)).1.ents, e.expired (at_ 0) = false) := by
  have hx := filled_same hp h (fun _ => hs)
  have hsz := h.size
  have hov : (lru m mb).over (s.size + 1) s.tbl.length = true := by rw [hsz, hr]; simp [lru]
  have hnd : needed (at_ 0) s = s.size := by
    have := count_split (env := at_ 0) hp.plain
    have h0 : s.ents.filter (fun e => e.expired (at_ 0)) = [] := by
      rw [List.filter_eq_nil_iff]; intro e he; simp [hs e he]
    rw [h0, List.length_nil] at this
    exact this.symm
  obtain ⟨a, _⟩ := maybeRehash_shape (cfg := lru m mb) (env := at_ 0) s
  have h1 : (maybeRehash (lru m mb) (at_ 0) s).size = n := by
    rcases a with a | a
    · rw [a.1, hnd, hsz]
    · rw [a.1, hsz]
  have h2 : (maybeRehash (lru m mb) (at_ 0) s).tbl.length = 2 * n := by
    rw [maybeRehash_grown hov hnd (by rw [hr]; show n < mb; omega), hr]
    unfold grown
    rw [if_neg hn4, if_neg]
    show ¬ n > mb / 2
    omega
  obtain ⟨kept, k1, k2, k3, k4, k5⟩ := link_ents (env := at_ 0) hp n n
  have hl := link_shape (cfg := lru m mb) (env := at_ 0) (s := s) (newEntry s n (.value n))
  have hw := (link_spec (cfg := lru m mb) (at_ 0) hp.wf (e := newEntry s n (.value n)) rfl).1
  have hm := maintenance_same2 (cfg := lru m mb) (s := link (lru m mb) (at_ 0) s (newEntry s n (.value n)))
  rw [emplace_eq hx, (seen_eq hx).2]
  have hkept : s.ents.Perm kept := by
    obtain ⟨rem, hr, _⟩ := k1
    have := hr.length_eq
    rw [List.length_append, k2, h1] at this
    have hrem : rem = [] := List.eq_nil_of_length_eq_zero (by simp only [St.size] at hsz; omega)
    simpa [hrem] using hr
  have hst : ∀ e ∈ (link (lru m mb) (at_ 0) s (newEntry s n (.value n))).ents, stale (at_ 0) e = false :=
    k5 (fun e he => by rw [(hp.plain e (hkept.mem_iff.2 he)).stale]; exact hs e (hkept.mem_iff.2 he))
  refine ⟨⟨?_, ?_⟩, ?_, ?_, ?_⟩
  · rw [maint_keys hw, List.range_succ]
    exact k4.trans (List.Perm.append_right _ ((hkept.map _).symm.trans h.keys))
  · rw [hm.1, hl.1, h2]; omega
  · rw [hm.1, hl.1, h2]
  · rw [tail_len hw (by rw [hl.2, h1]; exact hnm), hl.2, h1]
  · intro hlt
    rw [maint_zero hw (by rw [hl.2, h1]; omega)]
    intro e he
    rw [← (k3 e he).stale]
    exact hst e he

/-- The first `n + 1` keys, as long as the limit is not exceeded: the number of buckets is the least that suffices, of 4, 8, 16, … -/
theorem fill (hmb : 2 * m ≤ mb) : ∀ n, n + 1 ≤ m →
    Filled m mb (n + 1) (stateAfter (lru m mb) (puts (List.range (n + 1)))) ∧ (∀ e ∈ (stateAfter (lru m mb) (puts (List.range (n + 1)))).ents, e.expired (at_ 0) = false) ∧
    ∃ i, (stateAfter (lru m mb) (puts (List.range (n + 1)))).tbl.length = 4 * 2 ^ i ∧ (i ≠ 0 → 2 * 2 ^ i < n + 1)
  | 0, h0 => by
    have hz : stateAfter (lru m mb) (puts (List.range 0)) = St.init := rfl
    have hp : Plainly (m := m) (mb := mb) (St.init : St Nat Nat Nat) := hz ▸ puts_plain (List.range 0)
    rw [List.range_succ, puts_snoc, stateAfter_snoc, hz]
    have hx : expire_ (lru m mb) (at_ 0) (St.init : St Nat Nat Nat) 0 = St.init := rfl
    rw [emplace_eq hx]
    obtain ⟨kept, k1, k2, k3, k4, k5⟩ := link_ents (env := at_ 0) hp 0 0
    have hl := link_shape (cfg := lru m mb) (env := at_ 0) (s := (St.init : St Nat Nat Nat)) (newEntry St.init 0 (.value 0))
    have hw := (link_spec (cfg := lru m mb) (at_ 0) hp.wf (e := newEntry St.init 0 (.value 0)) rfl).1
    have hm := maintenance_same2 (cfg := lru m mb) (s := link (lru m mb) (at_ 0) (St.init : St Nat Nat Nat) (newEntry St.init 0 (.value 0)))
    have h1 : (maybeRehash (lru m mb) (at_ 0) (St.init : St Nat Nat Nat)).size = 0 := rfl
    have h2 : (maybeRehash (lru m mb) (at_ 0) (St.init : St Nat Nat Nat)).tbl.length = 4 := rfl
    have hk : kept = [] := List.eq_nil_of_length_eq_zero (by rw [k2, h1])
    subst hk
    refine ⟨⟨?_, ?_⟩, ?_, 0, ?_, by simp⟩
    · rw [maint_keys hw]; exact k4
    · rw [hm.1, hl.1, h2]; omega
    · rw [maint_zero hw (by rw [hl.2, h1]; omega)]
      intro e he
      rw [← (k3 e he).stale]
      exact k5 (by simp) e he
    · rw [hm.1, hl.1, h2]
  | n + 1, h => by
    obtain ⟨f, hs, i, hi, hi2⟩ := fill hmb n (by omega)
    have hp := puts_plain (m := m) (mb := mb) (List.range (n + 1))
    rw [List.range_succ, puts_snoc, stateAfter_snoc]
    rcases Nat.lt_or_ge (n + 1) (stateAfter (lru m mb) (puts (List.range (n + 1)))).tbl.length with hr | hr
    · obtain ⟨a, b, _, c, _⟩ := filled_room hp f hr
      exact ⟨a, c hs (by omega), i, by rw [b, hi], fun h0 => Nat.lt_succ_of_lt (hi2 h0)⟩
    · have hr : (stateAfter (lru m mb) (puts (List.range (n + 1)))).tbl.length = n + 1 := by have := f.fits; omega
      obtain ⟨a, b, _, c⟩ := filled_grow hp f hr hs (by omega) (by omega) (by omega)
      refine ⟨a, c (by omega), i + 1, ?_, ?_⟩
      · rw [b, ← hr, hi, Nat.pow_succ]; omega
      · intro _; rw [hi] at hr; rw [Nat.pow_succ]; omega

theorem seenAll_append (cfg : Cfg Nat) : ∀ (h h' : Hist Nat Nat Nat) (s : St Nat Nat Nat), seenAll cfg s (h ++ h') = seenAll cfg s h ++ seenAll cfg (run cfg s h).1 h'
  | [], _, _ => rfl
  | (env, o) :: h, h', s => by
    show seen cfg env s o :: seenAll cfg (step cfg env s o).1 (h ++ h') = _
    rw [seenAll_append cfg h h']
    rfl

theorem pow_eq {i j : Nat} {m : Nat} (h1 : m ≤ 4 * 2 ^ i) (h2 : i ≠ 0 → 2 * 2 ^ i < m) (h3 : m ≤ 4 * 2 ^ j) (h4 : 2 * 2 ^ j < m) : i = j := by
  rcases Nat.lt_trichotomy i j with h | h | h
  · exfalso
    have : 2 ^ (i + 1) ≤ 2 ^ j := Nat.pow_le_pow_right (by omega) h
    rw [Nat.pow_succ] at this
    omega
  · exact h
  · exfalso
    have : 2 ^ (j + 1) ≤ 2 ^ i := Nat.pow_le_pow_right (by omega) h
    rw [Nat.pow_succ] at this
    have := h2 (by omega)
    omega

theorem clogged_reached {j : Nat} (hm : m + 1 = 4 * 2 ^ j) (hmb : 2 * m ≤ mb) : Clogged m (stateAfter (lru m mb) (puts (List.range (m + 1)))) := by
  have hp0 : 1 ≤ 2 ^ j := Nat.one_le_two_pow
  obtain ⟨f, hs, i, hi, hi2⟩ := fill (m := m) (mb := mb) hmb (m - 1) (by omega)
  have e1 : m - 1 + 1 = m := by omega
  rw [e1] at f hs hi hi2
  have hij : i = j := pow_eq (m := m) (by rw [← hi]; exact f.fits) hi2 (by omega) (by omega)
  subst hij
  have hp := puts_plain (m := m) (mb := mb) (List.range m)
  obtain ⟨a, b, _, _, c⟩ := filled_room hp f (by rw [hi]; omega)
  rw [List.range_succ, puts_snoc, stateAfter_snoc]
  exact ⟨by rw [b, hi]; omega, a.size, c hs rfl⟩

/-- There is always another key. -/
theorem another_key {s : St Nat Nat Nat} (hw : WF1 (lru m mb) s) (h : Clogged m s) (hm : 1 ≤ m) :
    ∃ k, ∀ e ∈ s.ents, e.key ≠ k ∧ (e.key % s.tbl.length = k % s.tbl.length → e.expired (at_ 0) = false) := by
  obtain ⟨h1, h2, h3⟩ := h
  obtain ⟨x, hx⟩ := List.length_eq_one_iff.1 h3
  have hbig : ∀ (l : List (Entry Nat Nat Nat)) (e : Entry Nat Nat Nat), e ∈ l → e.key ≤ (l.map (·.key)).sum := by
    intro l
    induction l with
    | nil => intro e he; cases he
    | cons a l ih =>
      intro e he
      simp only [List.map_cons, List.sum_cons]
      rcases List.mem_cons.1 he with rfl | he
      · omega
      · have := ih e he; omega
  have hr : ∃ r, r ≤ 1 ∧ r ≠ x.key % (m + 1) := by
    by_cases h0 : x.key % (m + 1) = 0
    · exact ⟨1, by omega, by omega⟩
    · exact ⟨0, by omega, by omega⟩
  obtain ⟨r, r1, r2⟩ := hr
  refine ⟨r + (m + 1) * ((s.ents.map (·.key)).sum + 1), fun e he => ⟨?_, ?_⟩⟩
  · have := hbig _ e he
    have h4 : (s.ents.map (·.key)).sum + 1 ≤ (m + 1) * ((s.ents.map (·.key)).sum + 1) := Nat.le_mul_of_pos_left _ (by omega)
    omega
  · intro hq
    rw [h1, Nat.add_mul_mod_self_left, Nat.mod_eq_of_lt (a := r) (by omega)] at hq
    cases hxp : e.expired (at_ 0) with
    | false => rfl
    | true =>
      have : e ∈ [x] := hx ▸ List.mem_filter.2 ⟨he, hxp⟩
      rw [List.mem_singleton] at this
      subst this
      exact absurd hq.symm r2

theorem clogged_forever {j : Nat} (hm : m + 1 = 4 * 2 ^ j) (hmb : 2 * m ≤ mb) : ∀ n, ∃ ks : List Nat, ks.length = n ∧
    Clogged m (stateAfter (lru m mb) (puts (List.range (m + 1) ++ ks))) ∧
    (seenAll (lru m mb) (stateAfter (lru m mb) (puts (List.range (m + 1)))) (puts ks)).map (fun v => v.all.length) = List.replicate n (m + 1)
  | 0 => ⟨[], rfl, by simpa using clogged_reached hm hmb, rfl⟩
  | n + 1 => by
    have hp0 : 1 ≤ 2 ^ j := Nat.one_le_two_pow
    obtain ⟨ks, h1, h2, h3⟩ := clogged_forever hm hmb n
    have hp := puts_plain (m := m) (mb := mb) (List.range (m + 1) ++ ks)
    obtain ⟨k, hk⟩ := another_key hp.wf h2 (by omega)
    have hst : (run (lru m mb) (stateAfter (lru m mb) (puts (List.range (m + 1)))) (puts ks)).1 = stateAfter (lru m mb) (puts (List.range (m + 1) ++ ks)) := by
      have : puts (List.range (m + 1) ++ ks) = puts (List.range (m + 1)) ++ puts ks := by simp [puts]
      rw [this, stateAfter_append]
    obtain ⟨a, b⟩ := clogged_step hp h2 (k := k) (by
      intro e he
      rw [bucketOf_eq hp.wf.placed] at he
      obtain ⟨he, hq⟩ := List.mem_filter.1 he
      exact ⟨(hk e he).2 (by simpa [lru] using hq), (hk e he).1⟩)
    refine ⟨ks ++ [k], by simp [h1], ?_, ?_⟩
    · rw [← List.append_assoc, puts_snoc, stateAfter_snoc]
      exact b
    · rw [puts_snoc, seenAll_append, List.map_append, h3, hst, List.replicate_succ']
      simp [seenAll, a]

theorem tails_low {j : Nat} (hm : m = 4 * 2 ^ j) (hmb : 2 * m ≤ mb) : ∀ n, n ≤ m →
    (seenAll (lru m mb) St.init (puts (List.range n))).map (fun v => v.tail.length) = (List.range n).map (fun i => i + 1 - m)
  | 0, _ => rfl
  | 1, h1 => by
    have hp : Plainly (m := m) (mb := mb) (St.init : St Nat Nat Nat) := puts_plain (List.range 0)
    have hx : expire_ (lru m mb) (at_ 0) (St.init : St Nat Nat Nat) 0 = St.init := rfl
    have hl := link_shape (cfg := lru m mb) (env := at_ 0) (s := (St.init : St Nat Nat Nat)) (newEntry St.init 0 (.value 0))
    have hz : (link (lru m mb) (at_ 0) (St.init : St Nat Nat Nat) (newEntry St.init 0 (.value 0))).size = 1 := hl.2
    have := tail_le (cfg := lru m mb) rfl (link (lru m mb) (at_ 0) (St.init : St Nat Nat Nat) (newEntry St.init 0 (.value 0)))
    show [(seen (lru m mb) (at_ 0) St.init (.emplace 0 0 .none)).tail.length] = [0 + 1 - m]
    rw [(seen_eq hx).2]
    congr 1
    omega
  | n + 2, h => by
    have ih := tails_low hm hmb (n + 1) (by omega)
    obtain ⟨f, hs, i, hi, hi2⟩ := fill (m := m) (mb := mb) hmb n (by omega)
    have hp := puts_plain (m := m) (mb := mb) (List.range (n + 1))
    have hlast : (seen (lru m mb) (at_ 0) (stateAfter (lru m mb) (puts (List.range (n + 1)))) (.emplace (n + 1) (n + 1) .none)).tail.length = n + 1 + 1 - m := by
      rcases Nat.lt_or_ge (n + 1) (stateAfter (lru m mb) (puts (List.range (n + 1)))).tbl.length with hr | hr
      · exact (filled_room hp f hr).2.2.1 (by omega)
      · have hr : (stateAfter (lru m mb) (puts (List.range (n + 1)))).tbl.length = n + 1 := by have := f.fits; omega
        exact (filled_grow hp f hr hs (by omega) (by omega) (by omega)).2.2.1
    rw [List.range_succ (n := n + 1), puts_snoc, seenAll_append, List.map_append, List.map_append, ih]
    show _ ++ [(seen (lru m mb) (at_ 0) (stateAfter (lru m mb) (puts (List.range (n + 1)))) (.emplace (n + 1) (n + 1) .none)).tail.length] = _
    rw [hlast]
    rfl

theorem tails_high {j : Nat} (hm : m = 4 * 2 ^ j) (hmb : 2 * m ≤ mb) : ∀ t, t + 1 ≤ m →
    Filled m mb (m + (t + 1)) (stateAfter (lru m mb) (puts (List.range (m + (t + 1))))) ∧ (stateAfter (lru m mb) (puts (List.range (m + (t + 1))))).tbl.length = 2 * m ∧
    (seenAll (lru m mb) St.init (puts (List.range (m + (t + 1))))).map (fun v => v.tail.length) = (List.range (m + (t + 1))).map (fun i => i + 1 - m)
  | 0, h => by
    have hp0 : 1 ≤ 2 ^ j := Nat.one_le_two_pow
    obtain ⟨f, hs, i, hi, hi2⟩ := fill (m := m) (mb := mb) hmb (m - 1) (by omega)
    have e1 : m - 1 + 1 = m := by omega
    rw [e1] at f hs hi hi2
    have hij : i = j := pow_eq (m := m) (by rw [← hi]; exact f.fits) hi2 (by omega) (by omega)
    subst hij
    have hp := puts_plain (m := m) (mb := mb) (List.range m)
    obtain ⟨a, b, c, _⟩ := filled_grow hp f (by rw [hi, hm]) hs (by omega) (by omega) (by omega)
    have ih := tails_low hm hmb m (Nat.le_refl _)
    rw [List.range_succ, puts_snoc, stateAfter_snoc]
    refine ⟨a, b, ?_⟩
    rw [seenAll_append, List.map_append, List.map_append, ih]
    show _ ++ [(seen (lru m mb) (at_ 0) (stateAfter (lru m mb) (puts (List.range m))) (.emplace m m .none)).tail.length] = _
    rw [c]
    rfl
  | t + 1, h => by
    obtain ⟨f, hb, ih⟩ := tails_high hm hmb t (by omega)
    have hp := puts_plain (m := m) (mb := mb) (List.range (m + (t + 1)))
    obtain ⟨a, b, c, _⟩ := filled_room hp f (by rw [hb]; omega)
    have e : m + (t + 1 + 1) = m + (t + 1) + 1 := rfl
    rw [e, List.range_succ, puts_snoc, stateAfter_snoc]
    refine ⟨a, by rw [b, hb], ?_⟩
    rw [seenAll_append, List.map_append, List.map_append, ih]
    show _ ++ [(seen (lru m mb) (at_ 0) (stateAfter (lru m mb) (puts (List.range (m + (t + 1))))) (.emplace (m + (t + 1)) (m + (t + 1)) .none)).tail.length] = _
    rw [c (by omega)]
    rfl

theorem sum_tails (m : Nat) : ∀ t, 2 * ((List.range (m + t)).map (fun i => i + 1 - m)).sum = t * (t + 1)
  | 0 => by
    have : (List.range (m + 0)).map (fun i => i + 1 - m) = List.replicate m 0 := by
      rw [List.eq_replicate_iff]
      refine ⟨by simp, ?_⟩
      intro b hb
      obtain ⟨i, hi, rfl⟩ := List.mem_map.1 hb
      have := List.mem_range.1 hi
      omega
    rw [this]; simp
  | t + 1 => by
    have e : m + (t + 1) = m + t + 1 := rfl
    have h2 : m + t + 1 - m = t + 1 := by omega
    rw [e, List.range_succ, List.map_append, List.sum_append, Nat.mul_add, sum_tails m t]
    simp only [List.map_cons, List.map_nil, List.sum_cons, List.sum_nil, h2]
    rw [Nat.add_mul, Nat.mul_add]
    grind

end Hoard.Visits
