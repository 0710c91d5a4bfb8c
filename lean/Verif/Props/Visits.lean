import Verif.VisitsClog
import Verif.VisitsStep
import Verif.Props.Garbage
/-! # How many entries a call looks at: C104

`seen cfg env s o`: the entries (ids) at which the operation `o` looks if the cache is in state `s`: in the bucket of its key
(`.bucket`), in a pass over all entries (`.all`), and from the cold end of the recency queue (`.tail`).  `stateAfter cfg h`: the cache after
the calls `h`; `.size`: its number of entries, expired ones included; `.tbl.length`: its number of buckets. -/
namespace Hoard.Props
open Spec Demo Visits
open Compare (answers upTo given looks)
variable {K V E : Type} {cfg : Cfg K}

/-- The loops with the record of what they look at are the loops of the model. -/
theorem C104_same_loops (cfg : Cfg K) (env : Env V) (k : K) (wait : Bool) (es : List (Entry K V E)) (hot : Nat → Bool) (q : List Nat) (c : Nat) :
    (Visits.getWalk cfg env k wait es).1 = Hoard.getWalk cfg env k wait es ∧ (Visits.expireWalk cfg env k es).1 = Hoard.expireWalk cfg env k es ∧
    (Visits.peekWalk cfg env k es).1 = Hoard.peekWalk cfg env k es ∧ (Visits.purgeWalk env es).1 = Hoard.purgeWalk env es ∧
    (Visits.lruGo hot q c).1 = BQ.lruGo hot q c :=
  ⟨getWalk_fst k wait es, expireWalk_fst k es, peekWalk_fst k es, purgeWalk_fst es, lruGo_fst hot q c⟩

/-- C104.  A call that is given a key looks at the entries that share the bucket of the key, in the order in which they are linked, and
at no other entries of the table unless it makes a pass over all of them.  If it looks for an answer, it ends at the entry that
answers; otherwise it looks at all of the bucket. -/
theorem C104_looks_at_its_bucket (hc : cfg.Ok) (h : Hist K V E) (hok : HistOk cfg St.init h) (env : Env V) (o : Op K V E) (k : K) (hk : given o = some k) :
    (seen cfg env (stateAfter cfg h) o).bucket =
      match looks o with
      | some wait => (upTo (answers cfg env k wait) (sharing cfg (stateAfter cfg h) k)).map (·.id)
      | none => (sharing cfg (stateAfter cfg h) k).map (·.id) := by
  have hb := bucketOf_eq (good_any hc h hok env).wf1.placed k
  cases o <;> simp only [given, Option.some.injEq, reduceCtorEq] at hk <;> subst hk <;> simp only [seen, looks]
  · rw [peekWalk_snd hc, hb]
  · rw [getWalk_snd hc, hb]
  · rw [getWalk_snd hc, hb]
  · rw [expireWalk_snd, hb]
  · split <;> simp only [getWalk_snd hc, hb]
  · rw [expireWalk_snd, hb]

/-- Reading a value without a resolver, erasing, and delivering a result never look at anything else. -/
theorem C104_nothing_else (cfg : Cfg K) (env : Env V) (s : St K V E) (o : Op K V E)
    (ho : (∃ k, o = .getIfExists k) ∨ (∃ k, o = .erase k) ∨ (∃ k r, o = .get k r ∧ cfg.resolver ≠ .sync) ∨ (∃ t r, o = .complete t r) ∨ (∃ t, o = .drop t)) :
    (seen cfg env s o).all = [] ∧ (seen cfg env s o).tail = [] := by
  rcases ho with ⟨k, rfl⟩ | ⟨k, rfl⟩ | ⟨k, r, rfl, hr⟩ | ⟨t, r, rfl⟩ | ⟨t, rfl⟩
  · exact ⟨rfl, rfl⟩
  · exact ⟨rfl, rfl⟩
  · simp [seen, hr]
  · exact ⟨rfl, rfl⟩
  · exact ⟨rfl, rfl⟩

/-- C104.  A pass over all entries looks at no entry twice.  It is made only by an operation that is about to insert an entry (or by `clear`,
`count` and the destructor), and only if with this entry the table would be over its load factor limit: with the number of entries that the
cache had at the beginning of the operation it would be, as well. -/
theorem C104_pass_only_if_full (hc : cfg.Ok) {p q : Nat} (hov : cfg.over = fun n b => decide (n * q > p * b)) (h : Hist K V E) (hok : HistOk cfg St.init h) (env : Env V)
    (o : Op K V E) (ho : sweeps o = false) :
    (seen cfg env (stateAfter cfg h) o).all.Nodup ∧ (∀ i ∈ (seen cfg env (stateAfter cfg h) o).all, i ∈ (stateAfter cfg h).ents.map (·.id)) ∧
    ((seen cfg env (stateAfter cfg h) o).all ≠ [] → ((stateAfter cfg h).size + 1) * q > p * (stateAfter cfg h).tbl.length) := by
  rcases all_eq (env := env) hc (good_any hc h hok env).wf1 o ho with e | ⟨s1, l, n, m, e⟩ <;> rw [e]
  · simp
  · rw [pass_eq]
    split
    · rename_i hf
      refine ⟨n, m, fun _ => ?_⟩
      rw [hov, l.1] at hf
      simp only [gt_iff_lt, decide_eq_true_eq] at hf
      exact Nat.lt_of_lt_of_le hf (Nat.mul_le_mul_right q (Nat.succ_le_succ l.2))
    · simp

/-- C104.  The pass that `emplace` makes: if the entry to come would exceed the limit, it looks at every entry that is left when the
entries of the key were removed, otherwise at none. -/
theorem C104_emplace_pass (cfg : Cfg K) (env : Env V) (s : St K V E) (k : K) (v : V) :
    (seen cfg env s (.emplace k v .none)).all =
      if cfg.over ((step cfg env s (.erase k)).1.size + 1) (step cfg env s (.erase k)).1.tbl.length then (step cfg env s (.erase k)).1.ents.map (·.id) else [] :=
  pass_eq _

/-- C104.  If there is no memory for the entry, no pass is made. -/
theorem C104_no_memory_no_pass (cfg : Cfg K) (env : Env V) (s : St K V E) (k : K) (v : V) :
    (seen cfg env s (.emplace k v .alloc)).all = [] ∧ (seen cfg env s (.getOrEmplace k v .alloc)).all = [] := by
  refine ⟨rfl, ?_⟩
  simp only [seen, insertion]
  split <;> rfl

/-- C104.  A call that looks something up, and the worker that refreshes, make a pass only if the resolver is called. -/
theorem C104_no_call_no_pass (cfg : Cfg K) (env : Env V) (s : St K V E) (o : Op K V E)
    (ho : (∃ k r, o = .get k r) ∨ (∃ k w b, o = .asyncGet k w b) ∨ ∃ r b, o = .tick r b) (hn : (step cfg env s o).2.calls = []) :
    (seen cfg env s o).all = [] := by
  rcases ho with ⟨k, r, rfl⟩ | ⟨k, w, b, rfl⟩ | ⟨r, b, rfl⟩
  · simp only [seen]
    split
    · rename_i hx
      exfalso
      simp only [step, get, hx.1, miss_eq hx.2] at hn
      cases hn
    · rfl
  · simp only [seen]
    split
    · rename_i hx
      exfalso
      rw [getWalk_fst, Option.isNone_iff_eq_none] at hx
      simp only [step, asyncGet] at hn
      rw [show (Hoard.getWalk cfg env k true (s.bucket (s.bucketFor (cfg.hash k)))).hit = none from hx] at hn
      cases hn
    · rfl
  · simp only [seen]
    cases hq : s.delayQ with
    | nil => rfl
    | cons i q =>
      simp only
      cases hf : s.find i with
      | none => rfl
      | some e =>
        simp only
        split
        · rename_i hx
          simp only [Bool.and_eq_true, Bool.not_eq_true'] at hx
          exfalso
          simp only [step, tick, hq, hf, hx.1.1, if_true, refresh, hx.1.2, hx.2, Bool.or_self, Bool.false_eq_true, if_false] at hn
          split at hn
          · split at hn <;> cases hn
          · cases hn
        · rfl

/-- A due refresh with a full table: the resolver is called, and a pass is made. -/
example : ∃ (h : Hist Nat Nat Nat), HistOk { plain with resolver := .sync, refresh := some (3, 9) } St.init h ∧
    (outAt { plain with resolver := .sync, refresh := some (3, 9) } h (at_ 4) (.tick (.ok 7) .later)).calls = [(1, 4)] ∧
    (seen { plain with resolver := .sync, refresh := some (3, 9) } (at_ 4) (stateAfter { plain with resolver := .sync, refresh := some (3, 9) } h) (.tick (.ok 7) .later)).all.length = 4 ∧
    (outAt { plain with resolver := .sync, refresh := some (3, 9) } h (at_ 2) (.tick (.ok 7) .later)).calls = [] :=
  ⟨[(at_ 0, .get 1 (.ok 1)), (at_ 0, .get 2 (.ok 1)), (at_ 0, .get 3 (.ok 1)), (at_ 0, .get 4 (.ok 1))], by decide +kernel, by decide +kernel, by decide +kernel, by decide +kernel⟩

/-- C104.  A pass is never for nothing: either afterwards there are not more entries than before, that is, some entry was removed to make
room for the new one, or the number of buckets has doubled (or become the maximum). -/
theorem C104_pass_pays (hc : cfg.Ok) {p q : Nat} (hov : cfg.over = fun n b => decide (n * q > p * b)) (h : Hist K V E) (hok : HistOk cfg St.init h) (env : Env V)
    (o : Op K V E) (ho : sweeps o = false) (hb : (stateAfter cfg h).tbl.length < cfg.maxBuckets) (ha : (seen cfg env (stateAfter cfg h) o).all ≠ []) :
    (stateAfter cfg (h ++ [(env, o)])).size ≤ (stateAfter cfg h).size ∨
    (stateAfter cfg (h ++ [(env, o)])).tbl.length = min cfg.maxBuckets (2 * (stateAfter cfg h).tbl.length) := by
  have hfull := (C104_pass_only_if_full hc hov h hok env o ho).2.2 ha
  have g := good_any hc h hok env
  have hne : (stateAfter cfg h).ents ≠ [] := by
    intro h0
    cases hs : (seen cfg env (stateAfter cfg h) o).all with
    | nil => exact ha hs
    | cons i t =>
      have := (C104_pass_only_if_full hc hov h hok env o ho).2.1 i (by rw [hs]; exact List.mem_cons_self ..)
      rw [h0] at this; cases this
  have hlen : (stateAfter cfg h).tbl.length ≠ 0 := by
    intro h0
    have : (stateAfter cfg h).tbl = [] := List.eq_nil_of_length_eq_zero h0
    exact hne (by simp [St.ents, this])
  rw [stateAfter_snoc]
  rcases step_mv2 (env := env) hc g.wf1 o with r | ⟨s1, r1, r2, r3, r4⟩
  · exact .inl r.2
  · rw [r4, r3]
    obtain ⟨a, _⟩ := maybeRehash_shape (cfg := cfg) (env := env) s1
    rcases Nat.lt_or_ge s1.size (stateAfter cfg h).size with hs | hs
    · left
      have hn : needed env s1 ≤ s1.size := List.length_filter_le ..
      rcases a with a | a <;> omega
    · have hs : s1.size = (stateAfter cfg h).size := by have := r1.2; omega
      have hf : cfg.over (s1.size + 1) s1.tbl.length = true := by
        rw [hov, hs, r1.1]
        simpa using hfull
      have hn : needed env s1 ≤ s1.size := List.length_filter_le ..
      rcases a with a | a
      · rcases Nat.lt_or_ge (needed env s1) s1.size with hl | hl
        · left; omega
        · right
          rw [maybeRehash_grown hf (by omega) (by rw [r1.1]; exact hb), r1.1]
          unfold grown
          rw [if_neg hlen]
          split <;> omega
      · rw [hf] at a; exact absurd a.2 (by decide)

theorem buckets_never_fewer (hc : cfg.Ok) (h h' : Hist K V E) (hok : HistOk cfg St.init (h ++ h')) :
    (stateAfter cfg h).tbl.length ≤ (stateAfter cfg (h ++ h')).tbl.length := by
  induction h' using snoc_ind with
  | h0 => simp
  | h1 l a ih =>
    obtain ⟨env, o⟩ := a
    rw [← List.append_assoc] at hok ⊢
    have hok1 := (HistOk_append.1 hok).1
    refine Nat.le_trans (ih hok1) ?_
    rw [stateAfter_snoc]
    rcases step_mv2 (env := env) hc (good_any hc _ hok1 env).wf1 o with r | ⟨s1, r1, _, r3, _⟩
    · exact Nat.le_of_eq r.1.symm
    · rw [r3, ← r1.1]; exact maybeRehash_mono s1

theorem idle_bound (hc : cfg.Ok) {p q : Nat} (hov : cfg.over = fun n b => decide (n * q > p * b)) (hpq : q ≤ 4 * p) :
    ∀ (h h0 : Hist K V E), HistOk cfg St.init (h0 ++ h) → (∀ x ∈ h, sweeps x.2 = false) → (stateAfter cfg (h0 ++ h)).tbl.length < cfg.maxBuckets →
      idlePasses cfg (stateAfter cfg h0) h * q + p * (stateAfter cfg h0).tbl.length ≤ p * (stateAfter cfg (h0 ++ h)).tbl.length
  | [], h0, _, _, _ => by simp [idlePasses]
  | (env, o) :: h, h0, hok, hs, hb => by
    have e : h0 ++ (env, o) :: h = h0 ++ [(env, o)] ++ h := by simp
    have hok1 : HistOk cfg St.init (h0 ++ [(env, o)]) := (HistOk_append.1 (e ▸ hok)).1
    have hok0 := (HistOk_append.1 hok1).1
    rw [e] at hok hb ⊢
    have ih := idle_bound hc hov hpq h (h0 ++ [(env, o)]) hok (fun x hx => hs x (List.mem_cons_of_mem _ hx)) hb
    have g := good_any hc h0 hok0 env
    have mono : p * (stateAfter cfg h0).tbl.length ≤ p * (stateAfter cfg (h0 ++ [(env, o)])).tbl.length ∧
        (stateAfter cfg (h0 ++ [(env, o)])).tbl.length ≤ (stateAfter cfg (h0 ++ [(env, o)] ++ h)).tbl.length := ⟨by
      have := buckets_never_fewer hc h0 [(env, o)] hok1
      exact Nat.mul_le_mul_left p this, buckets_never_fewer hc _ h hok⟩
    unfold idlePasses
    simp only
    rw [stateAfter_snoc] at ih mono
    rw [Nat.add_mul]
    have hstep : (if (stateAfter cfg h0).size < (step cfg env (stateAfter cfg h0) o).1.size then (seen cfg env (stateAfter cfg h0) o).all.length else 0) * q +
        p * (stateAfter cfg h0).tbl.length ≤ p * (step cfg env (stateAfter cfg h0) o).1.tbl.length := by
      split
      · rename_i hlt
        by_cases ha : (seen cfg env (stateAfter cfg h0) o).all = []
        · rw [ha]; simpa using mono.1
        · have hb0 : (stateAfter cfg h0).tbl.length < cfg.maxBuckets := by
            have := buckets_never_fewer hc h0 [(env, o)] hok1
            rw [stateAfter_snoc] at this
            omega
          have hpay := C104_pass_pays hc hov h0 hok0 env o (hs _ (List.mem_cons_self ..)) hb0 ha
          rw [stateAfter_snoc] at hpay
          rcases hpay with hp | hp
          · omega
          · have hlen : (seen cfg env (stateAfter cfg h0) o).all.length ≤ (stateAfter cfg h0).size := by
              rcases all_eq (env := env) hc g.wf1 o (hs _ (List.mem_cons_self ..)) with e1 | ⟨s1, l, _, _, e1⟩
              · rw [e1]; simp
              · rw [e1, pass_eq]; split
                · rw [List.length_map]; exact l.2
                · simp
            have hk := (C27_load_factor_kept_partial hc hov hpq h0 hok0).resolve_right (by omega)
            have h2 : (step cfg env (stateAfter cfg h0) o).1.tbl.length = 2 * (stateAfter cfg h0).tbl.length := by omega
            rw [h2]
            have := Nat.mul_le_mul_right q hlen
            have h3 : p * (2 * (stateAfter cfg h0).tbl.length) = p * (stateAfter cfg h0).tbl.length + p * (stateAfter cfg h0).tbl.length := by
              rw [Nat.mul_left_comm]; omega
            omega
      · simpa using mono.1
    omega

/-- C104.  All passes together in which nothing was removed to make room have looked at no more entries than the table may hold in the end (the load factor limit `p / q` times
the number of buckets; the default limit is 1): on average every insertion pays for a constant number of entries. -/
theorem C104_idle_passes_are_cheap_partial (hc : cfg.Ok) {p q : Nat} (hov : cfg.over = fun n b => decide (n * q > p * b)) (hpq : q ≤ 4 * p) (h : Hist K V E) (hok : HistOk cfg St.init h)
    (hs : ∀ x ∈ h, sweeps x.2 = false) (hb : (stateAfter cfg h).tbl.length < cfg.maxBuckets) :
    idlePasses cfg St.init h * q ≤ p * (stateAfter cfg h).tbl.length := by
  have := idle_bound hc hov hpq h [] hok hs hb
  exact Nat.le_trans (Nat.le_add_right _ _) this

/-- C104.  Without a size limit, no operation looks at the recency queue. -/
theorem C104_no_limit_no_tail (hm : cfg.maxSize = none) (s : St K V E) (env : Env V) (o : Op K V E) : (seen cfg env s o).tail = [] := by
  have ht : ∀ s1 : St K V E, tail cfg s1 = [] := fun s1 => by simp [tail, hm]
  have hi : ∀ (s1 : St K V E) k v f, (insertion cfg env s1 k v f).2 = [] := by
    intro s1 k v f
    cases f <;> simp [insertion, ht]
  cases o with
  | emplace k v f => exact hi _ _ _ _
  | getOrEmplace k v f =>
    simp only [seen]
    split
    · exact hi _ _ _ _
    · exact ht _
  | tick r b =>
    simp only [seen]
    split
    · rfl
    · split <;> rfl
  | _ => rfl

/-- C104.  From the cold end of the recency queue an operation looks at no more entries than the cache then has too many. -/
theorem C104_tail_bound {m : Nat} (hm : cfg.maxSize = some m) (s : St K V E) (env : Env V) (o : Op K V E) :
    (seen cfg env s o).tail.length ≤ (step cfg env s o).1.size - m := by
  have hi : ∀ (s1 : St K V E) k v f, (tryLink cfg env s1 (newEntry s1 k (.value v)) f).2 = true →
      (insertion cfg env s1 k v f).2.length ≤ (maintenance cfg (tryLink cfg env s1 (newEntry s1 k (.value v)) f).1).size - m := by
    intro s1 k v f hf
    rw [maintenance_same2.2]
    cases f with
    | alloc => simp [insertion]
    | none => simp only [insertion]; rw [if_pos hf]; exact tail_le hm _
    | grow => simp only [insertion]; rw [if_pos hf]; exact tail_le hm _
  have hz : ∀ (s1 : St K V E) k v f, (tryLink cfg env s1 (newEntry s1 k (.value v)) f).2 = false → (insertion cfg env s1 k v f).2 = [] := by
    intro s1 k v f hf
    cases f with
    | alloc => simp [insertion]
    | none => simp [insertion, hf]
    | grow => simp [insertion, hf]
  cases o with
  | emplace k v f =>
    simp only [seen, step, emplace]
    cases hf : (tryLink cfg env (expire_ cfg env s k) (newEntry (expire_ cfg env s k) k (.value v)) f).2 with
    | true => simpa using hi _ _ _ _ hf
    | false => rw [hz _ _ _ _ hf]; simp
  | getOrEmplace k v f =>
    simp only [seen, step, getOrEmplace]
    split
    · rename_i hmiss
      rw [miss_eq hmiss]
      simp only
      cases hf : (tryLink cfg env (walked cfg env s k true) (newEntry (walked cfg env s k true) k (.value v)) f).2 with
      | true => simpa using hi _ _ _ _ hf
      | false => rw [hz _ _ _ _ hf]; simp
    · rename_i hhit
      have hnone : (get_ cfg env s k true).2 ≠ .none := by
        intro hn
        apply hhit
        rw [getWalk_fst, Option.isNone_iff_eq_none]
        cases hw : (Hoard.getWalk cfg env k true (Compare.bucketOf cfg s k)).hit with
        | none => rfl
        | some x =>
          exact absurd hn (get__hit_ne hw)
      cases hl : (get_ cfg env s k true).2 with
      | none => exact absurd hl hnone
      | val v' => simp only [maintenance_same2.2]; exact tail_le hm _
      | err e => simp only [maintenance_same2.2]; exact tail_le hm _
      | pend => simp only [maintenance_same2.2]; exact tail_le hm _
  | tick r b =>
    simp only [seen]
    split
    · simp
    · split <;> simp
  | _ => simp [seen]

/-- C104.  If a cache with a size limit has too many entries after `emplace` or `get_or_emplace` (that did not throw), this call has looked at the recency queue, even if it inserted nothing. -/
theorem C104_too_many_are_looked_at (hc : cfg.Ok) {m : Nat} (hm : cfg.maxSize = some m) (h : Hist K V E) (hok : HistOk cfg St.init h) (env : Env V) (o : Op K V E) (k : K) (v : V) (f : Fail)
    (ho : o = .emplace k v f ∨ o = .getOrEmplace k v f) (ht : (step cfg env (stateAfter cfg h) o).2.ret ≠ .throws) (hs : (stateAfter cfg (h ++ [(env, o)])).size > m) :
    (seen cfg env (stateAfter cfg h) o).tail ≠ [] := by
  rw [stateAfter_snoc] at hs
  have hw := (good_any hc h hok env).wf1
  generalize stateAfter cfg h = s at *
  have ins : ∀ (s1 : St K V E), WF1 cfg s1 → (tryLink cfg env s1 (newEntry s1 k (.value v)) f).2 = true →
      (maintenance cfg (tryLink cfg env s1 (newEntry s1 k (.value v)) f).1).size > m → (insertion cfg env s1 k v f).2 ≠ [] := by
    intro s1 h1 hf hs
    rw [maintenance_same2.2] at hs
    have hw2 : WF1 cfg (tryLink cfg env s1 (newEntry s1 k (.value v)) f).1 := by
      rcases tryLink_cases cfg env s1 (newEntry s1 k (.value v)) f with q | q | q <;> rw [q]
      · exact (link_spec env h1 (e := newEntry s1 k (.value v)) rfl).1
      · exact h1
      · exact beforeLink_wf1 h1 env
    cases f with
    | alloc => cases hf
    | none => simp only [insertion]; rw [if_pos hf]; exact tail_ne hm hw2 hs
    | grow => simp only [insertion]; rw [if_pos hf]; exact tail_ne hm hw2 hs
  rcases ho with rfl | rfl
  · simp only [seen]
    simp only [step, emplace] at hs ht
    cases hf : (tryLink cfg env (expire_ cfg env s k) (newEntry (expire_ cfg env s k) k (.value v)) f).2 with
    | true => rw [hf] at hs; exact ins _ (expire_wf1 hc hw env k) hf hs
    | false => rw [hf] at ht; exact absurd rfl ht
  · simp only [seen]
    simp only [step, getOrEmplace] at hs ht
    split
    · rename_i hmiss
      rw [miss_eq hmiss] at hs ht ⊢
      simp only at hs ht ⊢
      cases hf : (tryLink cfg env (walked cfg env s k true) (newEntry (walked cfg env s k true) k (.value v)) f).2 with
      | true => rw [hf] at hs; exact ins _ (walked_wf1 hw env k true) hf hs
      | false => rw [hf] at ht; exact absurd rfl ht
    · rename_i hhit
      have hnone : (get_ cfg env s k true).2 ≠ .none := by
        intro hn
        apply hhit
        rw [getWalk_fst, Option.isNone_iff_eq_none]
        cases hw : (Hoard.getWalk cfg env k true (Compare.bucketOf cfg s k)).hit with
        | none => rfl
        | some x => exact absurd hn (get__hit_ne hw)
      refine tail_ne hm (get__wf1 hc hw env k true) ?_
      cases hl : (get_ cfg env s k true).2 with
      | none => exact absurd hl hnone
      | val v' => simpa only [hl, maintenance_same2.2] using hs
      | err e => simpa only [hl, maintenance_same2.2] using hs
      | pend => simpa only [hl, maintenance_same2.2] using hs

/-- C104.  Nothing is removed unseen: an entry that is no longer in the table after an operation was looked at. -/
theorem C104_removed_are_looked_at (hc : cfg.Ok) (h : Hist K V E) (hok : HistOk cfg St.init h) (env : Env V) (o : Op K V E) (e : Entry K V E)
    (he : e ∈ (stateAfter cfg h).ents) (hn : ∀ x ∈ (stateAfter cfg (h ++ [(env, o)])).ents, x.id ≠ e.id) :
    e.id ∈ (seen cfg env (stateAfter cfg h) o).bucket ∨ e.id ∈ (seen cfg env (stateAfter cfg h) o).all := by
  rw [stateAfter_snoc] at hn
  cases hs : sweeps o with
  | true =>
    right
    cases o <;> first | (cases hs; done) | exact List.mem_map.2 ⟨e, he, rfl⟩
  | false => exact (step_looks hc (good_any hc h hok env).wf1 o hs).removed he hn

/-- C104.  Before it grows, a table with buckets is looked at as a whole. -/
theorem C104_growth_looks_at_all (hc : cfg.Ok) (h : Hist K V E) (hok : HistOk cfg St.init h) (env : Env V) (o : Op K V E) (hb : (stateAfter cfg h).tbl.length ≠ 0)
    (hg : (stateAfter cfg (h ++ [(env, o)])).tbl.length ≠ (stateAfter cfg h).tbl.length) (e : Entry K V E) (he : e ∈ (stateAfter cfg h).ents) :
    e.id ∈ (seen cfg env (stateAfter cfg h) o).bucket ∨ e.id ∈ (seen cfg env (stateAfter cfg h) o).all := by
  rw [stateAfter_snoc] at hg
  cases hs : sweeps o with
  | true =>
    right
    cases o <;> first | (cases hs; done) | exact List.mem_map.2 ⟨e, he, rfl⟩
  | false => exact (step_looks hc (good_any hc h hok env).wf1 o hs).grown hb hg he

/-! ## What it costs to keep a size limit -/

/-- C104 is false for caches with a size limit, if it is to mean that an insertion looks at few entries on average.  If a cache for `m` values has `m + 1`
buckets and is full, an insertion of a new key looks at all `m + 1` entries, unless the key happens to share the bucket of the single
entry that has expired; and the cache is in the same situation afterwards. -/
theorem C104_clogged_stays_clogged (m mb : Nat) (ks : List Nat) (h : Clogged m (stateAfter (lru m mb) (puts ks))) (k : Nat)
    (hk : ∀ e ∈ (stateAfter (lru m mb) (puts ks)).ents, e.key ≠ k ∧ (e.key % (m + 1) = k % (m + 1) → e.expired (at_ 0) = false)) :
    (seen (lru m mb) (at_ 0) (stateAfter (lru m mb) (puts ks)) (.emplace k k .none)).all.length = m + 1 ∧
    Clogged m (stateAfter (lru m mb) (puts (ks ++ [k]))) := by
  have hp := puts_plain (m := m) (mb := mb) ks
  rw [puts_snoc, stateAfter_snoc]
  refine clogged_step hp h ?_
  intro e he
  rw [bucketOf_eq hp.wf.placed] at he
  obtain ⟨he, hq⟩ := List.mem_filter.1 he
  rw [h.1] at hq
  exact ⟨(hk e he).2 (by simpa [lru] using hq), (hk e he).1⟩

/-- C104 is false for caches with a size limit: if the limit is one less than a power of two (3, 7, 15, …), then after the insertion of `m + 1` different keys
there are as many further insertions as one likes, of which each looks at `m + 1` entries in a pass over the whole table. -/
theorem C104_limit_costs_a_pass_each (j m mb n : Nat) (hm : m + 1 = 4 * 2 ^ j) (hmb : 2 * m ≤ mb) :
    ∃ ks : List Nat, ks.length = n ∧ HistOk (lru m mb) St.init (puts (List.range (m + 1) ++ ks)) ∧
      (seenAll (lru m mb) (stateAfter (lru m mb) (puts (List.range (m + 1)))) (puts ks)).map (fun v => v.all.length) = List.replicate n (m + 1) := by
  obtain ⟨ks, h1, _, h3⟩ := clogged_forever (mb := mb) hm hmb n
  exact ⟨ks, h1, puts_ok _, h3⟩

/-- C104 is false for caches with a size limit: if the limit `m` is a power of two (4, 8, 16, …), the insertion of the keys `0, …, 2 m - 1` looks at `m (m + 1) / 2` entries from the cold end of
the recency queue: entries that were marked as expired by an earlier insertion are marked again by each later one. -/
theorem C104_limit_costs_the_tail_each (j m mb : Nat) (hm : m = 4 * 2 ^ j) (hmb : 2 * m ≤ mb) :
    HistOk (lru m mb) St.init (puts (List.range (2 * m))) ∧
    (seenAll (lru m mb) St.init (puts (List.range (2 * m)))).map (fun v => v.tail.length) = (List.range (2 * m)).map (fun i => i + 1 - m) ∧
    2 * ((seenAll (lru m mb) St.init (puts (List.range (2 * m)))).map (fun v => v.tail.length)).sum = m * (m + 1) := by
  have hp0 : 1 ≤ 2 ^ j := Nat.one_le_two_pow
  obtain ⟨_, _, h3⟩ := tails_high (mb := mb) hm hmb (m - 1) (by omega)
  have e : m + (m - 1 + 1) = m + m := by omega
  rw [e] at h3
  refine ⟨puts_ok _, ?_, ?_⟩
  · rw [Nat.two_mul]; exact h3
  · rw [Nat.two_mul m, h3]; exact sum_tails m m

/-- A clogged cache: after the keys 0 to 7 were emplaced into a cache for 7 values, the keys 16, 24 and 32 make it look at 8 entries each. -/
example : Clogged 7 (stateAfter (lru 7 1000) (puts (List.range 8))) ∧
    (seenAll (lru 7 1000) (stateAfter (lru 7 1000) (puts (List.range 8))) (puts [16, 24, 32])).map (fun v => v.all.length) = [8, 8, 8] := by
  unfold Clogged; decide +kernel

/-- A pass with growth, a pass that makes room, and a lookup that ends at its answer. -/
example :
    let c : Cfg Nat := { plain with maxAge := some 5 }
    let h : Hist Nat Nat Nat := [(at_ 0, .emplace 0 0 .none), (at_ 0, .emplace 1 1 .none), (at_ 0, .emplace 2 2 .none), (at_ 4, .emplace 3 3 .none)]
    HistOk c St.init h ∧ (seen c (at_ 0) (stateAfter c h) (.emplace 4 4 .none)).all.length = 4 ∧ (stateAfter c (h ++ [(at_ 0, .emplace 4 4 .none)])).tbl.length = 8 ∧
    (seen c (at_ 6) (stateAfter c h) (.emplace 7 7 .none)).all.length = 4 ∧ (stateAfter c (h ++ [(at_ 6, .emplace 7 7 .none)])).tbl.length = 4 ∧
    (seen c (at_ 0) (stateAfter c (h ++ [(at_ 0, .emplace 4 4 .none)])) (.getIfExists 0)).bucket = [0] ∧
    (seen c (at_ 0) (stateAfter c (h ++ [(at_ 0, .emplace 4 4 .none)])) (.getIfExists 8)).bucket = [0, 4] := by decide +kernel

end Hoard.Props
