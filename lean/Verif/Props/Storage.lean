import Verif.StorageLemmas
import Verif.Demo
/-! # What is stored: C25, C41, C43

`(stateAfter cfg h).ents` are the entries linked in the table; an entry is an object
with its own identity `id`. -/
namespace Hoard.Props
open Hoard Spec Demo
variable {K V E : Type} {cfg : Cfg K}

/-! ## C25 -/

/-- C25, the notion of a dead entry: an entry that is not a lookup in flight and is not
`expired` is the answer of `get_if_exists` for its key.  So the entries that cannot be
returned are the expired ones. -/
theorem C25_not_expired_is_returned (hc : cfg.Ok) (h : Hist K V E) (hok : HistOk cfg St.init h) (env : Env V) (e : Entry K V E) (he : e ∈ (stateAfter cfg h).ents)
    (hp : e.isPending = false) (hx : e.expired env = false) : ∃ v, e.mapped.val? = some v ∧ (outAt cfg h env (.getIfExists e.key)).ret = .val v := by
  have g := good_any hc h hok env
  have hnv := g.dq.noVoid trivial e he
  have : ∃ v, e.mapped.val? = some v := by
    cases hm : e.mapped <;> simp_all [Entry.isPending, Mapped.isPending, Mapped.isVoid, Entry.expired, Mapped.expired, Mapped.holdsError, Mapped.val?]
  obtain ⟨v, hv⟩ := this
  exact ⟨v, hv, (peek_val hc g env e.key v).2 ⟨e, he, hc.refl _, hx, hv⟩⟩

/-- … and conversely: when `get_if_exists` returns a value for the key, it comes from an entry that
is not expired; an expired one is never the source. -/
theorem C25_returned_is_not_expired (hc : cfg.Ok) (h : Hist K V E) (hok : HistOk cfg St.init h) (env : Env V) (k : K) (v : V)
    (hv : (outAt cfg h env (.getIfExists k)).ret = .val v) :
    ∃ e ∈ (stateAfter cfg h).ents, cfg.eqv e.key k = true ∧ e.expired env = false ∧ e.mapped.val? = some v :=
  (peek_val hc (good_any hc h hok env) env k v).1 hv

/-- C25, erase.  `erase(k)` walks the whole bucket of `k`: every dead entry in it (and
every value of `k`) is unlinked.  Missing for the full claim: entries of lookups. -/
theorem C25_erase_reclaims_partial (hc : cfg.Ok) (h : Hist K V E) (hok : HistOk cfg St.init h) (env : Env V) (k : K) (e : Entry K V E)
    (he : e ∈ (stateAfter cfg h).ents) (hb : (stateAfter cfg h).bucketFor (cfg.hash e.key) = (stateAfter cfg h).bucketFor (cfg.hash k)) (hp : e.isPending = false)
    (hx : e.expired env = true ∨ cfg.eqv e.key k = true) :
    ∀ e' ∈ (stateAfter cfg (h ++ [(env, .erase k)])).ents, e'.id ≠ e.id := by
  rw [stateAfter_snoc]
  have g := good_any hc h hok env
  refine expire__out hc g.wf1 k ?_ hp hx
  rw [← hb]
  exact mem_bucket_of_mem g.wf1.placed he rfl

/-- C25, lookups.  A lookup of `k` (of any kind) walks the bucket of `k` up to the
entry that answers it: every dead entry it passes is unlinked, whatever its key. -/
theorem C25_lookup_reclaims_partial (hc : cfg.Ok) (h : Hist K V E) (hok : HistOk cfg St.init h) (env : Env V) (k : K) (o : Op K V E)
    (ho : (∃ r, o = .get k r) ∨ (∃ w b, o = .asyncGet k w b) ∨ (∃ v f, o = .getOrEmplace k v f))
    (pre : List (Entry K V E)) (e : Entry K V E) (post : List (Entry K V E))
    (hb : (stateAfter cfg h).bucket ((stateAfter cfg h).bucketFor (cfg.hash k)) = pre ++ e :: post) (hp : e.isPending = false) (hx : e.expired env = true)
    (hpre : ∀ x ∈ pre, cfg.eqv x.key k = true → x.expired env = true) :
    ∀ e' ∈ (stateAfter cfg (h ++ [(env, o)])).ents, e'.id ≠ e.id := by
  rw [stateAfter_snoc]
  have g := good_any hc h hok env
  have he : e ∈ (stateAfter cfg h).ents := mem_ents_of_bucket (i := (stateAfter cfg h).bucketFor (cfg.hash k)) (by rw [hb]; simp)
  have hlt := g.wf1.lt e (List.mem_append_left _ he)
  have hget := fun incl => get__out (env := env) hc g.wf1 k incl hb hp hx hpre
  generalize stateAfter cfg h = s at *
  rcases ho with ⟨r, rfl⟩ | ⟨w, b, rfl⟩ | ⟨v, f, rfl⟩
  · simp only [step, get]
    split
    · exact (link_flow rfl).out (by simpa using hlt) (hget false)
    all_goals exact hget false
  · simp only [step, asyncGet]
    split
    · exact (answer_flow _ _ _).out (by simpa using hlt) (hget true)
    · exact ((resolveAsync_flow _ _).trans (answer_flow _ _ _)).out (by simpa using hlt) (hget true)
  · simp only [step, getOrEmplace]
    split
    · exact maintenance_flow.out (by simpa using hlt) (hget true)
    · have f2 := tryLink_flow (cfg := cfg) (env := env) (s := (get_ cfg env s k true).1) (e := newEntry (get_ cfg env s k true).1 k (.value v)) rfl f
      split
      · exact (f2.trans maintenance_flow).out (by simpa using hlt) (hget true)
      · exact f2.out (by simpa using hlt) (hget true)
    · exact maintenance_flow.out (by simpa using hlt) (hget true)

/-- C25, growth.  Whatever operation makes the table grow, all dead entries are unlinked. -/
theorem C25_growth_reclaims_partial (hc : cfg.Ok) (h : Hist K V E) (hok : HistOk cfg St.init h) (env : Env V) (o : Op K V E)
    (hg : (stateAfter cfg (h ++ [(env, o)])).tbl.length ≠ (stateAfter cfg h).tbl.length) (e : Entry K V E) (he : e ∈ (stateAfter cfg h).ents)
    (hp : e.isPending = false) (hx : e.expired env = true) :
    ∀ e' ∈ (stateAfter cfg (h ++ [(env, o)])).ents, e'.id ≠ e.id := by
  rw [stateAfter_snoc] at hg ⊢
  exact step_grow hc (good_any hc h hok env) o hg he (by simp [stale, hp, hx])

/-- C25: an entry that was unlinked never comes back. -/
theorem C25_reclaimed_for_good (hc : cfg.Ok) (h1 h2 : Hist K V E) (hok : HistOk cfg St.init (h1 ++ h2)) (i : Nat) (hi : i < (stateAfter cfg h1).nextId)
    (ho : ∀ e ∈ (stateAfter cfg h1).ents, e.id ≠ i) : ∀ e ∈ (stateAfter cfg (h1 ++ h2)).ents, e.id ≠ i := by
  suffices i < (stateAfter cfg (h1 ++ h2)).nextId ∧ ∀ e ∈ (stateAfter cfg (h1 ++ h2)).ents, e.id ≠ i from this.2
  induction h2 using snoc_ind with
  | h0 => simpa using ⟨hi, ho⟩
  | h1 l a ih =>
    obtain ⟨env, o⟩ := a
    rw [← List.append_assoc] at hok ⊢
    have hok1 := (HistOk_append.1 hok).1
    have ih := ih hok1
    rw [stateAfter_snoc]
    by_cases hd : o = .destroy
    · subst hd
      refine ⟨Nat.lt_of_lt_of_le ih.1 (step_tokens _ _ _ _).1, ?_⟩
      simp only [step, destroy, St.ents, dispose_tbl]
      intro e he; simp at he
      obtain ⟨l, ⟨_, rfl⟩, he⟩ := he
      cases he
    · have f := step_flow (env := env) hc (good_any hc _ hok1 env).wf1 o hd
      exact ⟨Nat.lt_of_lt_of_le ih.1 f.next, f.out ih.1 ih.2⟩

/-- C25 is false for lookups: the entry of a lookup that was given up stays linked,
whatever is done with the cache, until the cache is destroyed. -/
theorem C25_abandoned_lookup_is_never_reclaimed (hc : cfg.Ok) (h1 h2 : Hist K V E) (e1 : Env V) (tok : Nat) (hok : HistOk cfg St.init (h1 ++ (e1, .drop tok) :: h2))
    (hd : (stateAfter cfg h1).destroyed = false) (hr : (outAt cfg h1 e1 (.drop tok)).ret = .bool true) (hn : ∀ p ∈ h2, p.2 ≠ .destroy) :
    ∃ e ∈ (stateAfter cfg (h1 ++ (e1, .drop tok) :: h2)).ents, e.id = tok ∧ e.isPending = true := by
  suffices (∃ e ∈ (stateAfter cfg (h1 ++ (e1, .drop tok) :: h2)).ents, e.id = tok ∧ e.isPending = true) ∧
      tok ∉ (stateAfter cfg (h1 ++ (e1, .drop tok) :: h2)).opens ∧ tok < (stateAfter cfg (h1 ++ (e1, .drop tok) :: h2)).nextId from this.1
  induction h2 using snoc_ind with
  | h0 =>
    have g := good_any hc h1 (HistOk_append.1 hok).1 e1
    have ht : tok ∈ (stateAfter cfg h1).opens := by
      cases Classical.em (tok ∈ (stateAfter cfg h1).opens) with
      | inl h => exact h
      | inr h => simp [outAt, step, drop, h] at hr
    obtain ⟨e, he, hid, hp⟩ := g.wf2.opE hd tok ht
    have hlt := g.wf1.lt e (List.mem_append_left _ he)
    have hno := g.wf2.opN
    rw [stateAfter_snoc]
    refine ⟨⟨atId tok (·.upd .cancel) e, ?_, ?_, ?_⟩, ?_, ?_⟩
    · simp only [step, drop, ht, if_true]
      rw [ents_modify]
      exact List.mem_map_of_mem he
    · rw [((IdKey.upd _).atId tok e).1, hid]
    · rw [atId, if_pos hid]; exact upd_cancel_pend e hp
    · simp only [step, drop_opens]
      exact fun h => (hno.not_mem_erase h)
    · simp only [step, drop_nextId]; omega
  | h1 l a ih =>
    obtain ⟨env, o⟩ := a
    have heq : h1 ++ (e1, Op.drop tok) :: (l ++ [(env, o)]) = h1 ++ (e1, .drop tok) :: l ++ [(env, o)] := by simp
    rw [heq] at hok ⊢
    have hok1 := (HistOk_append.1 hok).1
    obtain ⟨⟨e, he, hid, hp⟩, h4, h5⟩ := ih hok1 (fun p hp => hn p (List.mem_append_left _ hp))
    rw [stateAfter_snoc]
    have f := step_flow (env := env) hc (good_any hc _ hok1 env).wf1 o (hn (env, o) (by simp))
    obtain ⟨e', he', hid', hp'⟩ := f.keep e he hp (by rw [hid]; exact h4) (by rw [hid]; exact h5)
    exact ⟨⟨e', he', hid'.trans hid, hp'⟩, f.opn tok h5 h4, Nat.lt_of_lt_of_le h5 f.next⟩

/-- One bucket, values live for 5. -/
def aging : Cfg Nat := { plain with hash := fun _ => 0, maxAge := some 5 }

/-- A dead entry of key 1 in the bucket of key 2: a lookup, an erase of 2 each remove it; the
lookup of the live key 3, which comes first in the bucket, does not. -/
example :
    let h : Hist Nat Nat Nat := [(at_ 4, .emplace 3 30 .none), (at_ 0, .emplace 1 10 .none)]
    aging.Ok ∧ HistOk aging St.init h ∧ (stateAfter aging h).ents.map (·.id) = [0, 1] ∧
    (stateAfter aging h).ents.map (fun e => e.expired (at_ 6)) = [false, true] ∧
    (stateAfter aging (h ++ [(at_ 6, .get 2 (.ok 0))])).ents.map (·.id) = [0] ∧
    (stateAfter aging (h ++ [(at_ 6, .erase 2)])).ents.map (·.id) = [0] ∧
    (stateAfter aging (h ++ [(at_ 6, .get 3 (.ok 0))])).ents.map (·.id) = [0, 1] :=
  ⟨nat_ok rfl (by intro d i h; cases h), by decide, by decide, by decide, by decide, by decide, by decide⟩

/-- Growth from 4 to 8 buckets removes dead entries; without any the table just grows. -/
example :
    let h : Hist Nat Nat Nat := [(at_ 0, .emplace 1 1 .none), (at_ 4, .emplace 2 2 .none), (at_ 4, .emplace 3 3 .none), (at_ 4, .emplace 4 4 .none)]
    let c := { aging with over := fun n b => decide (n > b / 2) }
    HistOk c St.init h ∧ (stateAfter c h).ents.map (·.id) = [0, 1, 2, 3] ∧ (stateAfter c h).tbl.length = 8 ∧
    (stateAfter c (h ++ [(at_ 5, .emplace 5 5 .none)])).ents.map (·.id) = [1, 2, 3, 4] ∧
    (stateAfter c (h ++ [(at_ 4, .emplace 5 5 .none), (at_ 5, .emplace 6 6 .none)])).tbl.length = 16 := by decide

/-- An abandoned lookup, then a clear and an erase: still there. -/
example :
    let c : Cfg Nat := { plain with resolver := .async }
    let h : Hist Nat Nat Nat := [(at_ 0, .asyncGet 1 7 .later), (at_ 1, .drop 0), (at_ 2, .erase 1), (at_ 3, .clear), (at_ 4, .asyncGet 1 8 (.now (.ok 3)))]
    HistOk c St.init h ∧ (outAt c ([(at_ 0, .asyncGet 1 7 .later)] : Hist Nat Nat Nat) (at_ 1) (.drop 0)).ret = .bool true ∧ (stateAfter c h).ents.map (·.id) = [0, 1] := by decide

/-- Two entries in one bucket, of which the second is expired at time 6. -/
def agingHist : Hist Nat Nat Nat := [(at_ 4, .emplace 3 30 .none), (at_ 0, .emplace 1 10 .none)]

example := C25_not_expired_is_returned (cfg := aging) (nat_ok rfl (by intro d i h; cases h)) agingHist (by decide) (at_ 6) ((stateAfter aging agingHist).ents[0]'(by decide)) (List.getElem_mem _)
  (by decide) (by decide)

example := C25_erase_reclaims_partial (cfg := aging) (nat_ok rfl (by intro d i h; cases h)) agingHist (by decide) (at_ 6) 2 ((stateAfter aging agingHist).ents[1]'(by decide)) (List.getElem_mem _)
  (by decide) (by decide) (.inl (by decide))

example := C25_lookup_reclaims_partial (cfg := aging) (nat_ok rfl (by intro d i h; cases h)) agingHist (by decide) (at_ 6) 2 (.get 2 (.ok 0)) (.inl ⟨_, rfl⟩)
  [(stateAfter aging agingHist).ents[0]'(by decide)] ((stateAfter aging agingHist).ents[1]'(by decide)) [] rfl (by decide) (by decide) (by decide)

/-- With a limit of 1/8 the table grows with an insertion at time 6, when the only entry is
expired.  (From a limit of 1/4 on a table with a dead entry does not grow: `C27_dead_entry_prevents_growth`.) -/
example := C25_growth_reclaims_partial (cfg := { aging with over := fun n b => decide (n * 8 > 1 * b) }) (nat_ok rfl (by intro d i h; cases h))
  ([(at_ 0, .emplace 1 1 .none)] : Hist Nat Nat Nat) (by decide)
  (at_ 6) (.emplace 2 2 .none) (by decide)
  ((stateAfter { aging with over := fun n b => decide (n * 8 > 1 * b) } ([(at_ 0, .emplace 1 1 .none)] : Hist Nat Nat Nat)).ents[0]'(by decide)) (List.getElem_mem _)
  (by decide) (by decide)

/-! ## C41 -/

/-- C41.  If `emplace(k, v)` fails (the exception comes from making the entry, or from
growing the table): no value of `k` is left, and every other key has the answer it
would have without the call, now and later.  The call is a step of the history, so all
other theorems apply to what happens afterwards. -/
theorem C41_failing_emplace (hc : cfg.Ok) (h : Hist K V E) (env : Env V) (k : K) (v : V) (f : Fail) (hok : HistOk cfg St.init (h ++ [(env, .emplace k v f)]))
    (hf : (outAt cfg h env (.emplace k v f)).ret = .throws) (env' : Env V) (hle : env.le env') :
    (∀ a, cfg.eqv a k = true → (outAt cfg (h ++ [(env, .emplace k v f)]) env' (.getIfExists a)).ret = .miss) ∧
    (∀ a, cfg.eqv a k = false → outAt cfg (h ++ [(env, .emplace k v f)]) env' (.getIfExists a) = outAt cfg h env' (.getIfExists a)) ∧
    (outAt cfg h env (.emplace k v f)).made = false := by
  have g := good_any hc h (HistOk_append.1 hok).1 env
  have gA := good_any hc _ hok env
  have g1 := (expire_ok hc g k).1
  simp only [outAt, stateAfter_snoc, step] at *
  have hst : (emplace cfg env (stateAfter cfg h) k v f).1 = expire_ cfg env (stateAfter cfg h) k ∨
      (emplace cfg env (stateAfter cfg h) k v f).1 = beforeLink cfg env (expire_ cfg env (stateAfter cfg h) k) := by
    unfold emplace at hf ⊢
    simp only at hf ⊢
    rcases tryLink_cases cfg env (expire_ cfg env (stateAfter cfg h) k) (newEntry (expire_ cfg env (stateAfter cfg h) k) k (.value v)) f with q | q | q <;> rw [q] at hf ⊢
    · cases hf
    · exact .inl rfl
    · exact .inr rfl
  have hpk : ∀ a, getIfExists cfg env' (emplace cfg env (stateAfter cfg h) k v f).1 a = getIfExists cfg env' (expire_ cfg env (stateAfter cfg h) k) a := by
    intro a
    rcases hst with q | q <;> rw [q] at gA ⊢
    exact beforeLink_peek hc g1 gA hle a
  refine ⟨fun a ha => ?_, fun a ha => ?_, ?_⟩
  · rw [hpk]
    rcases optRet_cases (peekWalk cfg env' a ((expire_ cfg env (stateAfter cfg h) k).bucket ((expire_ cfg env (stateAfter cfg h) k).bucketFor (cfg.hash a)))) with q | ⟨u, q⟩
    · exact q
    · exfalso
      obtain ⟨e, he, hka, _, hv⟩ := (peek_val hc g1 env' a u).1 q
      obtain ⟨kept, rem, _, p2, _, p4⟩ := expire_spec hc g.wf1 env k
      obtain ⟨e0, h0, rfl⟩ := List.mem_map.1 (p2.mem_iff.1 he)
      rw [(expUpd_idKey cfg k e0).2] at hka
      have hek := hc.trans _ _ _ hka ha
      have hp := p4 e0 h0 hek
      have hp2 : (expUpd cfg k e0).isPending = true := by unfold expUpd; rw [if_pos hek]; exact upd_markExpired_pend e0 hp
      cases hm : (expUpd cfg k e0).mapped <;> simp_all [Entry.isPending, Mapped.isPending, Mapped.val?]
  · rw [hpk]
    exact erase_others hc g hle ha
  · unfold emplace at hf ⊢
    simp only at hf ⊢
    split at hf
    · cases hf
    · rename_i hh; rw [if_neg hh]

/-- Both kinds of failure, with another key and an old value present. -/
example :
    let h : Hist Nat Nat Nat := [(at_ 0, .emplace 1 10 .none), (at_ 0, .emplace 2 20 .none), (at_ 0, .emplace 3 30 .none), (at_ 0, .emplace 4 40 .none)]
    HistOk plain St.init (h ++ [(at_ 1, .emplace 5 50 .grow)]) ∧ (outAt plain h (at_ 1) (.emplace 5 50 .grow)).ret = .throws ∧
    HistOk plain St.init (h ++ [(at_ 1, .emplace 1 11 .alloc)]) ∧ (outAt plain h (at_ 1) (.emplace 1 11 .alloc)).ret = .throws ∧
    (outAt plain h (at_ 1) (.getIfExists 1)).ret = .val 10 := by decide

/-! ## C43 -/

/-- C43.  `ks` is a list of distinct keys containing (up to equality) every key that has a
value or a lookup in flight.  The number reported is the number of keys of the list that
have a value, plus the number of keys with a lookup in flight (so that a key being
refreshed counts twice).  Absent eviction; the clock does not go back. -/
theorem C43_count_is_number_of_keys (hc : cfg.Ok) (h : Hist K V E) (hok : HistOk cfg St.init h) (hd : (stateAfter cfg h).destroyed = false) (env : Env V)
    (hm : Mono (h.map (·.1) ++ [env])) (hx : NoEvictH cfg St.init h) (ks : List K) (hks : ks.Pairwise (fun a b => cfg.eqv a b = false))
    (hcov : ∀ a, (outAt cfg h env (.getIfExists a)).ret.isVal = true ∨ ((ledgerAfter cfg h).valid a).isSome = true → ∃ k ∈ ks, cfg.eqv a k = true) :
    (outAt cfg h env .count).ret = .num ((ks.filter (fun k => (outAt cfg h env (.getIfExists k)).ret.isVal)).length +
      (ks.filter (fun k => ((ledgerAfter cfg h).valid k).isSome)).length) := by
  have g := good_exact hc h hok env hm hx
  have hh : ∀ a, holds cfg env (stateAfter cfg h) a = (outAt cfg h env (.getIfExists a)).ret.isVal := by
    intro a
    rw [Bool.eq_iff_iff, holds_iff hc g env a]
    show (∃ v, (outAt cfg h env (.getIfExists a)).ret = .val v) ↔ _
    cases (outAt cfg h env (.getIfExists a)).ret <;> simp [Ret.isVal]
  have hj : ∀ a, joins cfg (stateAfter cfg h) a = ((ledgerAfter cfg h).valid a).isSome := by
    intro a
    rw [Bool.eq_iff_iff, joins, List.any_eq_true]
    constructor
    · rintro ⟨e, he, hl⟩
      simp only [Bool.and_eq_true] at hl
      rw [(g.p a).c2 e he hl.2 hl.1]; rfl
    · intro hv
      obtain ⟨t, ht⟩ := Option.isSome_iff_exists.1 hv
      obtain ⟨_, T, hT, _, _, hk, hl, _⟩ := (g.p a).c3 hd t ht
      exact ⟨T, hT, by simp [hl trivial, hk]⟩
  show Ret.num (count env (stateAfter cfg h)) = _
  rw [count_keys hc g trivial env ks hks (by intro a ha; rw [hh, hj] at ha; exact hcov a ha)]
  congr 2
  · congr 1; apply List.filter_congr; intro k _; exact hh k
  · congr 1; apply List.filter_congr; intro k _; exact hj k

/-- C43 without asynchronous resolver, for every reachable state (also with a size limit
and for any clock): the number of keys that have a value. -/
theorem C43_count_without_async (hc : cfg.Ok) (hr : cfg.resolver ≠ .async) (h : Hist K V E) (hok : HistOk cfg St.init h) (env : Env V) (ks : List K)
    (hks : ks.Pairwise (fun a b => cfg.eqv a b = false)) (hcov : ∀ a, (outAt cfg h env (.getIfExists a)).ret.isVal = true → ∃ k ∈ ks, cfg.eqv a k = true) :
    (outAt cfg h env .count).ret = .num (ks.filter (fun k => (outAt cfg h env (.getIfExists k)).ret.isVal)).length := by
  have g := good_any hc h hok env
  have hh : ∀ a, holds cfg env (stateAfter cfg h) a = (outAt cfg h env (.getIfExists a)).ret.isVal := by
    intro a
    rw [Bool.eq_iff_iff, holds_iff hc g env a]
    show (∃ v, (outAt cfg h env (.getIfExists a)).ret = .val v) ↔ _
    cases (outAt cfg h env (.getIfExists a)).ret <;> simp [Ret.isVal]
  have hj : ∀ a, joins cfg (stateAfter cfg h) a = false := by
    intro a
    rw [joins, List.any_eq_false]
    intro e he hl
    simp only [Bool.and_eq_true] at hl
    have := (g.wf2.noA hr).2 e he
    rw [show e.isPending = true from Mapped.live_pending hl.1] at this; cases this
  show Ret.num (count env (stateAfter cfg h)) = _
  rw [count_keys hc g trivial env ks hks (by intro a ha; rw [hh, hj] at ha; simp at ha; exact hcov a ha)]
  have : ks.filter (joins cfg (stateAfter cfg h)) = [] := by rw [List.filter_eq_nil_iff]; intro k _; simp [hj]
  rw [this]
  congr 1
  simp only [List.length_nil, Nat.add_zero]
  congr 1; apply List.filter_congr; intro k _; exact hh k

/-- C43 with asynchronous resolver but no refreshing, for every reachable state: the number of keys
for which a get would not have to ask the resolver, but is answered at once or joins a lookup. -/
theorem C43_count_without_refresh (hc : cfg.Ok) (hr : cfg.refresh = none) (h : Hist K V E) (hok : HistOk cfg St.init h) (env : Env V) (ks : List K) (w : Nat)
    (hks : ks.Pairwise (fun a b => cfg.eqv a b = false))
    (hcov : ∀ a, (outAt cfg h env (.asyncGet a w .later)).calls.isEmpty = true → ∃ k ∈ ks, cfg.eqv a k = true) :
    (outAt cfg h env .count).ret = .num (ks.filter (fun k => (outAt cfg h env (.asyncGet k w .later)).calls.isEmpty)).length := by
  have g := good_any hc h hok env
  have hh : ∀ a, (holds cfg env (stateAfter cfg h) a || joins cfg (stateAfter cfg h) a) = (outAt cfg h env (.asyncGet a w .later)).calls.isEmpty := by
    intro a
    rw [← hit_iff g env a]
    show _ = (asyncGet cfg env (stateAfter cfg h) a w .later).2.calls.isEmpty
    rw [asyncGet_eq hc g.wf1.placed]
    cases hf : (stateAfter cfg h).ents.find? (isHit cfg env a true) with
    | none => rfl
    | some e => cases hl : e.mapped.get env true <;> simp [hl, answer]
  have hex : ∀ a, ¬ (holds cfg env (stateAfter cfg h) a = true ∧ joins cfg (stateAfter cfg h) a = true) := by
    rintro a ⟨h1, h2⟩
    simp only [holds, joins, List.any_eq_true, Bool.and_eq_true, Option.isSome_iff_exists] at h1 h2
    obtain ⟨e, he, ⟨_, v, hv⟩, hk⟩ := h1
    obtain ⟨p, hp, hl, hkp⟩ := h2
    have hrf := (g.wf2.vc e he p hp v hv hl (hc.trans _ _ _ hk (hc.symm _ _ hkp))).2
    have := ((g.v a).c1 e he hk v hv).2.2.2.2.1 hrf
    rw [untried hr h hok a] at this; cases this
  show Ret.num (count env (stateAfter cfg h)) = _
  rw [count_keys hc g trivial env ks hks (by intro a ha; apply hcov a; rw [← hh]; simpa using ha)]
  congr 1
  have hcnt : ∀ ks : List K, (ks.filter (holds cfg env (stateAfter cfg h))).length + (ks.filter (joins cfg (stateAfter cfg h))).length =
      (ks.filter (fun k => (outAt cfg h env (.asyncGet k w .later)).calls.isEmpty)).length := by
    intro ks
    induction ks with
    | nil => rfl
    | cons k ks ih =>
      simp only [List.filter_cons, ← hh k]
      have := hex k
      cases h1 : holds cfg env (stateAfter cfg h) k <;> cases h2 : joins cfg (stateAfter cfg h) k <;> simp_all <;> omega
  exact hcnt ks

/-- Two values, a dead one, a lookup in flight, and a key with value being refreshed. -/
example :
    let c : Cfg Nat := { plain with resolver := .async, refresh := some (10, 0) }
    let h : Hist Nat Nat Nat := [(at_ 0, .emplace 1 1 .none), (at_ 1, .emplace 2 2 .none), (at_ 2, .asyncGet 3 7 .later), (at_ 3, .emplace 4 4 .none), (at_ 4, .erase 4), (at_ 10, .tick (.ok 0) .later)]
    HistOk c St.init h ∧ (outAt c h (at_ 11) .count).ret = .num 4 ∧ ([1, 2, 3].filter (fun k => (outAt c h (at_ 11) (.getIfExists k)).ret.isVal)).length = 2 ∧
    ([1, 2, 3].filter (fun k => ((ledgerAfter c h).valid k).isSome)).length = 2 := by decide

/-! ### Applied -/

example := C25_returned_is_not_expired (cfg := aging) (nat_ok rfl (by intro d i h; cases h)) agingHist (by decide) (at_ 6) 3 30 (by decide)
example := C25_reclaimed_for_good (cfg := aging) (nat_ok rfl (by intro d i h; cases h)) (agingHist ++ [(at_ 6, .erase 2)]) [(at_ 7, .emplace 1 11 .none)] (by decide) 1 (by decide) (by decide)
example := C25_abandoned_lookup_is_never_reclaimed (cfg := { plain with resolver := .async }) (nat_ok rfl (by intro d i h; cases h)) ([(at_ 0, .asyncGet 1 7 .later)] : Hist Nat Nat Nat)
  [(at_ 2, .erase 1), (at_ 3, .asyncGet 1 8 (.now (.ok 5))), (at_ 4, .clear)] (at_ 1) 0 (by decide) (by decide) (by decide) (by simp)
example := C41_failing_emplace (cfg := plain) (nat_ok rfl (by intro d i h; cases h)) ([(at_ 0, .emplace 1 10 .none), (at_ 0, .emplace 2 20 .none)] : Hist Nat Nat Nat) (at_ 1) 1 11 .alloc (by decide) (by decide) (at_ 2)
  ⟨by decide, by decide, fun _ h => h⟩

theorem covered (c : Cfg Nat) (hc : c.Ok) (h : Hist Nat Nat Nat) (hok : HistOk c St.init h) (env : Env Nat) (ks : List Nat)
    (hk : ∀ e ∈ (stateAfter c h).ents, e.expired env = false → ∃ k ∈ ks, c.eqv e.key k = true) :
    ∀ a, (outAt c h env (.getIfExists a)).ret.isVal = true → ∃ k ∈ ks, c.eqv a k = true := by
  intro a ha
  cases hr : (outAt c h env (.getIfExists a)).ret with
  | val v =>
    obtain ⟨e, he, h1, h2, _⟩ := C25_returned_is_not_expired hc h hok env a v hr
    obtain ⟨k, hk1, hk2⟩ := hk e he h2
    exact ⟨k, hk1, hc.trans _ _ _ (hc.symm _ _ h1) hk2⟩
  | _ => rw [hr] at ha; cases ha

example := C43_count_without_async (cfg := aging) (nat_ok rfl (by intro d i h; cases h)) (by decide) agingHist (by decide) (at_ 6) [3] (by decide)
  (covered aging (nat_ok rfl (by intro d i h; cases h)) agingHist (by decide) (at_ 6) [3] (by decide))

/-- A refreshing cache: two values, one lookup by a caller and one by a refresh. -/
def countC : Cfg Nat := { plain with resolver := .async, refresh := some (10, 0) }
def countHist : Hist Nat Nat Nat :=
  [(at_ 0, .emplace 1 1 .none), (at_ 1, .emplace 2 2 .none), (at_ 2, .asyncGet 3 7 .later), (at_ 3, .emplace 4 4 .none), (at_ 4, .erase 4), (at_ 10, .tick (.ok 0) .later)]

example := C43_count_is_number_of_keys (cfg := countC) (nat_ok rfl (by intro d i h; cases h; decide)) countHist (by decide) (by decide) (at_ 11) (by exact mono_at [0, 1, 2, 3, 4, 10, 11] (by decide)) (by decide) [1, 2, 3] (by decide)
  (by
    rintro a (ha | ha)
    · exact covered countC (nat_ok rfl (by intro d i h; cases h; decide)) countHist (by decide) (at_ 11) [1, 2, 3] (by decide) a ha
    · obtain ⟨t, ht⟩ := Option.isSome_iff_exists.1 ha
      have g := good_any (cfg := countC) (nat_ok rfl (by intro d i h; cases h; decide)) countHist (by decide) (at_ 11)
      obtain ⟨_, T, hT, _, _, hk, _⟩ := (g.p a).c3 (by decide) t ht
      obtain ⟨k, h1, h2⟩ : ∃ k ∈ [1, 2, 3], countC.eqv T.key k = true :=
        (show ∀ T ∈ (stateAfter countC countHist).ents, ∃ k ∈ [1, 2, 3], countC.eqv T.key k = true by decide) T hT
      have e1 : T.key = a := by simpa [countC, plain] using hk
      exact ⟨k, h1, e1 ▸ h2⟩)

/-- Without refreshing: key 3 has a value, key 5 a lookup, key 1 a dead value. -/
example := C43_count_without_refresh (cfg := { aging with resolver := .async }) (nat_ok rfl (by intro d i h; cases h)) rfl (agingHist ++ [(at_ 5, .asyncGet 5 7 .later)] : Hist Nat Nat Nat) (by decide) (at_ 6) [3, 5] 8 (by decide)
  (by
    intro a ha
    have hok : HistOk { aging with resolver := .async } St.init (agingHist ++ [(at_ 5, .asyncGet 5 7 .later)] : Hist Nat Nat Nat) := by decide
    have g := good_any (cfg := { aging with resolver := .async }) (nat_ok rfl (by intro d i h; cases h)) _ hok (at_ 6)
    simp only [outAt, step] at ha
    rw [asyncGet_eq (nat_ok rfl (by intro d i h; cases h)) g.wf1.placed] at ha
    cases hf : (stateAfter { aging with resolver := .async } (agingHist ++ [(at_ 5, .asyncGet 5 7 .later)] : Hist Nat Nat Nat)).ents.find? (isHit { aging with resolver := .async } (at_ 6) a true) with
    | none => rw [hf] at ha; cases ha
    | some e =>
      obtain ⟨h1, h2, h3, _⟩ := hit_facts hf
      have e1 : e.key = a := by simpa [aging, plain] using h2
      obtain ⟨k, k1, k2⟩ : ∃ k ∈ [3, 5], aging.eqv e.key k = true :=
        (show ∀ e ∈ (stateAfter { aging with resolver := .async } (agingHist ++ [(at_ 5, .asyncGet 5 7 .later)] : Hist Nat Nat Nat)).ents,
          e.expired (at_ 6) = false → ∃ k ∈ [3, 5], aging.eqv e.key k = true by decide) e h1 h3
      exact ⟨k, k1, e1 ▸ k2⟩)

end Hoard.Props
