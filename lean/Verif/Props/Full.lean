import Verif.FullLemmas
import Verif.Props.Lru
import Verif.Props.Size
import Verif.Props.Garbage
/-!
# Properties: a cache with a size limit is full, or nothing is missing (C110)

The specification is in `Verif.Spec.Full`.
-/
namespace Hoard.Props
open Spec Demo
variable {K V E : Type} {cfg : Cfg K}

/-- The list of C48 in a cache that is only filled. -/
theorem full_list {N : Nat} (hc : cfg.Ok) (hl : LruCfg cfg N) (hage : cfg.maxAge = none) (os : List (Env V × MapOp K V E))
    (hfill : ∀ p ∈ os, fills p.2 = true) (hroom : ∀ p q, os = p ++ q → (stateAfter cfg (calls p)).size < 2 * N) :
    ∀ p q, os = p ++ q → ∃ l, Sim (stateAfter cfg (calls p)) l ∧ Flat (stateAfter cfg (calls p)) ∧ Distinct cfg.eqv l ∧
      Packed cfg.eqv N (fun k => ∃ c ∈ p, stores (decide (cfg.resolver = .sync)) c.2 = some k) l ∧
      ∀ x ∈ l, ∃ c ∈ p, stores (decide (cfg.resolver = .sync)) c.2 = some x.1 := by
  have hk := hl.sync
  intro p
  induction p using snoc_ind with
  | h0 =>
    intro q _
    refine ⟨[], ⟨[], ⟨List.Perm.refl _, rfl⟩, rfl⟩, by intro e he; simp [calls, stateAfter, run, St.init, St.ents] at he, List.Pairwise.nil, ⟨[], [], rfl, ?_, ?_, ?_, ?_⟩, ?_⟩
    · intro x hx; cases hx
    · intro x hx; cases hx
    · intro h; exact absurd rfl h
    · right; rintro k ⟨c, hc, _⟩; cases hc
    · intro x hx; cases hx
  | h1 p c ih =>
    intro q hq
    obtain ⟨l, sm, f, d, P, ky⟩ := ih (c :: q) (by rw [hq]; simp)
    have g := good_any hc (calls p) (calls_ok hk p).1 c.1
    obtain ⟨l', h1, h2, h3⟩ := lru_step (env := c.1) hc hl g.wf1 g.wf2 f sm c.2
    have e : calls (p ++ [c]) = calls p ++ [(c.1, c.2.toOp)] := by simp [calls]
    have hsz := hroom (p ++ [c]) q hq
    rw [e, stateAfter_snoc] at hsz ⊢
    have hlen : l'.length < 2 * N := by
      obtain ⟨es, ho, rfl⟩ := h2
      rw [List.length_map, ho.perm.length_eq]; exact hsz
    rw [hage] at h1
    have hfc := hfill c (by rw [hq]; simp)
    have sto : ∀ k, (∃ c' ∈ p ++ [c], stores (decide (cfg.resolver = .sync)) c'.2 = some k) →
        (∃ c' ∈ p, stores (decide (cfg.resolver = .sync)) c'.2 = some k) ∨ stores (decide (cfg.resolver = .sync)) c.2 = some k := by
      rintro k ⟨c', hc', hs⟩
      rcases List.mem_append.1 hc' with hc' | hc'
      · exact .inl ⟨c', hc', hs⟩
      · rw [List.mem_singleton.1 hc'] at hs; exact .inr hs
    obtain ⟨a, b, q1, q2, q3, q4, q5⟩ := h1.packed hc.refl hc.symm hc.trans hfc hlen d P
    refine ⟨l', h2, h3, h1.distinct hc.symm d, ⟨a, b, q1, q2, q3, q4, q5.imp id fun h k hk => h k (sto k hk)⟩, ?_⟩
    intro x hx
    rcases h1.keys (S := fun k => ∃ c' ∈ p, stores (decide (cfg.resolver = .sync)) c'.2 = some k) hfc ky x hx with ⟨c', hc', hs⟩ | hs
    · exact ⟨c', by simp [hc'], hs⟩
    · exact ⟨c, by simp, hs⟩

/-- What `count` returns is the number of live items. -/
theorem count_packed {s : St K V E} {a b : List (Item K V)} (sm : Sim s (a ++ b)) (f : Flat s) (ha : ∀ x ∈ a, ∃ v, x.2 = some (v, none)) (hb : ∀ x ∈ b, x.2 = none)
    (env : Env V) : count env s = a.length := by
  obtain ⟨es, ho, hes⟩ := sm
  unfold count
  rw [← (ho.perm.filter _).length_eq]
  have e1 : (es.filter (fun e => !e.expired env)).length = ((es.map itemOf).filter (Item.live env.now)).length := by
    rw [List.filter_map, List.length_map]
    congr 1
    apply List.filter_congr
    intro e he
    rw [(f e (ho.perm.mem_iff.1 he)).expired env]
    simp
  rw [e1, ← hes, List.filter_append, List.length_append, List.filter_eq_self.2 (fun x hx => item_live (ha x hx)),
    List.filter_eq_nil_iff.2 (fun x hx => by simp [item_dead (hb x hx)])]
  rfl

/-- C110, as far as it is true.  A cache with a size limit `N` does not evict while there is room: let all calls only fill the cache (nothing is
erased, and no resolution fails) and let the cache never have as many as `2 * N` entries, dead ones included.  Then
at every time the cache has at least `N` values, or each key for which a value was stored or resolved is found.
What is missing to the full statement: dead entries take up room, see `C110_erased_entries_take_room`, `C110_failures_take_room` and `C110_limit_of_four`. -/
theorem C110_full_or_complete_partial {N : Nat} (hc : cfg.Ok) (hN : cfg.maxSize = some N) (hr : cfg.refresh = none) (hk : cfg.resolver ≠ .async)
    (hw : cfg.weaken = false ∨ cfg.ptr = false) (hage : cfg.maxAge = none) (os : List (Env V × MapOp K V E))
    (hfill : ∀ p ∈ os, fills p.2 = true) (hroom : ∀ p q, os = p ++ q → (stateAfter cfg (calls p)).size < 2 * N) (env : Env V) :
    (∃ n, (outAt cfg (calls os) env .count).ret = .num n ∧ N ≤ n) ∨
    ∀ k, (∃ p ∈ os, stores (decide (cfg.resolver = .sync)) p.2 = some k) → ∃ v, (outAt cfg (calls os) env (.getIfExists k)).ret = .val v := by
  have hl : LruCfg cfg N := ⟨hN, hr, hk, hw⟩
  obtain ⟨l, sm, f, d, ⟨a, b, rfl, ha, hb, -, hS⟩, -⟩ := full_list hc hl hage os hfill hroom os [] (by simp)
  have g := good_any hc (calls os) (calls_ok hk os).1 env
  rcases hS with hS | hS
  · exact .inl ⟨_, rfl, Nat.le_trans hS (Nat.le_of_eq (count_packed sm f ha hb env).symm)⟩
  · right
    intro k hk'
    obtain ⟨x, hx, hxk⟩ := hS k hk'
    obtain ⟨v, hv⟩ := ha x hx
    obtain ⟨l', h6, _, _⟩ := lru_step (env := env) hc hl g.wf1 g.wf2 f sm (.getIfExists k)
    obtain ⟨k0, y⟩ := x
    simp only at hv hxk
    subst hv
    obtain ⟨a1, a2, rfl⟩ := List.append_of_mem hx
    have hwi : Within ((k0, some (v, none)) : Item K V) a1.length (a1 ++ (k0, some (v, none)) :: a2 ++ b) := ⟨a1, a2 ++ b, by simp, Nat.le_refl _⟩
    have h7 := look_within (now := env.now) d hc.trans hc.symm hwi rfl hxk
    generalize hv : visible (step cfg env (stateAfter cfg (calls os)) (MapOp.getIfExists k).toOp).2 = out at h6
    cases h6
    rw [h7] at hv
    exact ⟨v, congrArg (·.1) hv⟩

/-- Six values through a cache for three, some of them used or stored again: afterwards three values are there. -/
def stream : List (Env Nat × MapOp Nat Nat Nat) :=
  ([.emplace 0 10, .emplace 1 11, .get 0 (.ok 7), .getOrEmplace 2 12, .emplace 3 13, .emplace 0 20, .getIfExists 9, .emplace 4 14] : List (MapOp Nat Nat Nat)).map (fun o => (at_ 0, o))

theorem prefix_take {α : Type} {P : List α → Prop} {l : List α} (h : ∀ n ≤ l.length, P (l.take n)) : ∀ p q, l = p ++ q → P p := by
  intro p q hq
  have := h p.length (by rw [hq]; simp)
  rwa [hq, List.take_left] at this

/-- The hypotheses are met by calls that exceed the limit. -/
example (env : Env Nat) := C110_full_or_complete_partial (cfg := three) (N := 3) (nat_ok rfl (by intro d i h; cases h)) rfl rfl (by decide) (by decide) rfl stream (by decide)
  (prefix_take (by decide)) env

/-- Both cases occur: of the first three values stored nothing is missing; of all five, three are left. -/
example : ((outAt three (calls (stream.take 2)) (at_ 0) .count).ret = .num 2 ∧ (outAt three (calls stream) (at_ 0) .count).ret = .num 3) ∧
    (outAt three (calls stream) (at_ 0) (.getIfExists 1)).ret = .miss := by decide

/-- The numbers of buckets that a table can have: none, 4 times a power of two, or the most it can have. -/
theorem bucket_counts (hc : cfg.Ok) (h : Hist K V E) (hok : HistOk cfg St.init h) :
    (stateAfter cfg h).tbl.length = 0 ∨ (∃ i, (stateAfter cfg h).tbl.length = 4 * 2 ^ i) ∨ (stateAfter cfg h).tbl.length = cfg.maxBuckets := by
  induction h using snoc_ind with
  | h0 => exact .inl rfl
  | h1 l a ih =>
    obtain ⟨env, o⟩ := a
    have hok1 := (HistOk_append.1 hok).1
    have ih := ih hok1
    rw [stateAfter_snoc]
    rcases step_mv2 (env := env) hc (good_any hc l hok1 env).wf1 o with r | ⟨s1, r1, _, r3, _⟩
    · rw [r.1]; exact ih
    · rw [r3]
      rw [← r1.1] at ih
      have hl : (beforeLink cfg env s1).tbl.length = s1.tbl.length := beforeLink_len
      unfold maybeRehash; simp only
      by_cases hm : mustGrow cfg (beforeLink cfg env s1) = true
      · rw [if_pos hm, (rehash_shape _ (grown_pos hm)).1, hl]
        unfold grown
        split
        · exact .inr (.inl ⟨0, rfl⟩)
        · split
          · exact .inr (.inr rfl)
          · rename_i h0 h1
            rcases ih with ih | ⟨i, ih⟩ | ih
            · exact absurd ih h0
            · exact .inr (.inl ⟨i + 1, by rw [ih, Nat.pow_succ]; omega⟩)
            · omega
      · rw [if_neg hm, hl]; exact ih

/-- With the default load factor limit, a cache with a size limit from 3 on that is not 4, 8, 16, ... has never `2 * N` entries. -/
theorem room_by_default {N : Nat} (hc : cfg.Ok) (hN : cfg.maxSize = some N) (hk : cfg.resolver = .none)
    (hw : cfg.weaken = false) (hov : cfg.over = fun n b => decide (n * 1 > 1 * b)) (hmx : 2 * N < cfg.maxBuckets)
    (h3 : 3 ≤ N) (hpow : ∀ i, N ≠ 4 * 2 ^ i) (p : List (Env V × MapOp K V E)) : (stateAfter cfg (calls p)).size < 2 * N := by
  have hk' : cfg.resolver ≠ .async := by rw [hk]; decide
  have ok := (calls_ok (cfg := cfg) hk' p).1
  obtain ⟨i1, i2⟩ := C90_dead_entries_do_not_pile_up hc hov (by decide) N (calls p) ok (fun h1 env o h2 hh => by
    have ok1 : HistOk cfg St.init h1 := by rw [hh] at ok; exact (HistOk_append.1 ok).1
    obtain ⟨n, hn, hle⟩ := (C09_size_limit_bounds_live_entries hc hw hk N hN h1 ok1 env).1
    have g := good_any hc h1 ok1 env
    have e : inUse env (stateAfter cfg h1) = count env (stateAfter cfg h1) := by
      unfold inUse count
      congr 1
      exact List.filter_congr fun e he => by rw [(g.wf2.noA hk').2 e he]; simp
    rw [e]
    have : Ret.num (count env (stateAfter cfg h1)) = (.num n : Ret V E) := hn
    cases this; exact hle)
  rcases bucket_counts hc (calls p) ok with b | ⟨i, b⟩ | b
  · omega
  · have : (stateAfter cfg (calls p)).tbl.length ≠ 2 * N := by
      rw [b]
      intro h
      cases i with
      | zero => omega
      | succ i => exact hpow i (by rw [Nat.pow_succ] at h; omega)
    omega
  · omega

/-- C110 without looking inside: with the default load factor limit, without resolver and without weakening, for every limit
`N` of at least 3 that is not 4, 8, 16, ..., a cache to which one only adds values has exactly `N` values,
or every value added is there. -/
theorem C110_by_default_partial {N : Nat} (hc : cfg.Ok) (hN : cfg.maxSize = some N) (hr : cfg.refresh = none) (hk : cfg.resolver = .none)
    (hw : cfg.weaken = false) (hage : cfg.maxAge = none) (hov : cfg.over = fun n b => decide (n * 1 > 1 * b)) (hmx : 2 * N < cfg.maxBuckets)
    (h3 : 3 ≤ N) (hpow : ∀ i, N ≠ 4 * 2 ^ i) (os : List (Env V × MapOp K V E)) (hfill : ∀ p ∈ os, fills p.2 = true) (env : Env V) :
    (outAt cfg (calls os) env .count).ret = .num N ∨
    ∀ k, (∃ p ∈ os, stores false p.2 = some k) → ∃ v, (outAt cfg (calls os) env (.getIfExists k)).ret = .val v := by
  have hk' : cfg.resolver ≠ .async := by rw [hk]; decide
  obtain ⟨m, hm, hle⟩ := (C09_size_limit_bounds_live_entries hc hw hk N hN (calls os) (calls_ok hk' os).1 env).1
  rcases C110_full_or_complete_partial hc hN hr hk' (.inl hw) hage os hfill (fun p _ _ => room_by_default hc hN hk hw hov hmx h3 hpow p) env with ⟨n, hn, h⟩ | h
  · left
    rw [hm] at hn ⊢
    cases hn
    rw [Nat.le_antisymm hle h]
  · right
    have : decide (cfg.resolver = .sync) = false := by rw [hk]; rfl
    rw [this] at h
    exact h

/-- C110 as a formula: in such a cache `count` is the number of different keys for which a value was added, or the limit
if that is less.  (`ks` lists these keys.)  In particular it depends neither on the hash function nor on the order of the calls. -/
theorem C110_count_by_default_partial {N : Nat} (hc : cfg.Ok) (hN : cfg.maxSize = some N) (hr : cfg.refresh = none) (hk : cfg.resolver = .none)
    (hw : cfg.weaken = false) (hage : cfg.maxAge = none) (hov : cfg.over = fun n b => decide (n * 1 > 1 * b)) (hmx : 2 * N < cfg.maxBuckets)
    (h3 : 3 ≤ N) (hpow : ∀ i, N ≠ 4 * 2 ^ i) (os : List (Env V × MapOp K V E)) (hfill : ∀ p ∈ os, fills p.2 = true) (env : Env V)
    (ks : List K) (hd : ks.Pairwise (fun a b => cfg.eqv a b = false)) (hks : ∀ k ∈ ks, ∃ p ∈ os, stores false p.2 = some k)
    (hsk : ∀ p ∈ os, ∀ k, stores false p.2 = some k → ∃ k' ∈ ks, cfg.eqv k k' = true) :
    (outAt cfg (calls os) env .count).ret = .num (min N ks.length) := by
  have hk' : cfg.resolver ≠ .async := by rw [hk]; decide
  have hs : decide (cfg.resolver = .sync) = false := by rw [hk]; rfl
  obtain ⟨l, sm, f, d, ⟨a, b, rfl, ha, hb, -, hS⟩, hkey⟩ := full_list hc ⟨hN, hr, hk', .inl hw⟩ hage os hfill
    (fun p _ _ => room_by_default hc hN hk hw hov hmx h3 hpow p) os [] (by simp)
  rw [hs] at hS hkey
  have hcount := count_packed sm f ha hb env
  have hle : a.length ≤ N := by
    obtain ⟨m, hm, hle⟩ := (C09_size_limit_bounds_live_entries hc hw hk N hN (calls os) (calls_ok hk' os).1 env).1
    have : Ret.num (count env (stateAfter cfg (calls os))) = (.num m : Ret V E) := hm
    cases this; rw [← hcount]; exact hle
  have hda : (a.map (·.1)).Pairwise (fun x y => cfg.eqv x y = false) := by
    rw [List.pairwise_map]
    unfold Distinct at d
    exact (List.pairwise_append.1 d).1.imp fun h => h.1
  have h1 : a.length ≤ ks.length := by
    have := distinct_le hc.symm hc.trans (a.map (·.1)) ks hda (by
      intro x hx
      obtain ⟨y, hy, rfl⟩ := List.mem_map.1 hx
      obtain ⟨p, hp, hst⟩ := hkey y (by simp [hy])
      exact hsk p hp _ hst)
    simpa using this
  have h2 : N ≤ a.length ∨ ks.length ≤ a.length := by
    refine hS.imp id fun h => ?_
    have := distinct_le hc.symm hc.trans ks (a.map (·.1)) hd (by
      intro k hk
      obtain ⟨x, hx, hxk⟩ := h k (hks k hk)
      exact ⟨x.1, List.mem_map.2 ⟨x, hx, rfl⟩, hc.symm _ _ hxk⟩)
    simpa using this
  show Ret.num (count env _) = _
  rw [hcount]
  congr 1
  omega

/-- The hypotheses can be met, for a limit of 3. -/
example (os : List (Env Nat × MapOp Nat Nat Nat)) (hfill : ∀ p ∈ os, fills p.2 = true) (env : Env Nat) :=
  C110_by_default_partial (cfg := three) (N := 3) (nat_ok rfl (by intro d i h; cases h)) rfl rfl rfl rfl rfl (by funext n b; simp [three, plain]) (by decide) (by decide)
    (by intro i; omega) os hfill env

example (env : Env Nat) := C110_count_by_default_partial (cfg := three) (N := 3) (nat_ok rfl (by intro d i h; cases h)) rfl rfl rfl rfl rfl (by funext n b; simp [three, plain])
  (by decide) (by decide) (by intro i; omega) stream (by decide) env [0, 1, 2, 3, 4] (by decide) (by decide) (by
    intro p hp k hk
    have : k ∈ stream.filterMap (fun p => stores false p.2) := List.mem_filterMap.2 ⟨p, hp, hk⟩
    have e : stream.filterMap (fun p => stores false p.2) = [0, 1, 2, 3, 0, 4] := rfl
    rw [e] at this
    exact (by decide : ∀ k ∈ [0, 1, 2, 3, 0, 4], ∃ k' ∈ [0, 1, 2, 3, 4], three.eqv k k' = true) k this)

/-- C110 needs that nothing was erased: what died before stays in the table, in places where values are not evicted, and
takes up room.  Here three values are added to a cache for four without any value, and one of the three is gone;
there were never as many as eight entries. -/
theorem C110_erased_entries_take_room : ∃ (c : Cfg Nat) (os : List (Env Nat × MapOp Nat Nat Nat)), c.Ok ∧ c.maxSize = some 4 ∧
    (∀ p q, os = p ++ q → (stateAfter c (calls p)).size < 2 * 4) ∧
    (outAt c (calls os) (at_ 0) .count).ret = .num 0 ∧
    (outAt c (calls (os ++ [(at_ 0, .emplace 8 18), (at_ 0, .emplace 9 19), (at_ 0, .emplace 10 20)])) (at_ 0) .count).ret = .num 2 ∧
    (outAt c (calls (os ++ [(at_ 0, .emplace 8 18), (at_ 0, .emplace 9 19), (at_ 0, .emplace 10 20)])) (at_ 0) (.getIfExists 8)).ret = .miss :=
  ⟨{ plain with maxSize := some 4, hash := fun k => k },
   ([.emplace 0 10, .emplace 1 11, .emplace 2 12, .emplace 3 13, .emplace 4 14, .emplace 5 15, .emplace 6 16, .erase 0, .erase 2, .erase 4, .erase 6] : List (MapOp Nat Nat Nat)).map (fun o => (at_ 0, o)),
   nat_ok rfl (by intro d i h; cases h), rfl, prefix_take (by decide), by decide, by decide, by decide⟩

/-- C110 needs that no resolution failed: the error takes up room as well. -/
theorem C110_failures_take_room : ∃ (c : Cfg Nat) (os : List (Env Nat × MapOp Nat Nat Nat)), c.Ok ∧ c.maxSize = some 3 ∧ c.resolver = .sync ∧
    os.map (·.2) = [.emplace 0 10, .emplace 1 11, .get 2 (.err 5), .emplace 3 13] ∧
    (∀ p q, os = p ++ q → (stateAfter c (calls p)).size < 2 * 3) ∧
    (outAt c (calls os) (at_ 0) .count).ret = .num 2 ∧ (outAt c (calls os) (at_ 0) (.getIfExists 1)).ret = .miss :=
  ⟨{ plain with maxSize := some 3, resolver := .sync },
   ([.emplace 0 10, .emplace 1 11, .get 2 (.err 5), .emplace 3 13] : List (MapOp Nat Nat Nat)).map (fun o => (at_ 0, o)),
   nat_ok rfl (by intro d i h; cases h), rfl, rfl, rfl, prefix_take (by decide), by decide, by decide⟩

set_option maxRecDepth 4000 in
/-- C110 needs the bound on the entries: with the default load factor limit and a limit of 4, nothing but `emplace`, the value emplaced
last replaces one that was there, is missing, and there are fewer values than before. -/
theorem C110_limit_of_four : ∃ (c : Cfg Nat) (os : List (Env Nat × MapOp Nat Nat Nat)), c.Ok ∧ c.maxSize = some 4 ∧ c.over = (fun n b => decide (n * 1 > 1 * b)) ∧
    (∀ p ∈ os, fills p.2 = true) ∧
    (outAt c (calls os) (at_ 0) .count).ret = .num 4 ∧ (outAt c (calls os) (at_ 0) (.getIfExists 0)).ret = .val 10 ∧
    (outAt c (calls (os ++ [(at_ 0, .emplace 0 20)])) (at_ 0) .count).ret = .num 3 ∧
    (outAt c (calls (os ++ [(at_ 0, .emplace 0 20)])) (at_ 0) (.getIfExists 0)).ret = .miss :=
  ⟨{ plain with maxSize := some 4, hash := fun k => k }, (List.range 8).map (fun k => (at_ 0, .emplace k (10 + k))),
   nat_ok rfl (by intro d i h; cases h), rfl, by funext n b; simp [plain], by decide, by decide, by decide, by decide, by decide⟩

end Hoard.Props
