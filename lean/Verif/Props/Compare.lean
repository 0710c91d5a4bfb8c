import Verif.CompareLemmas
import Verif.Props.Garbage
import Verif.Demo
/-! # Calls of the hash function and of the comparison: C100

`uses cfg env s o`: the calls of user code that the operation `o` makes, in their order, if the cache is in
state `s`. -/
namespace Hoard.Props
open Hoard Spec Demo Compare
variable {K V E : Type} {cfg : Cfg K}

/-- The entries with the hash code of `k`, in the order in which they are linked. -/
def colliding (cfg : Cfg K) (s : St K V E) (k : K) : List (Entry K V E) := s.ents.filter (fun e => cfg.hash e.key == cfg.hash k)

/-- C100.  An operation that is given a key computes its hash code (before anything else), and then compares it with
keys of entries that have this hash code: each of them at most once, none that has another hash code, and always the
stored key first and the given key second. -/
theorem C100_only_equal_hash_codes (hc : cfg.Ok) (h : Hist K V E) (hok : HistOk cfg St.init h) (env : Env V) (o : Op K V E) (k : K) (hk : given o = some k) :
    ∃ es : List (Entry K V E), es <+: colliding cfg (stateAfter cfg h) k ∧
      uses cfg env (stateAfter cfg h) o = List.replicate (hashes o) (.hash k) ++ es.map (fun e => .equal e.key k) := by
  rw [uses_eq (good_any hc h hok env).wf1.placed env o hk]
  refine ⟨_, ?_, rfl⟩
  split
  · exact upTo_prefix _ _
  · exact List.prefix_refl _

/-- Other operations call neither: counting, clearing, refreshing, results of lookups, the end of the cache. -/
theorem C100_no_other_calls (s : St K V E) (env : Env V) (o : Op K V E) (ho : given o = none) : uses cfg env s o = [] := by
  cases o <;> first | rfl | cases ho

/-- C100.  A lookup compares until it has its answer: if an entry answers, that one is the last it compares; if none
answers, it compares all entries with this hash code. -/
theorem C100_stops_at_the_answer (hc : cfg.Ok) (h : Hist K V E) (hok : HistOk cfg St.init h) (env : Env V) (o : Op K V E) (k : K) (hk : given o = some k)
    (wait : Bool) (hl : looks o = some wait) :
    (∃ before e after, colliding cfg (stateAfter cfg h) k = before ++ e :: after ∧ answers cfg env k wait e = true ∧ (∀ x ∈ before, answers cfg env k wait x = false) ∧
      uses cfg env (stateAfter cfg h) o = .hash k :: (before.map (fun e => .equal e.key k) ++ [.equal e.key k])) ∨
    ((∀ e ∈ (stateAfter cfg h).ents, answers cfg env k wait e = false) ∧
      uses cfg env (stateAfter cfg h) o = .hash k :: (colliding cfg (stateAfter cfg h) k).map (fun e => .equal e.key k)) := by
  have hu : List.replicate (hashes o) (Use.hash k) = [.hash k] := by
    cases o <;> first | (cases hl; done) | rfl
  rw [uses_eq (good_any hc h hok env).wf1.placed env o hk, hl, hu]
  have all : ∀ l : List (Entry K V E), (∃ b e a, l = b ++ e :: a ∧ answers cfg env k wait e = true ∧ (∀ x ∈ b, answers cfg env k wait x = false) ∧
      upTo (answers cfg env k wait) l = b ++ [e]) ∨ ((∀ e ∈ l, answers cfg env k wait e = false) ∧ upTo (answers cfg env k wait) l = l) := by
    intro l
    induction l with
    | nil => exact .inr ⟨by simp, rfl⟩
    | cons x l ih =>
      cases hx : answers cfg env k wait x with
      | true => exact .inl ⟨[], x, l, rfl, hx, by simp, by simp [upTo, hx]⟩
      | false =>
        rcases ih with ⟨b, e, a, h1, h2, h3, h4⟩ | ⟨h1, h2⟩
        · refine .inl ⟨x :: b, e, a, by simp [h1], h2, ?_, by simp [upTo, hx, h4]⟩
          intro y hy
          rcases List.mem_cons.1 hy with rfl | hy
          · exact hx
          · exact h3 y hy
        · refine .inr ⟨?_, by simp [upTo, hx, h2]⟩
          intro y hy
          rcases List.mem_cons.1 hy with rfl | hy
          · exact hx
          · exact h1 y hy
  rcases all ((stateAfter cfg h).ents.filter (same cfg k)) with ⟨b, e, a, h1, h2, h3, h4⟩ | ⟨h1, h2⟩
  · refine .inl ⟨b, e, a, h1, h2, h3, ?_⟩
    simp only [h4, with_]; simp
  · refine .inr ⟨?_, ?_⟩
    · intro e he
      cases hs : same cfg k e with
      | true => exact h1 e (List.mem_filter.2 ⟨he, hs⟩)
      | false =>
        have : cfg.eqv e.key k = false := by
          cases hq : cfg.eqv e.key k with
          | false => rfl
          | true => have := hc.hash _ _ hq; simp [same, this] at hs
        simp [answers, this]
    · simp only [h2, with_]; rfl

/-- C100.  Removing and replacing compare the key with all entries that have this hash code. -/
theorem C100_removal_compares_all (hc : cfg.Ok) (h : Hist K V E) (hok : HistOk cfg St.init h) (env : Env V) (k : K) :
    uses cfg env (stateAfter cfg h) (.erase k) = .hash k :: (colliding cfg (stateAfter cfg h) k).map (fun e => .equal e.key k) ∧
    ∀ v f, uses cfg env (stateAfter cfg h) (.emplace k v f) = .hash k :: .hash k :: (colliding cfg (stateAfter cfg h) k).map (fun e => .equal e.key k) :=
  ⟨uses_eq (good_any hc h hok env).wf1.placed env (.erase k) rfl, fun v f => uses_eq (good_any hc h hok env).wf1.placed env (.emplace k v f) rfl⟩

/-- C100.  Without asynchronous lookups and refreshing, no two entries are for the same key; so a call never finds out
twice that a key is equal to the given one. -/
theorem C100_one_entry_per_key (hc : cfg.Ok) (hr : cfg.resolver ≠ .async) (hf : cfg.refresh = none) (h : Hist K V E) (hok : HistOk cfg St.init h)
    (env : Env V) (o : Op K V E) (k : K) (hk : given o = some k) :
    ((uses cfg env (stateAfter cfg h) o).filter (fun | .equal a b => cfg.eqv a b | .hash _ => false)).length ≤ 1 := by
  obtain ⟨es, h1, h2⟩ := C100_only_equal_hash_codes hc h hok env o k hk
  have hp : es.Pairwise (fun a b => cfg.eqv a.key b.key = false) :=
    (keys_differ hc hr hf h hok env).sublist (h1.sublist.trans List.filter_sublist)
  rw [h2, List.filter_append, List.filter_replicate, if_neg (by simp), List.nil_append, List.filter_map, List.length_map]
  have hp2 := hp.sublist (List.filter_sublist (p := ((fun | .equal a b => cfg.eqv a b | .hash _ => false) ∘ fun e : Entry K V E => Use.equal e.key k)))
  generalize hl : es.filter _ = l at hp2 ⊢
  match l, hl, hp2 with
  | [], _, _ => simp
  | [_], _, _ => simp
  | a :: b :: l, hl, hp2 =>
    exfalso
    have ha : a ∈ a :: b :: l := by simp
    have hb : b ∈ a :: b :: l := by simp
    rw [← hl] at ha hb
    have ha := (List.mem_filter.1 ha).2
    have hb := (List.mem_filter.1 hb).2
    simp only [Function.comp] at ha hb
    have := hc.trans _ _ _ ha (hc.symm _ _ hb)
    have hn := (List.pairwise_cons.1 hp2).1 b (by simp)
    rw [hn] at this; cases this

/-- C100.  If moreover the hash function is perfect (different keys have different hash codes), then no call
compares more than one key, however full the cache is. -/
theorem C100_perfect_hash (hc : cfg.Ok) (hr : cfg.resolver ≠ .async) (hf : cfg.refresh = none) (hperf : ∀ a b, cfg.hash a = cfg.hash b → cfg.eqv a b = true)
    (h : Hist K V E) (hok : HistOk cfg St.init h) (env : Env V) (o : Op K V E) :
    ((uses cfg env (stateAfter cfg h) o).filter (fun | .equal _ _ => true | .hash _ => false)).length ≤ 1 := by
  cases hk : given o with
  | none => rw [C100_no_other_calls _ _ _ hk]; simp
  | some k =>
    have := C100_one_entry_per_key hc hr hf h hok env o k hk
    obtain ⟨es, h1, h2⟩ := C100_only_equal_hash_codes hc h hok env o k hk
    refine Nat.le_trans (Nat.le_of_eq ?_) this
    congr 1
    refine List.filter_congr fun u hu => ?_
    rw [h2] at hu
    rcases List.mem_append.1 hu with hu | hu
    · rw [List.eq_of_mem_replicate hu]
    · obtain ⟨e, he, rfl⟩ := List.mem_map.1 hu
      have := (List.mem_filter.1 (h1.subset he)).2
      exact (hperf _ _ (by simpa using this)).symm

/-- The walks that are recorded are those of the cache: they have the same results. -/
theorem C100_same_walks (env : Env V) (k : K) (incl : Bool) (es : List (Entry K V E)) :
    (Compare.getWalk cfg env k incl es).1 = Hoard.getWalk cfg env k incl es ∧ (Compare.expireWalk cfg env k es).1 = Hoard.expireWalk cfg env k es ∧
    (Compare.peekWalk cfg env k es).1 = Hoard.peekWalk cfg env k es :=
  ⟨getWalk_fst k incl es, expireWalk_fst k es, peekWalk_fst k es⟩

example := C100_same_walks (cfg := plain) (E := Nat) (at_ 1) 5 true [{ id := 0, key := 1, mapped := .value 10 }]

/-- C100 fails for asynchronous lookups: if a resolver drops its callbacks, their entries stay, and a call compares
its key with any number of entries for this very key, though none of them is of use. -/
theorem C100_dropped_lookups_are_compared (m : Nat) (env : Env Nat) :
    ∃ h : Hist Nat Nat Nat, fickle.Ok ∧ HistOk fickle St.init h ∧
      uses fickle env (stateAfter fickle h) (.asyncGet 1 0 .drop) = .hash 1 :: List.replicate m (.equal 1 1) ∧
      (outAt fickle h env .count).ret = .num 0 := by
  have hc : fickle.Ok := nat_ok rfl (by intro d i h; cases h)
  obtain ⟨h1, w, h3, h4, _⟩ := fickle_fills m env
  generalize (List.replicate m (env, .asyncGet 1 0 .drop) : Hist Nat Nat Nat) = h at *
  refine ⟨h, hc, h1, ?_, ?_⟩
  · rcases C100_stops_at_the_answer hc _ h1 env (.asyncGet 1 0 .drop) 1 rfl true rfl with ⟨b, e, a, g1, g2, _, _⟩ | ⟨_, g2⟩
    · exfalso
      have : e ∈ colliding fickle (stateAfter fickle h) 1 := by rw [g1]; simp
      obtain ⟨p, hq, hx, _⟩ := h3 e (List.mem_filter.1 this).1
      simp [answers, Entry.expired, hq, Mapped.expired, hx] at g2
    · rw [g2]
      congr 1
      have hcol : colliding fickle (stateAfter fickle h) 1 = (stateAfter fickle h).ents := by
        refine List.filter_eq_self.2 fun e he => ?_
        obtain ⟨p, _, _, hk⟩ := h3 e he
        rw [hk]; simp
      rw [hcol]
      refine List.eq_replicate_iff.2 ⟨by simpa [St.size] using h4, ?_⟩
      intro u hu
      obtain ⟨e, he, rfl⟩ := List.mem_map.1 hu
      obtain ⟨p, _, _, hk⟩ := h3 e he
      rw [hk]
  · simp only [outAt, step, count, Ret.num.injEq, List.length_eq_zero_iff, List.filter_eq_nil_iff]
    intro e he
    obtain ⟨p, hq, hx, _⟩ := h3 e he
    simp [Entry.expired, hq, Mapped.expired, hx]

/-- Five entries, three of which collide (modulo 4). -/
def collide : Hist Nat Nat Nat :=
  [(at_ 0, .emplace 1 10 .none), (at_ 0, .emplace 2 20 .none), (at_ 0, .emplace 5 50 .none), (at_ 0, .emplace 3 30 .none), (at_ 0, .emplace 9 90 .none)]

example : uses plain (at_ 1) (stateAfter plain collide) (.getIfExists 5) = [.hash 5, .equal 1 5, .equal 5 5] := by decide
example : uses plain (at_ 1) (stateAfter plain collide) (.getIfExists 13) = [.hash 13, .equal 1 13, .equal 5 13, .equal 9 13] := by decide
example : uses plain (at_ 1) (stateAfter plain collide) (.emplace 1 0 .none) = [.hash 1, .hash 1, .equal 1 1, .equal 5 1, .equal 9 1] := by decide
example := C100_only_equal_hash_codes (cfg := plain) (nat_ok rfl (by intro d i h; cases h)) collide (by decide) (at_ 1) (.erase 5) 5 rfl
example := C100_stops_at_the_answer (cfg := plain) (nat_ok rfl (by intro d i h; cases h)) collide (by decide) (at_ 1) (.getIfExists 5) 5 rfl false rfl
example := C100_removal_compares_all (cfg := plain) (nat_ok rfl (by intro d i h; cases h)) collide (by decide) (at_ 1) 5
example := C100_one_entry_per_key (cfg := plain) (nat_ok rfl (by intro d i h; cases h)) (by decide) rfl collide (by decide) (at_ 1) (.erase 5) 5 rfl
example : uses (cfg := plain) (at_ 1) (stateAfter plain collide) .clear = [] := C100_no_other_calls _ _ _ rfl

/-- Numbers are their own hash codes. -/
def perfect : Cfg Nat := { plain with hash := id }

example := C100_perfect_hash (cfg := perfect) (nat_ok rfl (by intro d i h; cases h)) (by decide) rfl (by intro a b h; simpa [perfect, plain] using h) collide (by decide) (at_ 1) (.erase 5)
example : uses perfect (at_ 1) (stateAfter perfect collide) (.erase 5) = [.hash 5, .equal 5 5] := by decide
example := C100_dropped_lookups_are_compared 1000 (at_ 0)

end Hoard.Props
