import Verif.Spec.Compare
import Verif.WithinLemmas
namespace Hoard.Compare
variable {K V E : Type} {cfg : Cfg K} {env : Env V}

theorem getWalk_fst (k : K) (incl : Bool) (es : List (Entry K V E)) : (getWalk cfg env k incl es).1 = Hoard.getWalk cfg env k incl es := by
  induction es with
  | nil => rfl
  | cons e es ih =>
    simp only [getWalk, Hoard.getWalk, ← ih]
    repeat' split
    all_goals simp_all

theorem expireWalk_fst (k : K) (es : List (Entry K V E)) : (expireWalk cfg env k es).1 = Hoard.expireWalk cfg env k es := by
  induction es with
  | nil => rfl
  | cons e es ih =>
    simp only [expireWalk, Hoard.expireWalk, ← ih]
    repeat' split
    all_goals simp_all

theorem peekWalk_fst (k : K) (es : List (Entry K V E)) : (peekWalk cfg env k es).1 = Hoard.peekWalk cfg env k es := by
  induction es with
  | nil => rfl
  | cons e es ih =>
    simp only [peekWalk, Hoard.peekWalk, ← ih]
    repeat' split
    all_goals simp_all

/-- Entries with the hash code. -/
def same (cfg : Cfg K) (k : K) (e : Entry K V E) : Bool := cfg.hash e.key == cfg.hash k

theorem getWalk_snd (k : K) (incl : Bool) (es : List (Entry K V E)) :
    (getWalk cfg env k incl es).2 = with_ k (upTo (answers cfg env k incl) (es.filter (same cfg k))) := by
  induction es with
  | nil => rfl
  | cons e es ih =>
    by_cases h : cfg.hash e.key = cfg.hash k
    · have hs : same cfg k e = true := by simp [same, h]
      rw [List.filter_cons_of_pos hs]
      simp only [getWalk, h, ne_eq, not_true_eq_false, if_false, upTo]
      cases hx : e.expired env with
      | true =>
        have : answers cfg env k incl e = false := by simp [answers, hx]
        simp only [this, if_true, Bool.false_eq_true, if_false, with_, List.map_cons]
        rw [with_] at ih
        split <;> simp [ih]
      | false =>
        simp only [Bool.false_eq_true, if_false, getIfMatching]
        rw [with_] at ih
        cases he : cfg.eqv e.key k with
        | false => simp [answers, he, with_, ih]
        | true =>
          cases hm : e.mapped.get env incl <;> simp [answers, he, hm, hx, with_, ih]
    · have hs : same cfg k e = false := by simp [same, h]
      rw [List.filter_cons_of_neg (by simp [hs])]
      simp only [getWalk, ne_eq, h, not_false_eq_true, if_true]
      split <;> exact ih

theorem expireWalk_snd (k : K) (es : List (Entry K V E)) :
    (expireWalk cfg env k es).2 = with_ k (es.filter (same cfg k)) := by
  induction es with
  | nil => rfl
  | cons e es ih =>
    by_cases h : cfg.hash e.key = cfg.hash k
    · have hs : same cfg k e = true := by simp [same, h]
      rw [List.filter_cons_of_pos hs]
      rw [with_] at ih
      simp only [expireWalk, h, if_true, with_, List.map_cons]
      repeat' split
      all_goals simp [ih]
    · have hs : same cfg k e = false := by simp [same, h]
      rw [List.filter_cons_of_neg (by simp [hs])]
      simp only [expireWalk, h, if_false, false_and]
      split <;> exact ih

theorem peekWalk_snd (k : K) (es : List (Entry K V E)) :
    (peekWalk cfg env k es).2 = with_ k (upTo (answers cfg env k false) (es.filter (same cfg k))) := by
  induction es with
  | nil => rfl
  | cons e es ih =>
    by_cases h : cfg.hash e.key = cfg.hash k
    · have hs : same cfg k e = true := by simp [same, h]
      rw [List.filter_cons_of_pos hs]
      simp only [peekWalk, h, ne_eq, not_true_eq_false, if_false, upTo, getIfMatching]
      rw [with_] at ih
      cases he : cfg.eqv e.key k with
      | false => simp [answers, he, with_, ih]
      | true =>
        cases hx : e.expired env <;> cases hm : e.mapped.get env false <;> simp [answers, he, hm, hx, with_, ih]
    · have hs : same cfg k e = false := by simp [same, h]
      rw [List.filter_cons_of_neg (by simp [hs])]
      simp only [peekWalk, ne_eq, h, not_false_eq_true, if_true]
      exact ih

theorem bucketOf_filter {s : St K V E} (hp : Placed cfg s.tbl) (k : K) :
    (bucketOf cfg s k).filter (same cfg k) = s.ents.filter (same cfg k) :=
  (filter_ents_bucket hp (cfg.hash k) (same cfg k) (by intro e he; simpa [same] using he)).symm

theorem upTo_prefix {A : Type} (p : A → Bool) (l : List A) : upTo p l <+: l := by
  induction l with
  | nil => exact List.nil_prefix
  | cons a as ih =>
    simp only [upTo]
    split
    · exact ⟨as, rfl⟩
    · obtain ⟨t, ht⟩ := ih; exact ⟨t, by simp [ht]⟩

/-- All calls of user code made by an operation. -/
theorem uses_eq {s : St K V E} (hp : Placed cfg s.tbl) (env : Env V) (o : Op K V E) {k : K} (hk : given o = some k) :
    uses cfg env s o = List.replicate (hashes o) (.hash k) ++
      with_ k (match looks o with
        | some wait => upTo (answers cfg env k wait) (s.ents.filter (same cfg k))
        | none => s.ents.filter (same cfg k)) := by
  cases o <;> simp only [given, Option.some.injEq, reduceCtorEq] at hk <;> subst hk <;>
    simp only [uses, hashes, given, looks, getWalk_snd, peekWalk_snd, expireWalk_snd, bucketOf_filter hp] <;> rfl

theorem few_of_history (hc : cfg.Ok) (hr : cfg.resolver ≠ .async) (hf : cfg.refresh = none) (h : Hist K V E) (hok : HistOk cfg (St.init : St K V E) h)
    (ks : List K) (hk : ∀ p ∈ h, ∀ k ∈ p.2.keys, k ∈ ks) : Few cfg ks (stateAfter cfg h) := by
  induction h using snoc_ind with
  | h0 => constructor <;> simp [stateAfter, run, St.init, St.ents]
  | h1 h p ih =>
    obtain ⟨e, o⟩ := p
    obtain ⟨ok1, ok2⟩ := HistOk_append.1 hok
    have f1 := ih ok1 (fun p hp => hk p (by simp [hp]))
    have f2 := step_few hc hr hf (good_any hc h ok1 e) f1 o ok2.1 (hk (e, o) (by simp))
    rwa [← stateAfter_snoc] at f2

theorem keys_differ (hc : cfg.Ok) (hr : cfg.resolver ≠ .async) (hf : cfg.refresh = none) (h : Hist K V E) (hok : HistOk cfg (St.init : St K V E) h) (env : Env V) :
    (stateAfter cfg h).ents.Pairwise (fun a b => cfg.eqv a.key b.key = false) := by
  have f := few_of_history hc hr hf h hok (h.flatMap (·.2.keys)) (fun p hp k hk => List.mem_flatMap.2 ⟨p, hp, hk⟩)
  have hid := nodup_ents (good_any hc h hok env).wf1
  unfold List.Nodup at hid
  rw [List.pairwise_map] at hid
  refine List.Pairwise.imp_of_mem ?_ hid
  intro a b ha hb hne
  cases hab : cfg.eqv a.key b.key with
  | false => rfl
  | true => exact absurd (f.one a ha b hb hab) hne

end Hoard.Compare
