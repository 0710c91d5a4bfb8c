import Verif.HandlersKeep
import Verif.AsyncLemmas
/-! An operation during a delivery does what it would do after it. -/
namespace Hoard.Handlers
open Spec
variable {K V E : Type} {cfg : Cfg K} {env : Env V} {T : List Nat} {l : List Nat} {s s' : St K V E}

/-- The deadline of the entry, if it is being delivered, is not reached. -/
def Early (env : Env V) (T : List Nat) (e : Entry K V E) : Prop := e.id ∈ T → env.now.past e.expTp = false

theorem early_cl : Cl (E := E) (K := K) env T (Early env T) where
  out := fun _ h h' => absurd h' h
  mark := fun _ _ h => h
  cancel := fun _ h => h
  str := fun _ h => h
  add := fun _ _ h => h

theorem AllE.agree (h : AllE (Early env T) s) : Agree env T s.ents := fun e he => h e (List.mem_append_left _ he)

theorem filter_erase {α : Type} [BEq α] [LawfulBEq α] (p : α → Bool) (t : α) (ht : p t = true) : ∀ l : List α, (l.erase t).filter p = (l.filter p).erase t
  | [] => rfl
  | a :: l => by
    by_cases h : a = t
    · subst h; simp [ht]
    · rw [List.erase_cons_tail (by simpa using h)]
      by_cases hp : p a = true
      · rw [List.filter_cons_of_pos hp, List.filter_cons_of_pos hp, List.erase_cons_tail (by simpa using h), filter_erase p t ht l]
      · rw [List.filter_cons_of_neg hp, List.filter_cons_of_neg hp, filter_erase p t ht l]

/-- What becomes of the list of lookups in flight. -/
structure OpensTo (T l l' : List Nat) (o : Op K V E) (s s' : St K V E) : Prop where
  eq : s'.opens = l'.filter (fun t => !T.contains t)
  nd : l'.Nodup
  keep : ∀ t ∈ l, o ≠ .drop t → t ∈ l'
  new : ∀ t ∈ l', t ∈ l ∨ t = s.nextId

theorem step_tw (hc : cfg.Ok) (hr : cfg.refresh = none) (w : WF1 cfg s) (hA : AllE (Early env T) s) (hT : ∀ t ∈ T, t < s.nextId)
    (hl : l.Nodup) (hlt : ∀ t ∈ l, t < s.nextId) (ho : s.opens = l.filter (fun t => !T.contains t))
    {o : Op K V E} (hm : Mid o) (hd : ∀ t ∈ T, o ≠ .drop t) :
    ∃ l', step cfg env (tw T l s) o = (tw T l' (step cfg env s o).1, (step cfg env s o).2) ∧ OpensTo T l l' o s (step cfg env s o).1 := by
  have hn : s.nextId ∉ T := fun x => Nat.lt_irrefl _ (hT _ x)
  have hnl : s.nextId ∉ l := fun x => Nat.lt_irrefl _ (hlt _ x)
  have same : ∀ s' : St K V E, s'.opens = s.opens → OpensTo T l l o s s' := fun s' h => ⟨h.trans ho, hl, fun _ h _ => h, fun _ h => .inl h⟩
  cases o with
  | get k r => exact absurd rfl (hm.1 k r)
  | complete t r => exact absurd rfl (hm.2.1 t r)
  | tick r b => exact absurd rfl (hm.2.2.1 r b)
  | destroy => exact absurd rfl hm.2.2.2
  | getIfExists k =>
    refine ⟨l, ?_, same _ rfl⟩
    simp only [step, getIfExists, tw_bucketFor, tw_bucket, peekWalk_strip k _ (hA.agree.bucket _)]
  | count =>
    refine ⟨l, ?_, same _ rfl⟩
    simp only [step, count, tw_ents]
    rw [filter_strip _ _ (fun e he => by rw [strip_expired (hA.agree e he)]), List.length_map]
  | erase k =>
    refine ⟨l, ?_, same _ (expire_same cfg s env k).opens⟩
    simp only [step, erase, tw_expire hA.agree]
  | clear =>
    refine ⟨l, ?_, same _ (by simp [step])⟩
    simp only [step, tw_clear]
  | drop t =>
    have htT : t ∉ T := fun h => hd t h rfl
    have hto : t ∈ l ↔ t ∈ s.opens := by rw [ho]; simp [htT]
    refine ⟨l.erase t, ?_, ?_, hl.erase _, ?_, ?_⟩
    · simp only [step, tw_drop hto]
    · simp only [step, drop_opens]
      rw [ho, filter_erase _ _ (by simpa using htT)]
    · intro x hx hne
      exact (List.mem_erase_of_ne (fun h => hne (by rw [h]))).2 hx
    · intro x hx; exact .inl (List.mem_of_mem_erase hx)
  | emplace k v f =>
    have hx := expire_same cfg s env k
    have hA1 := hA.expire (cfg := cfg) early_cl k
    have hn1 : (newEntry (expire_ cfg env s k) k (.value v : Mapped V E)).id ∉ T := by
      show (expire_ cfg env s k).nextId ∉ T
      rw [hx.nextId]; exact hn
    refine ⟨l, ?_, same _ (by simp only [step, emplace]; split <;> simp)⟩
    simp only [step, emplace, tw_expire hA.agree, tw_newEntry]
    rw [tw_tryLink hA1.agree hn1]
    split
    · simp only [tw_maintenance]
    · rfl
  | getOrEmplace k v f =>
    have hg := (get__shr (env := env) hc w k true).same
    have hA1 := hA.get_ (cfg := cfg) hr early_cl k true
    have hn1 : (newEntry (get_ cfg env s k true).1 k (.value v : Mapped V E)).id ∉ T := by
      show (get_ cfg env s k true).1.nextId ∉ T
      rw [hg.nextId]; exact hn
    refine ⟨l, ?_, same _ (by simp only [step, getOrEmplace]; split <;> (try split) <;> simp)⟩
    simp only [step, getOrEmplace, tw_get_ hr hA.agree]
    generalize get_ cfg env s k true = g at *
    obtain ⟨s1, lk⟩ := g
    simp only at *
    cases lk with
    | none =>
      simp only [tw_newEntry, tw_tryLink hA1.agree hn1]
      split
      · simp only [tw_maintenance]
      · rfl
    | val u => simp only [tw_maintenance]
    | err u => simp only [tw_maintenance]
    | pend => simp only [tw_maintenance]
  | asyncGet k x b =>
    have hg := (get__shr (env := env) hc w k true).same
    have hA1 := hA.get_ (cfg := cfg) hr early_cl k true
    have hso : s.nextId ∉ s.opens := by rw [ho]; intro h; exact hnl (List.mem_filter.1 h).1
    have hw1 : ∀ w : Walk K V E, (w.strip T).hit = w.hit := fun _ => rfl
    simp only [step, asyncGet, tw_get_ hr hA.agree, tw_bucketFor, tw_bucket, getWalk_strip k true _ (hA.agree.bucket _), hw1]
    cases (getWalk cfg env k true (s.bucket (s.bucketFor (cfg.hash k)))).hit with
    | some p =>
      obtain ⟨i, lk⟩ := p
      refine ⟨l, by simp only [tw_answer], same _ ?_⟩
      simp only [answer_opens, hg.opens]
    | none =>
      have hn1 : (get_ cfg env s k true).1.nextId ∉ T := by rw [hg.nextId]; exact hn
      have hn2 : (get_ cfg env s k true).1.nextId ∉ l := by rw [hg.nextId]; exact hnl
      refine ⟨opensNext l s.nextId b, ?_, ?_⟩
      · simp only [tw_resolveAsync hA1.agree hn1 hn2, tw_find, hg.nextId]
        generalize resolveAsync cfg env (get_ cfg env s k true).1 k b = q
        obtain ⟨s2, tok⟩ := q
        simp only
        cases s2.find tok with
        | none => simp only [Option.map_none, tw_answer]
        | some e => simp only [Option.map_some, strip_mapped, tw_answer]
      · have h1 := resolveAsync_opens_eq cfg env (get_ cfg env s k true).1 k b (by rw [hg.nextId, hg.opens]; exact hso)
        rw [hg.nextId, hg.opens, ho] at h1
        constructor
        · simp only [answer_opens, h1]
          cases b with
          | later => simp [opensNext, hn]
          | now r => simp [opensNext]
          | drop => simp [opensNext]
        · cases b with
          | later =>
            simp only [opensNext]
            rw [List.nodup_append]
            refine ⟨hl, by simp, fun a ha c hc h => ?_⟩
            rw [List.mem_singleton] at hc
            rw [h, hc] at ha; exact hnl ha
          | now r => exact hl
          | drop => exact hl
        · intro t ht _
          cases b with
          | later => exact List.mem_append_left _ ht
          | now r => exact ht
          | drop => exact ht
        · intro t ht
          cases b with
          | later => simpa [opensNext] using ht
          | now r => exact .inl ht
          | drop => exact .inl ht

end Hoard.Handlers
