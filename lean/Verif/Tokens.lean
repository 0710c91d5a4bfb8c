import Verif.Destroyed
/-! Which lookups are open, and which tokens were given out. -/
namespace Hoard
variable {K V E : Type} (cfg : Cfg K) (env : Env V) (s : St K V E)

@[simp] theorem modify_opens (i : Nat) (f : Entry K V E → Entry K V E) : (s.modify i f).opens = s.opens := rfl

@[simp] theorem dispose_opens (es : List (Entry K V E)) : (dispose cfg s es).opens = s.opens := by
  unfold dispose
  induction es generalizing s with
  | nil => rfl
  | cons e es ih => rw [List.foldl_cons, ih]; rfl

@[simp] theorem applyWalk_opens (i : Nat) (w : Walk K V E) : (applyWalk cfg s i w).opens = s.opens := by
  simp [applyWalk, St.setBucket]

@[simp] theorem onHit_opens (i : Nat) : (onHit cfg env s i).opens = s.opens := by
  unfold onHit; simp only; repeat' split
  all_goals simp

@[simp] theorem onCreate_opens (i : Nat) : (onCreate cfg env s i).opens = s.opens := by
  unfold onCreate; split
  · simp only; split <;> rfl
  · rfl

@[simp] theorem onAssign_opens (i : Nat) (b : Bool) : (onAssign cfg env s i b).opens = s.opens := by
  unfold onAssign; simp only; split <;> rfl

@[simp] theorem purge_opens : (purge cfg env s).opens = s.opens := by simp [purge]

@[simp] theorem beforeLink_opens : (beforeLink cfg env s).opens = s.opens := by
  unfold beforeLink; split <;> simp

@[simp] theorem maybeRehash_opens : (maybeRehash cfg env s).opens = s.opens := by
  unfold maybeRehash; simp only; split <;> simp [rehash]

@[simp] theorem link_opens (e : Entry K V E) : (link cfg env s e).opens = s.opens := by
  unfold link; simp only; split <;> simp

@[simp] theorem evictAll_opens (vs : List Nat) : (evictAll cfg s vs).opens = s.opens := by
  unfold evictAll
  induction vs generalizing s with
  | nil => rfl
  | cons e es ih => rw [List.foldl_cons, ih]; rfl

@[simp] theorem maintenance_opens : (maintenance cfg s).opens = s.opens := by
  unfold maintenance; split <;> simp

@[simp] theorem get__opens (k : K) (incl : Bool) : (get_ cfg env s k incl).1.opens = s.opens := by
  unfold get_; simp only; split <;> simp

@[simp] theorem expire__opens (k : K) : (expire_ cfg env s k).opens = s.opens := by simp [expire_]

@[simp] theorem clear_opens : (clear cfg s).opens = s.opens := by simp [clear]

@[simp] theorem tryLink_opens (e : Entry K V E) (f : Fail) : (tryLink cfg env s e f).1.opens = s.opens := by
  cases f <;> simp [tryLink]
  split <;> simp

@[simp] theorem runCb_opens (i : Nat) (cb : Cb) : (runCb s i cb).opens = s.opens := by
  cases cb <;> simp [runCb]

@[simp] theorem runCbs_opens (i : Nat) (cbs : List Cb) : (runCbs s i cbs).opens = s.opens := by
  unfold runCbs
  induction cbs generalizing s with
  | nil => rfl
  | cons e es ih => rw [List.foldl_cons, ih, runCb_opens]

@[simp] theorem modify_nextId (i : Nat) (f : Entry K V E → Entry K V E) : (s.modify i f).nextId = s.nextId := rfl

@[simp] theorem dispose_nextId (es : List (Entry K V E)) : (dispose cfg s es).nextId = s.nextId := by
  unfold dispose
  induction es generalizing s with
  | nil => rfl
  | cons e es ih => rw [List.foldl_cons, ih]; rfl

@[simp] theorem applyWalk_nextId (i : Nat) (w : Walk K V E) : (applyWalk cfg s i w).nextId = s.nextId := by
  simp [applyWalk, St.setBucket]

@[simp] theorem onHit_nextId (i : Nat) : (onHit cfg env s i).nextId = s.nextId := by
  unfold onHit; simp only; repeat' split
  all_goals simp

@[simp] theorem onCreate_nextId (i : Nat) : (onCreate cfg env s i).nextId = s.nextId := by
  unfold onCreate; split
  · simp only; split <;> rfl
  · rfl

@[simp] theorem onAssign_nextId (i : Nat) (b : Bool) : (onAssign cfg env s i b).nextId = s.nextId := by
  unfold onAssign; simp only; split <;> rfl

@[simp] theorem purge_nextId : (purge cfg env s).nextId = s.nextId := by simp [purge]

@[simp] theorem beforeLink_nextId : (beforeLink cfg env s).nextId = s.nextId := by
  unfold beforeLink; split <;> simp

@[simp] theorem maybeRehash_nextId : (maybeRehash cfg env s).nextId = s.nextId := by
  unfold maybeRehash; simp only; split <;> simp [rehash]

@[simp] theorem link_nextId (e : Entry K V E) : (link cfg env s e).nextId = s.nextId + 1 := by
  unfold link; simp only; split <;> simp

@[simp] theorem evictAll_nextId (vs : List Nat) : (evictAll cfg s vs).nextId = s.nextId := by
  unfold evictAll
  induction vs generalizing s with
  | nil => rfl
  | cons e es ih => rw [List.foldl_cons, ih]; rfl

@[simp] theorem maintenance_nextId : (maintenance cfg s).nextId = s.nextId := by
  unfold maintenance; split <;> simp

@[simp] theorem get__nextId (k : K) (incl : Bool) : (get_ cfg env s k incl).1.nextId = s.nextId := by
  unfold get_; simp only; split <;> simp

@[simp] theorem expire__nextId (k : K) : (expire_ cfg env s k).nextId = s.nextId := by simp [expire_]

@[simp] theorem clear_nextId : (clear cfg s).nextId = s.nextId := by simp [clear]

theorem tryLink_nextId (e : Entry K V E) (f : Fail) : s.nextId ≤ (tryLink cfg env s e f).1.nextId := by
  cases f <;> simp [tryLink]
  split <;> simp

@[simp] theorem runCb_nextId (i : Nat) (cb : Cb) : (runCb s i cb).nextId = s.nextId := by
  cases cb <;> simp [runCb]

@[simp] theorem runCbs_nextId (i : Nat) (cbs : List Cb) : (runCbs s i cbs).nextId = s.nextId := by
  unfold runCbs
  induction cbs generalizing s with
  | nil => rfl
  | cons e es ih => rw [List.foldl_cons, ih, runCb_nextId]


theorem complete_opens (tok : Nat) (r : Res V E) : (complete cfg env s tok r).1.opens = s.opens.erase tok := by
  unfold complete; simp only; repeat' split
  · simp
  · simp
  · rename_i h; exact (List.erase_of_not_mem h).symm

@[simp] theorem complete_nextId (tok : Nat) (r : Res V E) : (complete cfg env s tok r).1.nextId = s.nextId := by
  unfold complete; simp only; repeat' split
  all_goals simp

theorem drop_opens (tok : Nat) : (drop s tok).1.opens = s.opens.erase tok := by
  unfold drop; simp only; split
  · simp
  · rename_i h; exact (List.erase_of_not_mem h).symm

@[simp] theorem drop_nextId (tok : Nat) : (drop s tok).1.nextId = s.nextId := by
  unfold drop; simp only; split <;> simp

@[simp] theorem resolveAsync_nextId (k : K) (b : Beh V E) : (resolveAsync cfg env s k b).1.nextId = s.nextId + 1 := by
  cases b <;> simp [resolveAsync]

theorem resolveAsync_opens (k : K) (b : Beh V E) : ∀ t ∈ (resolveAsync cfg env s k b).1.opens, t ∈ s.opens ∨ t = s.nextId := by
  intro t ht
  cases b with
  | later => simpa [resolveAsync] using ht
  | now r =>
    simp only [resolveAsync, complete_opens, link_opens] at ht
    simpa using List.mem_of_mem_erase ht
  | drop =>
    simp only [resolveAsync, drop_opens, link_opens] at ht
    simpa using List.mem_of_mem_erase ht

/-- A resolver that did not keep its lookup for later leaves no open lookup behind. -/
theorem resolveAsync_closed (k : K) (b : Beh V E) (hb : b ≠ .later) (hn : s.nextId ∉ s.opens) :
    s.nextId ∉ (resolveAsync cfg env s k b).1.opens := by
  have he : (s.opens ++ [s.nextId]).erase s.nextId = s.opens := by
    rw [List.erase_append_right _ hn]; simp
  cases b with
  | later => exact absurd rfl hb
  | now r => simp only [resolveAsync, complete_opens, link_opens, he]; exact hn
  | drop => simp only [resolveAsync, drop_opens, link_opens, he]; exact hn

@[simp] theorem answer_opens (i w : Nat) (l : Look V E) : (answer s i w l).1.opens = s.opens := by
  cases l <;> simp [answer]

@[simp] theorem answer_nextId (i w : Nat) (l : Look V E) : (answer s i w l).1.nextId = s.nextId := by
  cases l <;> simp [answer]

/-- What an operation does to the tokens. -/
theorem step_tokens (o : Op K V E) :
    s.nextId ≤ (step cfg env s o).1.nextId ∧
    (∀ t ∈ (step cfg env s o).1.opens, t ∈ s.opens ∨ (t = s.nextId ∧ s.nextId < (step cfg env s o).1.nextId)) ∧
    (∀ p ∈ (step cfg env s o).2.calls, p.2 = s.nextId ∧ s.nextId < (step cfg env s o).1.nextId) := by
  cases o with
  | getIfExists k => simp [step, getIfExists]
  | count => simp [step]
  | get k r =>
    simp only [step, get]; split
    · simp [resolveSync]
      exact fun _ h => .inl h
    all_goals simp
  | asyncGet k w b =>
    simp only [step, asyncGet]; split
    · rename_i l _; cases l <;> simp [answer]
    · have := resolveAsync_opens cfg env (get_ cfg env s k true).1 k b
      simp only [get__opens, get__nextId] at this
      refine ⟨by simp, ?_, ?_⟩
      · intro t ht
        simp only [answer_opens] at ht
        rcases this t ht with h | h
        · exact .inl h
        · exact .inr ⟨h, by simp⟩
      · simp [resolveAsync]
        cases b <;> simp
  | emplace k v f =>
    simp only [step, emplace]
    have := tryLink_nextId cfg env (expire_ cfg env s k) (newEntry (expire_ cfg env s k) k (.value v)) f
    simp only [expire__nextId] at this
    split <;> simp [this] <;> exact fun _ h => .inl h
  | getOrEmplace k v f =>
    simp only [step, getOrEmplace]; split
    · simp
    · have := tryLink_nextId cfg env (get_ cfg env s k true).1 (newEntry (get_ cfg env s k true).1 k (.value v)) f
      simp only [get__nextId] at this
      split <;> simp [this] <;> exact fun _ h => .inl h
    · simp
  | erase k => simp [step, erase]
  | clear => simp [step]
  | complete t r =>
    simp only [step, complete_opens, complete_nextId]
    refine ⟨Nat.le_refl _, fun t h => .inl (List.mem_of_mem_erase h), ?_⟩
    unfold complete; simp only; repeat' split
    all_goals simp
  | drop t =>
    simp only [step, drop_opens, drop_nextId]
    refine ⟨Nat.le_refl _, fun t h => .inl (List.mem_of_mem_erase h), ?_⟩
    unfold drop; simp only; split <;> simp
  | tick r b =>
    simp only [step, tick]; split
    · simp
    · split
      · simp
      · split
        · simp only [refresh]; split
          · simp
          · rename_i q hq _ e he hr hx
            by_cases ha : cfg.resolver = .async
            · rw [if_pos ha]
              have := resolveAsync_opens cfg env ({ s with delayQ := q } : St K V E) e.key b
              have h2 : (resolveAsync cfg env ({ s with delayQ := q } : St K V E) e.key b).2 = s.nextId := by cases b <;> rfl
              repeat' split
              all_goals (refine ⟨by simp, fun t ht => ?_, by simp [h2]⟩; simp at ht; rcases this t ht with h | h; exact .inl h; exact .inr ⟨h, by simp⟩)
            · rw [if_neg ha]
              repeat' split
              all_goals (simp [resolveSync]; try exact fun _ h => .inl h)
        · simp
  | destroy => simp [step, destroy]

end Hoard
