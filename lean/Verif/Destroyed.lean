import Verif.CacheOps
/-! Only destruction destroys. -/
namespace Hoard
variable {K V E : Type} (cfg : Cfg K) (env : Env V) (s : St K V E)

@[simp] theorem modify_des (i : Nat) (f : Entry K V E → Entry K V E) : (s.modify i f).destroyed = s.destroyed := rfl

@[simp] theorem dispose_des (es : List (Entry K V E)) : (dispose cfg s es).destroyed = s.destroyed := by
  unfold dispose
  induction es generalizing s with
  | nil => rfl
  | cons e es ih => rw [List.foldl_cons, ih]; rfl

@[simp] theorem applyWalk_des (i : Nat) (w : Walk K V E) : (applyWalk cfg s i w).destroyed = s.destroyed := by
  simp [applyWalk, St.setBucket]

@[simp] theorem onHit_des (i : Nat) : (onHit cfg env s i).destroyed = s.destroyed := by
  unfold onHit; simp only; repeat' split
  all_goals simp

@[simp] theorem onCreate_des (i : Nat) : (onCreate cfg env s i).destroyed = s.destroyed := by
  unfold onCreate; split
  · simp only; split <;> rfl
  · rfl

@[simp] theorem onAssign_des (i : Nat) (b : Bool) : (onAssign cfg env s i b).destroyed = s.destroyed := by
  unfold onAssign; simp only; split <;> rfl

@[simp] theorem purge_des : (purge cfg env s).destroyed = s.destroyed := by simp [purge]

@[simp] theorem beforeLink_des : (beforeLink cfg env s).destroyed = s.destroyed := by
  unfold beforeLink; split <;> simp

@[simp] theorem maybeRehash_des : (maybeRehash cfg env s).destroyed = s.destroyed := by
  unfold maybeRehash; simp only; split <;> simp [rehash]

@[simp] theorem link_des (e : Entry K V E) : (link cfg env s e).destroyed = s.destroyed := by
  unfold link; simp only; split <;> simp

@[simp] theorem evictAll_des (vs : List Nat) : (evictAll cfg s vs).destroyed = s.destroyed := by
  unfold evictAll
  induction vs generalizing s with
  | nil => rfl
  | cons e es ih => rw [List.foldl_cons, ih]; rfl

@[simp] theorem maintenance_des : (maintenance cfg s).destroyed = s.destroyed := by
  unfold maintenance; split <;> simp

@[simp] theorem get__des (k : K) (incl : Bool) : (get_ cfg env s k incl).1.destroyed = s.destroyed := by
  unfold get_; simp only; split <;> simp

@[simp] theorem expire__des (k : K) : (expire_ cfg env s k).destroyed = s.destroyed := by simp [expire_]

@[simp] theorem clear_des : (clear cfg s).destroyed = s.destroyed := by simp [clear]

@[simp] theorem tryLink_des (e : Entry K V E) (f : Fail) : (tryLink cfg env s e f).1.destroyed = s.destroyed := by
  cases f <;> simp [tryLink]
  split <;> simp

@[simp] theorem runCb_des (i : Nat) (cb : Cb) : (runCb s i cb).destroyed = s.destroyed := by
  cases cb <;> simp [runCb]

@[simp] theorem runCbs_des (i : Nat) (cbs : List Cb) : (runCbs s i cbs).destroyed = s.destroyed := by
  unfold runCbs
  induction cbs generalizing s with
  | nil => rfl
  | cons e es ih => rw [List.foldl_cons, ih, runCb_des]

@[simp] theorem complete_des (tok : Nat) (r : Res V E) : (complete cfg env s tok r).1.destroyed = s.destroyed := by
  unfold complete; simp only; repeat' split
  all_goals simp

@[simp] theorem drop_des (tok : Nat) : (drop s tok).1.destroyed = s.destroyed := by
  unfold drop; simp only; split <;> simp

@[simp] theorem resolveAsync_des (k : K) (b : Beh V E) : (resolveAsync cfg env s k b).1.destroyed = s.destroyed := by
  cases b <;> simp [resolveAsync]

@[simp] theorem answer_des (i w : Nat) (l : Look V E) : (answer s i w l).1.destroyed = s.destroyed := by
  cases l <;> simp [answer]

theorem step_destroyed (o : Op K V E) (hd : o ≠ .destroy) : (step cfg env s o).1.destroyed = s.destroyed := by
  cases o with
  | getIfExists k => rfl
  | count => rfl
  | get k r => simp only [step, get]; split <;> simp [resolveSync]
  | asyncGet k w b => simp only [step, asyncGet]; split <;> simp
  | emplace k v f => simp only [step, emplace]; split <;> simp
  | getOrEmplace k v f =>
    simp only [step, getOrEmplace]; split
    · simp
    · split <;> simp
    · simp
  | erase k => simp [step, erase]
  | clear => simp [step]
  | complete t r => simp [step]
  | drop t => simp [step]
  | tick r b =>
    simp only [step, tick]; split
    · rfl
    · split
      · rfl
      · split
        · simp only [refresh]; split
          · rfl
          · repeat' split
            all_goals simp [resolveSync]
        · rfl
  | destroy => exact absurd rfl hd

end Hoard
