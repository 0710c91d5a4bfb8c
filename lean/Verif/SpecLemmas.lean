import Verif.InvAll
/-! Facts about the ledger alone. -/
namespace Hoard
open Spec
variable {K V E : Type}
variable {eqv : K → K → Bool} {kind : Kind} {now : Time} {L : Ledger K V} {k : K} {o : Op K V E} {out : Out K V E}

theorem and_false_of {a b : Bool} (h : ¬ (a = true)) : (a && b) = false := by cases a <;> simp_all

/-- An operation that is not about `k` leaves the ledger's entries for `k` alone. -/
theorem after_same (h : ¬ L.Concerns eqv k o out) :
    (L.after eqv kind now o out).cur k = L.cur k ∧ (L.after eqv kind now o out).time k = L.time k ∧
    (L.after eqv kind now o out).used k = L.used k ∧ (L.after eqv kind now o out).gone k = L.gone k ∧
    (L.after eqv kind now o out).valid k = L.valid k ∧ (L.after eqv kind now o out).tried k = L.tried k := by
  have hput : ∀ (L : Ledger K V) k' keep v, ¬ eqv k k' = true → (L.put eqv now keep k' v).cur k = L.cur k ∧ (L.put eqv now keep k' v).time k = L.time k ∧
      (L.put eqv now keep k' v).used k = L.used k ∧ (L.put eqv now keep k' v).gone k = L.gone k ∧
      (L.put eqv now keep k' v).valid k = L.valid k ∧ (L.put eqv now keep k' v).tried k = L.tried k := by
    intro L k' keep v hk; simp [Ledger.put, hk]
  have hlook : ∀ (L : Ledger K V) k' rf tok (b : Beh V E), ¬ eqv k k' = true → (L.lookup eqv now rf k' tok b).cur k = L.cur k ∧ (L.lookup eqv now rf k' tok b).time k = L.time k ∧
      (L.lookup eqv now rf k' tok b).used k = L.used k ∧ (L.lookup eqv now rf k' tok b).gone k = L.gone k ∧
      (L.lookup eqv now rf k' tok b).valid k = L.valid k ∧ (L.lookup eqv now rf k' tok b).tried k = L.tried k := by
    intro L k' rf tok b hk
    cases b with
    | now r => exact hput L k' rf _ hk
    | later => simp [Ledger.lookup, Ledger.begin, hk]
    | drop => simp [Ledger.lookup, Ledger.forget, hk]
  cases o with
  | getIfExists k' =>
    simp only [Ledger.Concerns] at h
    simp only [Ledger.after]; split <;> simp [Ledger.missed, h]
  | get k' r =>
    simp only [Ledger.Concerns] at h
    simp only [Ledger.after]; split
    · cases out.ret <;> simp [Ledger.read, Ledger.touch, Ledger.missed, h]
    · exact hput L k' _ _ h
  | asyncGet k' w b =>
    simp only [Ledger.Concerns] at h
    simp only [Ledger.after]; split
    · split
      · split <;> simp [Ledger.join]
      · simp [Ledger.touch, h]
    · split
      · exact hlook L k' _ _ _ h
      · exact hlook L k' _ _ _ h
  | emplace k' v f => exact hput L k' _ _ h
  | getOrEmplace k' v f =>
    simp only [Ledger.Concerns] at h
    simp only [Ledger.after]; split
    · exact hput L k' _ _ h
    · split <;> simp [Ledger.touch, h]
  | erase k' => exact hput L k' _ _ h
  | clear => exact absurd trivial h
  | count => simp [Ledger.after]
  | complete tok r =>
    simp only [Ledger.Concerns] at h
    simp only [Ledger.after]; split <;> simp [Ledger.finish, h]
  | drop tok =>
    simp only [Ledger.Concerns] at h
    simp only [Ledger.after]; split <;> simp [Ledger.abandon, h]
  | tick r b =>
    simp only [Ledger.Concerns] at h
    simp only [Ledger.after]; split
    · simp
    · rename_i k' tok l hc
      have hk : ¬ eqv k k' = true := fun hh => h ⟨(k', tok), by rw [hc]; exact List.mem_cons_self .., hh⟩
      split
      · exact hlook L k' _ _ _ hk
      · exact hput L k' _ _ hk
  | destroy => exact absurd trivial h

/-- An operation that does not write or remove `k` keeps its value, its writing
time, and the fact that it was missed. -/
theorem after_kept (h : ¬ L.Changes eqv kind k o out) :
    (L.after eqv kind now o out).cur k = L.cur k ∧ (L.after eqv kind now o out).time k = L.time k ∧
    (L.gone k = true → (L.after eqv kind now o out).gone k = true) := by
  have hput : ∀ (L : Ledger K V) k' keep v, ¬ eqv k k' = true → (L.put eqv now keep k' v).cur k = L.cur k ∧ (L.put eqv now keep k' v).time k = L.time k ∧
      (L.gone k = true → (L.put eqv now keep k' v).gone k = true) := by
    intro L k' keep v hk; simp [Ledger.put, hk]
  have hlook : ∀ (L : Ledger K V) k' rf tok (b : Beh V E), ¬ (eqv k k' = true ∧ ∃ r, b = .now r) → (L.lookup eqv now rf k' tok b).cur k = L.cur k ∧ (L.lookup eqv now rf k' tok b).time k = L.time k ∧
      (L.gone k = true → (L.lookup eqv now rf k' tok b).gone k = true) := by
    intro L k' rf tok b hk
    cases b with
    | now r => exact hput L k' rf _ (fun hh => hk ⟨hh, r, rfl⟩)
    | later => simp [Ledger.lookup, Ledger.begin]
    | drop => simp [Ledger.lookup, Ledger.forget]
  cases o with
  | getIfExists k' => simp only [Ledger.after]; split <;> simp [Ledger.missed]; intro h; simp [h]
  | get k' r =>
    simp only [Ledger.Changes] at h
    simp only [Ledger.after]; split
    · cases out.ret <;> simp [Ledger.read, Ledger.touch, Ledger.missed]; intro h; simp [h]
    · rename_i hc
      exact hput L k' _ _ (fun hh => h ⟨hh, by rw [hc]; simp⟩)
  | asyncGet k' w b =>
    simp only [Ledger.Changes] at h
    simp only [Ledger.after]; split
    · split
      · split <;> simp [Ledger.join]
      · simp [Ledger.touch]
    · rename_i hc
      have hk : ¬ (eqv k k' = true ∧ ∃ r, b = .now r) := fun hh => h ⟨hh.1, by rw [hc]; simp, hh.2⟩
      split
      · exact hlook L k' _ _ _ hk
      · exact hlook L k' _ _ _ hk
  | emplace k' v f => exact hput L k' _ _ h
  | getOrEmplace k' v f =>
    simp only [Ledger.Changes] at h
    simp only [Ledger.after]; split
    · rename_i hm
      exact hput L k' _ _ (fun hh => h ⟨hh, hm⟩)
    · split <;> simp [Ledger.touch]
  | erase k' => exact hput L k' _ _ h
  | clear => exact absurd trivial h
  | count => simp [Ledger.after]
  | complete tok r =>
    simp only [Ledger.Changes] at h
    simp only [Ledger.after]; split
    · rename_i hr
      have : ¬ L.valid k = some tok := fun hh => h ⟨hh, hr⟩
      simp [Ledger.finish, this]
    · simp
  | drop tok => simp only [Ledger.after]; split <;> simp [Ledger.abandon]
  | tick r b =>
    simp only [Ledger.Changes] at h
    simp only [Ledger.after]; split
    · simp
    · rename_i k' tok l hc
      by_cases ha : kind = .async
      · rw [if_pos ha]
        exact hlook L k' _ _ _ (fun hh => h ⟨⟨(k', tok), by rw [hc]; rfl, hh.1⟩, fun _ => hh.2⟩)
      · rw [if_neg ha]
        exact hput L k' _ _ (fun hh => h ⟨⟨(k', tok), by rw [hc]; rfl, hh⟩, fun h => absurd h ha⟩)
  | destroy => exact absurd trivial h

/-- A key has a value after an operation only if the operation wrote it or the
key had it before and the operation did not write or remove the key. -/
theorem after_cur {v : V} (hv : (L.after eqv kind now o out).cur k = some v) :
    L.Writes eqv kind k v o out ∨ L.cur k = some v ∧ ¬ L.Changes eqv kind k o out := by
  have hkeep : ¬ L.Changes eqv kind k o out → L.Writes eqv kind k v o out ∨ L.cur k = some v ∧ ¬ L.Changes eqv kind k o out :=
    fun h => .inr ⟨(after_kept (now := now) h).1.symm.trans hv, h⟩
  have hok : ∀ {r : Res V E}, value? r = some v → r = .ok v := by
    intro r h; cases r <;> simp [value?] at h; rw [h]
  by_cases hch : L.Changes eqv kind k o out
  · left
    cases o with
    | get k' r =>
      obtain ⟨h1, h2⟩ := hch
      refine ⟨h1, h2, ?_⟩
      simp only [Ledger.after] at hv
      split at hv
      · rename_i hc; exact absurd hc h2
      · simp [Ledger.write, Ledger.put, h1] at hv; exact hok hv
    | asyncGet k' w b =>
      obtain ⟨h1, h2, r, rfl⟩ := hch
      refine ⟨h1, h2, ?_⟩
      simp only [Ledger.after] at hv
      split at hv
      · rename_i hc; exact absurd hc h2
      · split at hv
        · simp [Ledger.join, Ledger.lookup, Ledger.put, h1] at hv; rw [hok hv]
        · simp [Ledger.lookup, Ledger.put, h1] at hv; rw [hok hv]
    | emplace k' v' f =>
      have h1 : eqv k k' = true := hch
      simp only [Ledger.after, Ledger.write, Ledger.put, h1, if_true] at hv
      split at hv
      · rename_i hm; exact ⟨h1, hm, by simpa using hv⟩
      · cases hv
    | getOrEmplace k' v' f =>
      obtain ⟨h1, h2⟩ := hch
      simp only [Ledger.after, h2, if_true, Ledger.write, Ledger.put, h1] at hv
      exact ⟨h1, h2, by simpa using hv⟩
    | erase k' =>
      have h1 : eqv k k' = true := hch
      simp [Ledger.after, Ledger.write, Ledger.put, h1] at hv
    | clear => simp [Ledger.after, Ledger.wipe] at hv
    | destroy => simp [Ledger.after, Ledger.wipe] at hv
    | complete tok r =>
      obtain ⟨h1, h2⟩ := hch
      simp only [Ledger.after, h2, Ledger.finish, h1, if_true] at hv
      exact ⟨h1, h2, hok hv⟩
    | tick r b =>
      obtain ⟨h1, h2⟩ := hch
      simp only [Ledger.after] at hv
      split at hv
      · rename_i hc; obtain ⟨p, hp, _⟩ := h1; rw [hc] at hp; cases hp
      · rename_i k' tok l hc
        refine ⟨h1, ?_⟩
        obtain ⟨p, hp, hk⟩ := h1
        rw [hc] at hp
        cases hp
        by_cases ha : kind = .async
        · rw [if_pos ha] at hv ⊢
          obtain ⟨r', rfl⟩ := h2 ha
          simp [Ledger.lookup, Ledger.put, hk] at hv; rw [hok hv]
        · rw [if_neg ha] at hv ⊢
          simp [Ledger.put, hk] at hv; rw [hok hv]
    | _ => exact absurd hch (by simp [Ledger.Changes])
  · exact hkeep hch

/-- A lookup is in flight after an operation only if the operation started it or
it was in flight before and the key was not written or removed. -/
theorem after_valid {tok : Nat} (hv : (L.after eqv kind now o out).valid k = some tok) :
    Ledger.Starts eqv kind k tok o out ∨ L.valid k = some tok ∧ ¬ L.Changes eqv kind k o out ∧
      (∀ r, o = .complete tok r → out.ret ≠ .bool true) ∧ (o = .drop tok → out.ret ≠ .bool true) := by
  have hput : ∀ {L : Ledger K V} {k' keep v}, (L.put eqv now keep k' v).valid k = some tok → ¬ eqv k k' = true ∧ L.valid k = some tok := by
    intro L k' keep v h; simp [Ledger.put] at h; exact ⟨by simp [h.1], h.2⟩
  have hlook : ∀ {L : Ledger K V} {k' rf t} {b : Beh V E}, (L.lookup eqv now rf k' t b).valid k = some tok →
      (¬ eqv k k' = true ∧ L.valid k = some tok) ∨ eqv k k' = true ∧ b = .later ∧ t = tok := by
    intro L k' rf t b h
    cases b with
    | now r => exact .inl (hput h)
    | later =>
      simp only [Ledger.lookup, Ledger.begin] at h
      split at h
      · rename_i hk; exact .inr ⟨hk, rfl, by simpa using h⟩
      · rename_i hk; exact .inl ⟨hk, h⟩
    | drop =>
      simp only [Ledger.lookup, Ledger.forget] at h
      split at h
      · cases h
      · rename_i hk; exact .inl ⟨hk, h⟩
  cases o with
  | getIfExists k' =>
    right
    refine ⟨?_, fun h => h, by simp, by simp⟩
    simp only [Ledger.after] at hv; split at hv <;> exact hv
  | get k' r =>
    right
    simp only [Ledger.after] at hv; split at hv
    · rename_i hc
      refine ⟨?_, fun h => h.2 hc, by simp, by simp⟩
      cases hr : out.ret <;> simp [hr, Ledger.read, Ledger.touch, Ledger.missed] at hv <;> exact hv
    · obtain ⟨h1, h2⟩ := hput hv
      exact ⟨h2, fun h => h1 h.1, by simp, by simp⟩
  | asyncGet k' w b =>
    have key : ∀ t l p, out.calls = (p, t) :: l → (L.lookup eqv now false k' t b).valid k = some tok →
        Ledger.Starts eqv kind k tok (.asyncGet k' w b) out ∨ L.valid k = some tok ∧ ¬ L.Changes eqv kind k (.asyncGet k' w b) out ∧
        (∀ r, Op.asyncGet k' w b = .complete tok r → out.ret ≠ .bool true) ∧ (Op.asyncGet k' w b = .drop tok → out.ret ≠ .bool true) := by
      intro t l p hc h
      rcases hlook h with ⟨h1, h2⟩ | ⟨h1, rfl, rfl⟩
      · exact .inr ⟨h2, fun h => h1 h.1, by simp, by simp⟩
      · left; exact ⟨h1, (p, t), by rw [hc]; rfl, rfl⟩
    simp only [Ledger.after] at hv; split at hv
    · rename_i hc
      right
      refine ⟨?_, fun h => h.2.1 hc, by simp, by simp⟩
      split at hv
      · split at hv <;> exact hv
      · exact hv
    · rename_i p t l hc
      split at hv
      · exact key t l p hc hv
      · exact key t l p hc hv
  | emplace k' v f => obtain ⟨h1, h2⟩ := hput hv; exact .inr ⟨h2, h1, by simp, by simp⟩
  | getOrEmplace k' v f =>
    right
    simp only [Ledger.after] at hv; split at hv
    · obtain ⟨h1, h2⟩ := hput hv; exact ⟨h2, fun h => h1 h.1, by simp, by simp⟩
    · rename_i hm
      refine ⟨?_, fun h => hm h.2, by simp, by simp⟩
      split at hv <;> exact hv
  | erase k' => obtain ⟨h1, h2⟩ := hput hv; exact .inr ⟨h2, h1, by simp, by simp⟩
  | clear => simp [Ledger.after, Ledger.wipe] at hv
  | count => exact .inr ⟨hv, fun h => h, by simp, by simp⟩
  | complete x r =>
    right
    simp only [Ledger.after] at hv; split at hv
    · rename_i hr
      simp only [Ledger.finish] at hv
      split at hv
      · cases hv
      · rename_i hx
        refine ⟨hv, fun h => hx h.1, ?_, by simp⟩
        rintro r' ⟨⟩; exact absurd hv hx
    · rename_i hr
      exact ⟨hv, fun h => hr h.2, fun _ _ h => hr h, by simp⟩
  | drop x =>
    right
    simp only [Ledger.after] at hv; split at hv
    · simp only [Ledger.abandon] at hv
      split at hv
      · cases hv
      · rename_i hx
        refine ⟨hv, fun h => h, by simp, ?_⟩
        rintro ⟨⟩; exact absurd hv hx
    · rename_i hr
      exact ⟨hv, fun h => h, by simp, fun _ h => hr h⟩
  | tick r b =>
    simp only [Ledger.after] at hv; split at hv
    · rename_i hc
      right
      refine ⟨hv, ?_, by simp, by simp⟩
      rintro ⟨⟨p, hp, _⟩, _⟩; rw [hc] at hp; cases hp
    · rename_i k' t l hc
      split at hv
      · rename_i ha
        rcases hlook hv with ⟨h1, h2⟩ | ⟨h1, rfl, rfl⟩
        · right
          refine ⟨h2, ?_, by simp, by simp⟩
          rintro ⟨⟨p, hp, hk⟩, _⟩; rw [hc] at hp; cases hp; exact h1 hk
        · left; exact ⟨ha, (k', t), by rw [hc]; rfl, rfl, h1⟩
      · obtain ⟨h1, h2⟩ := hput hv
        right
        refine ⟨h2, ?_, by simp, by simp⟩
        rintro ⟨⟨p, hp, hk⟩, _⟩; rw [hc] at hp; cases hp; exact h1 hk
  | destroy => simp [Ledger.after, Ledger.wipe] at hv

/-- After a write the key has the value, and the time of the write is recorded. -/
theorem after_writes {v : V} (h : L.Writes eqv kind k v o out) :
    (L.after eqv kind now o out).cur k = some v ∧ (L.after eqv kind now o out).time k = now ∧ (L.after eqv kind now o out).gone k = false := by
  cases o with
  | emplace k' v' f => obtain ⟨h1, h2, rfl⟩ := h; simp [Ledger.after, Ledger.write, Ledger.put, h1, h2]
  | getOrEmplace k' v' f => obtain ⟨h1, h2, rfl⟩ := h; simp [Ledger.after, Ledger.write, Ledger.put, h1, h2]
  | get k' r =>
    obtain ⟨h1, h2, rfl⟩ := h
    simp only [Ledger.after]; split
    · rename_i hc; exact absurd hc h2
    · simp [Ledger.write, Ledger.put, h1, value?]
  | asyncGet k' w b =>
    obtain ⟨h1, h2, rfl⟩ := h
    simp only [Ledger.after]; split
    · rename_i hc; exact absurd hc h2
    · split <;> simp [Ledger.join, Ledger.lookup, Ledger.put, h1, value?]
  | complete tok r => obtain ⟨h1, h2, rfl⟩ := h; simp [Ledger.after, h2, Ledger.finish, h1, value?]
  | tick r b =>
    obtain ⟨⟨p, hp, hk⟩, h2⟩ := h
    simp only [Ledger.after]; split
    · rename_i hc; rw [hc] at hp; cases hp
    · rename_i k' tok l hc
      rw [hc] at hp; cases hp
      by_cases ha : kind = .async
      · rw [if_pos ha] at h2 ⊢; subst h2; simp [Ledger.lookup, Ledger.put, hk, value?]
      · rw [if_neg ha] at h2 ⊢; subst h2; simp [Ledger.put, hk, value?]
  | _ => exact h.elim

/-- After a miss of a lookup that does not ask a resolver, the key is known to be gone. -/
theorem after_missed (hk : eqv k k = true) (hr : out.ret = .miss) (hc : out.calls = []) (ho : o = .getIfExists k ∨ ∃ r, o = .get k r) :
    (L.after eqv kind now o out).gone k = true := by
  rcases ho with rfl | ⟨r, rfl⟩
  · simp [Ledger.after, hr, Ledger.missed, hk]
  · simp [Ledger.after, hr, hc, Ledger.read, Ledger.missed, hk]

end Hoard
