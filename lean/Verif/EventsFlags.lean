import Verif.EventsLemmas
/-!
Lemmas for C113 to C115: what the flags of assignments say.
-/
namespace Hoard.Events
variable {K V E : Type} {cfg : Cfg K} {env : Env V} {s : St K V E}

theorem valued_told (i : Nat) (evs : List Ev) : ∀ b : Book, i ∈ (b.notes evs).valued → i ∈ b.valued ∨ ∃ callback, .assign i true callback ∈ evs := by
  induction evs with
  | nil => intro b h; exact .inl h
  | cons x evs ih =>
    intro b h
    rcases ih _ h with h | ⟨c, h⟩
    · cases x with
      | assign j a c =>
        cases a with
        | true =>
          rcases List.mem_cons.1 h with h | h
          · exact .inr ⟨c, by simp [h]⟩
          · exact .inl h
        | false => exact .inl h
      | _ => exact .inl h
    · exact .inr ⟨c, List.mem_cons_of_mem _ h⟩

/-- Entries are assigned at most once. -/
def Once : List Nat → List Ev → Prop
  | _, [] => True
  | g, .assign i _ _ :: es => i ∉ g ∧ Once (i :: g) es
  | g, _ :: es => Once g es

theorem once_of_accepts (evs : List Ev) : ∀ b : Book, b.accepts evs → Once b.given evs := by
  induction evs with
  | nil => intro b _; trivial
  | cons x evs ih =>
    intro b h
    have q := ih _ h.2
    cases x with
    | assign i a c => exact ⟨h.1.2.1, ih _ h.2⟩
    | _ => exact q

theorem once_of_bears (evs : List Ev) : ∀ b : Book, b.bears evs → Once b.given evs := by
  induction evs with
  | nil => intro b _; trivial
  | cons x evs ih =>
    intro b h
    have q := ih _ h.2
    cases x with
    | assign i a c => exact ⟨h.1.2.2.1, ih _ h.2⟩
    | _ => exact q

theorem Once.not_given {i : Nat} {v c : Bool} {evs : List Ev} : ∀ {g : List Nat}, Once g evs → .assign i v c ∈ evs → i ∉ g := by
  induction evs with
  | nil => intro g _ h; cases h
  | cons x evs ih =>
    intro g h hm
    rcases List.mem_cons.1 hm with rfl | hq
    · exact h.1
    · clear hm
      cases x with
      | assign j a b => exact fun hg => ih h.2 hq (List.mem_cons_of_mem _ hg)
      | _ => exact ih h hq

theorem Once.same {i : Nat} {v c v' c' : Bool} {evs : List Ev} : ∀ {g : List Nat}, Once g evs → .assign i v c ∈ evs → .assign i v' c' ∈ evs → v = v' := by
  induction evs with
  | nil => intro g _ h; cases h
  | cons x evs ih =>
    intro g h hm hm'
    rcases List.mem_cons.1 hm with rfl | hq <;> rcases List.mem_cons.1 hm' with h1 | hq'
    · cases h1; rfl
    · exact absurd List.mem_cons_self (h.2.not_given hq')
    · subst h1; exact absurd List.mem_cons_self (h.2.not_given hq)
    · clear hm hm'
      cases x with
      | assign j a b => exact ih h.2 hq hq'
      | _ => exact ih h hq hq'

theorem announced {evs : List Ev} {i : Nat} (ho : Once [] evs) (hv : i ∈ (Book.notes {} evs).valued) : Announced evs i := by
  rcases valued_told i evs {} hv with h | ⟨c, h⟩
  · cases h
  · exact ⟨⟨c, h⟩, fun c' h' => by cases ho.same h h'⟩

/-- The flags of all assignments are right. -/
def Said (P : Bool → Bool → Prop) (evs : List Ev) : Prop := ∀ i v c, .assign i v c ∈ evs → P v c

variable {P : Bool → Bool → Prop}
theorem Said.nil : Said P [] := fun _ _ _ h => by cases h
theorem Said.append {xs ys : List Ev} (h : Said P xs) (h' : Said P ys) : Said P (xs ++ ys) := fun i v c hm => (List.mem_append.1 hm).elim (h i v c) (h' i v c)
theorem said_unlinks (es : List (Entry K V E)) : Said P (unlinks es) := by
  intro i v c h; obtain ⟨e, _, he⟩ := List.mem_map.1 h; cases he
theorem said_lookup (k : K) (incl : Bool) : Said P (lookup cfg env s k incl) := by
  unfold lookup
  refine (said_unlinks _).append (fun i v c h => ?_)
  rw [List.mem_singleton] at h
  split at h <;> cases h
theorem said_before : Said P (before cfg env s) := by
  unfold before; split
  · exact said_unlinks _
  · exact .nil
theorem said_linked {e : Entry K V E} (h : e.isPending = false → P (e.mapped.holdsValue env) false) : Said P (linked cfg env s e) := by
  unfold linked
  refine said_before.append ?_
  intro i v c hm
  rcases List.mem_cons.1 hm with hm | hm
  · cases hm
  · split at hm
    · cases hm
    · rename_i hp
      rw [List.mem_singleton] at hm
      cases hm
      exact h (by simpa using hp)
theorem said_tried {e : Entry K V E} (h : e.isPending = false → P (e.mapped.holdsValue env) false) (f : Fail) : Said P (tried cfg env s e f) := by
  cases f with
  | none => exact said_linked h
  | alloc => exact .nil
  | grow =>
    simp only [tried]; split
    · exact said_before
    · exact said_linked h
theorem said_completed (t : Nat) (r : Res V E) (h : P r.isOk true) : Said P (completed s t r) := by
  unfold completed
  intro i v c hm
  split at hm
  · split at hm
    · cases hm
    · rw [List.mem_singleton] at hm; cases hm; exact h
  · cases hm
theorem said_async (k : K) (b : Beh V E) (h : ∀ r, b = .now r → P r.isOk true) : Said P (resolveAsync cfg env s k b) := by
  unfold resolveAsync
  refine Said.append (said_linked (fun q => by cases q)) ?_
  cases b with
  | now r => exact said_completed _ r (h r rfl)
  | _ => exact .nil
theorem said_sync (k : K) (r : Res V E) (h : P r.isOk false) : Said P (resolveSync cfg env s k r) := by
  refine said_linked (fun _ => ?_)
  cases r <;> exact h

theorem isOk_iff (r : Res V E) : r.isOk = true ↔ ∃ v, r = .ok v := by cases r <;> simp [Res.isOk]
theorem fits_ok (r : Res V E) (c : Bool) : Fits r.isOk c (r, c) := ⟨isOk_iff r, rfl⟩

theorem said_events (o : Op K V E) : Said (fun v c => ∃ x, brings (decide (cfg.resolver = .async)) o = some x ∧ Fits v c x) (events cfg env s o) := by
  cases o with
  | getIfExists k => exact .nil
  | get k r =>
    refine (said_lookup _ _).append ?_
    split
    · exact said_sync _ _ ⟨_, rfl, fits_ok r false⟩
    · exact .nil
  | asyncGet k u b =>
    refine (said_lookup _ _).append ?_
    split
    · refine said_async _ _ ?_
      rintro r rfl
      exact ⟨_, rfl, fits_ok r true⟩
    · exact .nil
  | emplace k v f => exact (said_unlinks _).append (said_tried (fun _ => ⟨_, rfl, fits_ok (.ok v) false⟩) f)
  | getOrEmplace k v f =>
    refine (said_lookup _ _).append ?_
    split
    · exact said_tried (fun _ => ⟨_, rfl, fits_ok (.ok v) false⟩) f
    · exact .nil
  | erase k => exact said_unlinks _
  | clear => exact said_unlinks _
  | count => exact .nil
  | complete t r => exact said_completed t r ⟨_, rfl, fits_ok r true⟩
  | drop t => exact .nil
  | tick r b =>
    simp only [events]
    split
    · exact .nil
    · split
      · exact .nil
      · split
        · unfold refresh
          split
          · exact .nil
          · split
            · rename_i ha
              refine said_async _ _ ?_
              rintro r' rfl
              exact ⟨_, by simp [brings, ha], fits_ok r' true⟩
            · rename_i ha
              exact said_sync _ _ ⟨_, by simp [brings, ha], fits_ok r false⟩
        · exact .nil
  | destroy => exact said_unlinks _

end Hoard.Events
