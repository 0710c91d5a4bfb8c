import Verif.EventsQueue
import Verif.EventsFlags
import Verif.Props.Async
/-! # C113: the calls that policies see -/
namespace Hoard.Events
open Spec
variable {K V E : Type} {cfg : Cfg K} {env : Env V} {s : St K V E}

/-- Creations are noted as long as the entry is not unlinked. -/
theorem created_there (evs : List Ev) : ∀ (b : Book) (i : Nat), (.create i ∈ evs ∨ i ∈ b.there) → i ∈ (b.notes evs).there ∨ .unlink i ∈ evs := by
  induction evs with
  | nil => intro b i h; simpa [Book.notes] using h
  | cons e evs ih =>
    intro b i h
    by_cases hu : e = .unlink i
    · exact .inr (by simp [hu])
    · have : .create i ∈ evs ∨ i ∈ (b.note e).there := by
        rcases h with h | h
        · rcases List.mem_cons.1 h with h | h
          · subst h; exact .inr List.mem_cons_self
          · exact .inl h
        · refine .inr ?_
          cases e with
          | create j => exact List.mem_cons_of_mem _ h
          | unlink j => exact (List.mem_erase_of_ne (fun hij => hu (by rw [hij]))).2 h
          | _ => exact h
      rcases ih _ i this with h | h
      · exact .inl h
      · exact .inr (List.mem_cons_of_mem _ h)

structure Proper (b : Book) : Prop where
  nd : b.there.Nodup
  sub : ∀ i ∈ b.there, i ∈ b.ever

theorem Proper.note {b : Book} (h : Proper b) (e : Ev) (hs : b.sensible e) : Proper (b.note e) := by
  cases e with
  | create i =>
    refine ⟨List.nodup_cons.2 ⟨fun hi => hs (h.sub i hi), h.nd⟩, fun j hj => ?_⟩
    rcases List.mem_cons.1 hj with rfl | hj
    · exact List.mem_cons_self
    · exact List.mem_cons_of_mem _ (h.sub j hj)
  | unlink i => exact ⟨h.nd.erase i, fun j hj => h.sub j (List.mem_of_mem_erase hj)⟩
  | _ => exact ⟨h.nd, h.sub⟩

/-- An entry that is gone stays gone. -/
theorem stays_gone (evs : List Ev) : ∀ (b : Book) (i : Nat), b.accepts evs → i ∈ b.ever → i ∉ b.there → i ∉ (b.notes evs).there := by
  induction evs with
  | nil => intro b i _ _ h; exact h
  | cons e evs ih =>
    intro b i ha he hn
    refine ih (b.note e) i ha.2 ?_ ?_
    · cases e with
      | create j => exact List.mem_cons_of_mem _ he
      | _ => exact he
    · cases e with
      | create j =>
        intro h
        rcases List.mem_cons.1 h with rfl | h
        · exact ha.1 he
        · exact hn h
      | unlink j => exact fun h => hn (List.mem_of_mem_erase h)
      | _ => exact hn

theorem unlinked_gone (evs : List Ev) : ∀ (b : Book) (i : Nat), Proper b → b.accepts evs → .unlink i ∈ evs → i ∉ (b.notes evs).there := by
  induction evs with
  | nil => intro b i _ _ h; cases h
  | cons e evs ih =>
    intro b i hp ha hu
    rcases List.mem_cons.1 hu with h | h
    · subst h
      have hi : i ∈ b.there := ha.1
      refine stays_gone evs (b.note (.unlink i)) i ha.2 (hp.sub i hi) ?_
      exact fun h => (hp.nd.mem_erase_iff.1 h).1 rfl
    · exact ih _ i (hp.note e ha.1) ha.2 h

theorem proper_notes (evs : List Ev) : ∀ b : Book, Proper b → b.accepts evs → Proper (b.notes evs) := by
  induction evs with
  | nil => intro b h _; exact h
  | cons e evs ih => intro b h ha; exact ih _ (h.note e ha.1) ha.2

/-- Lookups stay open unless they are completed or dropped. -/
theorem stays_open {t : Nat} (ht : t ∈ s.opens) (hn : s.nextId ∉ s.opens) (o : Op K V E) (h1 : ∀ t r, o ≠ .complete t r) (h2 : ∀ t, o ≠ .drop t) :
    t ∈ (step cfg env s o).1.opens := by
  have hne : t ≠ s.nextId := fun h => hn (h ▸ ht)
  have hra : ∀ (s' : St K V E) (k : K) (b : Beh V E), s'.opens = s.opens → s'.nextId = s.nextId → t ∈ (Hoard.resolveAsync cfg env s' k b).1.opens := by
    intro s' k b ho hx
    cases b with
    | later => simp [Hoard.resolveAsync, ho, ht]
    | now r => simp only [Hoard.resolveAsync, complete_opens]; rw [List.mem_erase_of_ne (by rw [hx]; exact hne)]; simp [ho, ht]
    | drop => simp only [Hoard.resolveAsync, drop_opens]; rw [List.mem_erase_of_ne (by rw [hx]; exact hne)]; simp [ho, ht]
  have hans : ∀ (s' : St K V E) (i u : Nat) (l : Look V E), (answer s' i u l).1.opens = s'.opens := by
    intro s' i u l; cases l <;> rfl
  cases o with
  | getIfExists k => exact ht
  | count => exact ht
  | get k r =>
    have : (get cfg env s k r).1.opens = s.opens := by
      simp only [get]
      split <;> simp [Hoard.resolveSync]
    show t ∈ (get cfg env s k r).1.opens
    rw [this]; exact ht
  | asyncGet k u b =>
    show t ∈ (asyncGet cfg env s k u b).1.opens
    simp only [asyncGet]
    split
    · rw [hans]; simpa using ht
    · simp only [hans]; exact hra _ k b (by simp) (by simp)
  | emplace k v f =>
    show t ∈ (emplace cfg env s k v f).1.opens
    simp only [emplace]; split <;> simpa using ht
  | getOrEmplace k v f =>
    show t ∈ (getOrEmplace cfg env s k v f).1.opens
    simp only [getOrEmplace]; split
    · simpa using ht
    · split <;> simpa using ht
    · simpa using ht
  | erase k => simpa [step, erase] using ht
  | clear => simpa [step] using ht
  | complete t r => exact absurd rfl (h1 t r)
  | drop t => exact absurd rfl (h2 t)
  | tick r b =>
    show t ∈ (tick cfg env s r b).1.opens
    simp only [tick]
    split
    · exact ht
    · split
      · exact ht
      · split
        · rename_i i q _ _ e _ _
          simp only [Hoard.refresh]
          split
          · exact ht
          · have h3 : t ∈ (if cfg.resolver = .async then Hoard.resolveAsync cfg env ({ s with delayQ := q } : St K V E) e.key b
                else Hoard.resolveSync cfg env ({ s with delayQ := q } : St K V E) e.key r).1.opens := by
              split
              · exact hra _ _ b rfl rfl
              · simpa [Hoard.resolveSync] using ht
            split
            · split
              · exact h3
              · simpa using h3
            · exact h3
        · exact ht
  | destroy => simpa [step, destroy] using ht

theorem quiet_unlinks (es : List (Entry K V E)) : (unlinks es).countP Ev.isLookup = 0 := by
  unfold unlinks; rw [List.countP_eq_zero]; intro e he
  obtain ⟨x, _, rfl⟩ := List.mem_map.1 he
  simp [Ev.isLookup]
theorem one_lookup (k : K) (incl : Bool) : (lookup cfg env s k incl).countP Ev.isLookup = 1 := by
  unfold lookup
  rw [List.countP_append, quiet_unlinks]
  simp only [List.countP_cons, List.countP_nil]
  split <;> rfl
theorem quiet_before (s : St K V E) : (before cfg env s).countP Ev.isLookup = 0 := by
  unfold before; split
  · exact quiet_unlinks _
  · rfl
theorem quiet_linked (s : St K V E) (e : Entry K V E) : (linked cfg env s e).countP Ev.isLookup = 0 := by
  unfold linked; rw [List.countP_append, quiet_before]; split <;> rfl
theorem quiet_tried (s : St K V E) (e : Entry K V E) (f : Fail) : (tried cfg env s e f).countP Ev.isLookup = 0 := by
  cases f with
  | none => exact quiet_linked s e
  | alloc => rfl
  | grow =>
    simp only [tried]; split
    · exact quiet_before s
    · exact quiet_linked s e
theorem quiet_completed (s : St K V E) (t : Nat) (r : Res V E) : (completed s t r).countP Ev.isLookup = 0 := by
  unfold completed; repeat' split
  all_goals rfl
theorem quiet_async (s : St K V E) (k : K) (b : Beh V E) : (resolveAsync cfg env s k b).countP Ev.isLookup = 0 := by
  unfold resolveAsync; simp only [List.countP_append, quiet_linked]
  cases b <;> simp [quiet_completed]

theorem quiet_not {evs : List Ev} (h : evs.countP Ev.isLookup = 0) : .miss ∉ evs := fun hm => (List.countP_eq_zero.1 h _ hm) rfl

theorem miss_lookup (k : K) (incl : Bool) :
    .miss ∈ lookup cfg env s k incl ↔ (getWalk cfg env k incl (s.bucket (s.bucketFor (cfg.hash k)))).hit.isNone = true := by
  unfold lookup
  simp only
  have := quiet_not (quiet_unlinks (getWalk cfg env k incl (s.bucket (s.bucketFor (cfg.hash k)))).removed)
  cases (getWalk cfg env k incl (s.bucket (s.bucketFor (cfg.hash k)))).hit <;> simp [this]

theorem hit_lookup (k : K) (incl : Bool) (h : (get_ cfg env s k incl).2 ≠ .none) : ∃ i, .hit i ∈ lookup cfg env s k incl := by
  have h2 : ¬ (getWalk cfg env k incl (s.bucket (s.bucketFor (cfg.hash k)))).hit.isNone = true := fun hn => h (hit_none_iff.1 hn)
  unfold lookup
  simp only
  cases hh : (getWalk cfg env k incl (s.bucket (s.bucketFor (cfg.hash k)))).hit with
  | none => simp [hh] at h2
  | some x => exact ⟨x.1, by simp⟩

theorem quiet_not_hit {evs : List Ev} {i : Nat} (h : evs.countP Ev.isLookup = 0) : .hit i ∉ evs := fun hm => (List.countP_eq_zero.1 h _ hm) rfl

theorem walk_hit {k : K} {incl : Bool} {i : Nat} {l : Look V E} : ∀ {es : List (Entry K V E)}, (getWalk cfg env k incl es).hit = some (i, l) →
    l ≠ .none ∧ ∃ e ∈ es, e.id = i ∧ cfg.eqv e.key k = true ∧ e.expired env = false ∧ e.mapped.get env incl = l := by
  intro es
  induction es with
  | nil => intro h; cases h
  | cons e es ih =>
    intro h
    have next : (getWalk cfg env k incl es).hit = some (i, l) →
        l ≠ .none ∧ ∃ x ∈ e :: es, x.id = i ∧ cfg.eqv x.key k = true ∧ x.expired env = false ∧ x.mapped.get env incl = l := by
      intro h
      obtain ⟨h0, x, hx, h1⟩ := ih h
      exact ⟨h0, x, List.mem_cons_of_mem _ hx, h1⟩
    simp only [getWalk] at h
    split at h
    · split at h <;> exact next h
    · split at h
      · split at h <;> exact next h
      · rename_i hx
        split at h
        · exact next h
        · rename_i hn
          simp only [Option.some.injEq, Prod.mk.injEq] at h
          obtain ⟨h1, h2⟩ := h
          unfold getIfMatching at h2 hn
          split at h2
          · rename_i he
            rw [if_pos he] at hn
            exact ⟨h2 ▸ hn, e, List.mem_cons_self, h1, he, by simpa using hx, h2⟩
          · rename_i he
            rw [if_neg he] at hn
            exact absurd rfl hn

theorem lookup_hit {k : K} {incl : Bool} {i : Nat} (h : .hit i ∈ lookup cfg env s k incl) :
    ∃ l, (getWalk cfg env k incl (s.bucket (s.bucketFor (cfg.hash k)))).hit = some (i, l) := by
  unfold lookup at h
  rcases List.mem_append.1 h with h | h
  · exact absurd h (quiet_not_hit (quiet_unlinks _))
  · rw [List.mem_singleton] at h
    split at h
    · cases h
    · rename_i j l hl; cases h; exact ⟨l, hl⟩

theorem get_val? {m : Mapped V E} {incl : Bool} {v : V} (h : m.get env incl = .val v) : m.val? = some v := by
  revert h
  cases m <;> simp only [Mapped.get, Mapped.val?] <;> repeat' split
  all_goals simp

end Hoard.Events

namespace Hoard.Props
open Spec Demo Events
variable {K V E : Type} {cfg : Cfg K}

/-- C113.  Whatever is done with a cache, the calls make sense to a policy: entries are created once, assigned at most once, hit, assigned and unlinked
only after their creation and before they are unlinked, and an assignment that does not come from a callback follows at once on the creation. -/
theorem C113_calls_make_sense (hc : cfg.Ok) (h : Hist K V E) (hok : HistOk cfg St.init h) : Book.accepts {} (trace cfg St.init h) :=
  (trace_knows hc h hok).1

/-- C113.  A policy that follows the calls knows the entries of the table: those created and not unlinked are exactly the entries that are there. -/
theorem C113_policy_knows_entries (hc : cfg.Ok) (h : Hist K V E) (hok : HistOk cfg St.init h) :
    (Book.notes {} (trace cfg St.init h)).there.Perm ((stateAfter cfg h).ents.map (·.id)) := (trace_knows hc h hok).2.there

/-- C113.  It was told of every value: for an entry with a value it was told that it got one, and never that it got none. -/
theorem C113_values_are_announced (hc : cfg.Ok) (h : Hist K V E) (hok : HistOk cfg St.init h) (e : Entry K V E) (he : e ∈ (stateAfter cfg h).ents) (v : V)
    (hv : e.mapped.val? = some v) : Announced (trace cfg St.init h) e.id :=
  announced (once_of_accepts _ _ (trace_knows hc h hok).1) (((trace_knows hc h hok).2.val e he (by rw [hv]; rfl)).resolve_left id)

/-- C113.  The flags of an assignment are right: it is reported only by operations that bring a result, the first flag says whether that is a value, the second whether
it comes through a callback object. -/
theorem C113_flags_tell_the_result (cfg : Cfg K) (env : Env V) (s : St K V E) (o : Op K V E) (i : Nat) (value callback : Bool)
    (h : .assign i value callback ∈ events cfg env s o) : ∃ x, brings (decide (cfg.resolver = .async)) o = some x ∧ Fits value callback x :=
  said_events o i value callback h

/-- A lookup that fails, and one that does not. -/
example : let h : Hist Nat Nat Nat := [(at_ 0, .asyncGet 1 10 .later), (at_ 0, .asyncGet 2 11 .later), (at_ 1, .complete 0 (.err 5)), (at_ 2, .complete 1 (.ok 20))]
    HistOk asyncC St.init h ∧ trace asyncC St.init h = [.miss, .create 0, .miss, .create 1, .assign 0 false true, .assign 1 true true] ∧
    ((stateAfter asyncC h).ents.filter (fun e => e.mapped.val?.isSome)).map (·.id) = [1] := by decide +kernel

/-- C113.  Once the cache is destroyed, every entry that was ever created was unlinked. -/
theorem C113_all_unlinked_at_the_end (hc : cfg.Ok) (h : Hist K V E) (hok : HistOk cfg St.init h) (hd : (stateAfter cfg h).destroyed = true) (i : Nat)
    (hi : .create i ∈ trace cfg St.init h) : .unlink i ∈ trace cfg St.init h := by
  have h1 := C113_policy_knows_entries hc h hok
  rcases created_there _ {} i (.inl hi) with h2 | h2
  · have := h1.mem_iff.1 h2
    rw [(good_any hc h hok ⟨⟨0, 0⟩, fun _ => true⟩).wf2.opD hd] at this
    cases this
  · exact h2

/-- C113.  A lookup in flight is never unlinked, except by the destructor.  Missing: the destructor (see `C113_destructor_unlinks_pending`). -/
theorem C113_pending_is_not_unlinked_partial (hc : cfg.Ok) (h : Hist K V E) (hok : HistOk cfg St.init h) (env : Env V) (o : Op K V E) (hs : o.ok cfg (stateAfter cfg h))
    (ho : o ≠ .destroy) (i : Nat) (hi : i ∈ (stateAfter cfg h).opens) : .unlink i ∉ events cfg env (stateAfter cfg h) o := by
  intro hu
  have hok' : HistOk cfg St.init (h ++ [(env, o)]) := HistOk_append.2 ⟨hok, hs, trivial⟩
  obtain ⟨ha, hk⟩ := trace_knows hc _ hok'
  have hpr := (trace_knows hc h hok).1
  rw [trace_append, accepts_append] at ha
  rw [trace_append, notes_append] at hk
  simp only [trace, List.append_nil] at ha hk
  have hgone := unlinked_gone _ _ i (proper_notes _ {} ⟨List.nodup_nil, fun _ h => h⟩ hpr) ha.2 hu
  have hno1 : ∀ t r, o ≠ .complete t r := by
    rintro t r rfl
    revert hu
    simp only [events, Events.completed]
    repeat' split
    all_goals simp
  have hno2 : ∀ t, o ≠ .drop t := by rintro t rfl; simp [events] at hu
  have hd : (stateAfter cfg h).destroyed = false := by
    cases o <;> first | exact hs | exact hs.2 | exact hs.2.2 | exact absurd rfl (hno1 _ _) | exact absurd rfl (hno2 _)
  have g := good_any hc h hok env
  have hopen := stays_open (cfg := cfg) (env := env) hi (next_not_open g.wf1 g.wf2 hd) o hno1 hno2
  have g' := good_any hc _ hok' env
  have hd' : (stateAfter cfg (h ++ [(env, o)])).destroyed = false := by
    rw [stateAfter_snoc, step_destroyed cfg env _ o ho]; exact hd
  rw [← stateAfter_snoc] at hopen
  obtain ⟨e, he, hid, _⟩ := g'.wf2.opE hd' i hopen
  exact hgone (hk.there.mem_iff.2 (List.mem_map.2 ⟨e, he, hid⟩))

/-- C113.  The destructor does: a policy is told that an entry is unlinked which was never assigned. -/
theorem C113_destructor_unlinks_pending : ∃ h : Hist Nat Nat Nat, HistOk asyncC St.init h ∧ (stateAfter asyncC h).opens = [0] ∧
    trace asyncC St.init (h ++ [(at_ 1, .destroy)]) = [.miss, .create 0, .unlink 0] :=
  ⟨[(at_ 0, .asyncGet 1 10 .later)], by decide +kernel, by decide +kernel, by decide +kernel⟩

/-- C113.  `get` and `get_or_emplace` report exactly one lookup each, all other operations none: in particular `get_if_exists` and `count` are silent. -/
theorem C113_one_report_per_lookup (cfg : Cfg K) (env : Env V) (s : St K V E) (o : Op K V E) :
    (events cfg env s o).countP Ev.isLookup =
      match o with
      | .get _ _ | .asyncGet _ _ _ | .getOrEmplace _ _ _ => 1
      | _ => 0 := by
  have hu := fun es : List (Entry K V E) => quiet_unlinks es
  have hl := fun k incl => one_lookup (cfg := cfg) (env := env) (s := s) k incl
  have hk := fun (s : St K V E) e => quiet_linked (cfg := cfg) (env := env) s e
  have ht := fun (s : St K V E) e f => quiet_tried (cfg := cfg) (env := env) s e f
  have hco := fun (s : St K V E) t (r : Res V E) => quiet_completed s t r
  have hra := fun (s : St K V E) k b => quiet_async (cfg := cfg) (env := env) s k b
  cases o with
  | get k r =>
    simp only [events, List.countP_append, hl]; split
    · simp [Events.resolveSync, hk]
    · rfl
  | asyncGet k u b =>
    simp only [events, List.countP_append, hl]; split
    · rw [hra]
    · rfl
  | emplace k v f => simp [events, Events.expire, List.countP_append, hu, ht]
  | getOrEmplace k v f =>
    simp only [events, List.countP_append, hl]; split
    · rw [ht]
    · rfl
  | erase k => exact hu _
  | clear => exact hu _
  | destroy => exact hu _
  | complete t r => exact hco s t r
  | tick r b =>
    simp only [events]
    split
    · rfl
    · split
      · rfl
      · split
        · unfold Events.refresh
          split
          · rfl
          · split
            · exact hra _ _ _
            · exact hk _ _
        · rfl
  | _ => rfl

/-- C113.  A resolver is called exactly when a miss is reported. -/
theorem C113_miss_calls_the_resolver (cfg : Cfg K) (env : Env V) (s : St K V E) (k : K) (r : Res V E) (u : Nat) (b : Beh V E) :
    (cfg.resolver = .sync → (.miss ∈ events cfg env s (.get k r) ↔ (step cfg env s (.get k r)).2.calls ≠ [])) ∧
    (.miss ∈ events cfg env s (.asyncGet k u b) ↔ (step cfg env s (.asyncGet k u b)).2.calls ≠ []) := by
  constructor
  · intro hr
    have h1 : .miss ∈ events cfg env s (.get k r) ↔ (getWalk cfg env k false (s.bucket (s.bucketFor (cfg.hash k)))).hit.isNone = true := by
      simp only [events]
      rw [List.mem_append, miss_lookup]
      constructor
      · rintro (h | h)
        · exact h
        · split at h
          · exact absurd h (quiet_not (quiet_linked _ _))
          · cases h
      · exact .inl
    rw [h1, hit_none_iff]
    show _ ↔ (get cfg env s k r).2.calls ≠ []
    simp only [get]
    rw [hr]
    cases (get_ cfg env s k false).2 <;> simp
  · have h1 : .miss ∈ events cfg env s (.asyncGet k u b) ↔ (getWalk cfg env k true (s.bucket (s.bucketFor (cfg.hash k)))).hit.isNone = true := by
      simp only [events]
      rw [List.mem_append, miss_lookup]
      constructor
      · rintro (h | h)
        · exact h
        · split at h
          · exact absurd h (quiet_not (quiet_async _ _ _))
          · cases h
      · exact .inl
    rw [h1]
    show _ ↔ (asyncGet cfg env s k u b).2.calls ≠ []
    simp only [asyncGet]
    cases (getWalk cfg env k true (s.bucket (s.bucketFor (cfg.hash k)))).hit with
    | none => simp
    | some x =>
      obtain ⟨i, l⟩ := x
      cases l <;> simp [answer]

/-- C113.  Without a resolver, `get` answers a reported miss with nothing, and a value only after reporting a hit. -/
theorem C113_get_reports_its_answer (cfg : Cfg K) (hr : cfg.resolver = .none) (env : Env V) (s : St K V E) (k : K) (r : Res V E) :
    (.miss ∈ events cfg env s (.get k r) → (step cfg env s (.get k r)).2.ret = .miss) ∧
    (∀ v, (step cfg env s (.get k r)).2.ret = .val v → ∃ i, .hit i ∈ events cfg env s (.get k r)) := by
  have he : events cfg env s (.get k r) = lookup cfg env s k false := by simp [events, hr]
  rw [he]
  constructor
  · intro h
    have := hit_none_iff.1 ((miss_lookup k false).1 h)
    show (get cfg env s k r).2.ret = .miss
    simp only [get]
    rw [this, hr]
  · intro v h
    refine hit_lookup k false (fun hn => ?_)
    revert h
    show (get cfg env s k r).2.ret = .val v → False
    simp only [get]
    rw [hn, hr]
    simp

/-- C113.  A hit names the entry that was found: it is in the cache, has the key, is not expired, and the value returned, or given to the caller's callback, is its value. -/
theorem C113_hit_names_the_entry (cfg : Cfg K) (env : Env V) (s : St K V E) (k : K) (o : Op K V E) (ho : (∃ r, o = .get k r) ∨ (∃ w b, o = .asyncGet k w b) ∨ ∃ v f, o = .getOrEmplace k v f)
    (i : Nat) (h : .hit i ∈ events cfg env s o) :
    ∃ e ∈ s.ents, e.id = i ∧ cfg.eqv e.key k = true ∧ e.expired env = false ∧
      ∀ v, ((step cfg env s o).2.ret = .val v ∨ ∃ w, (w, .ok v) ∈ (step cfg env s o).2.fired) → e.mapped.val? = some v := by
  rcases ho with ⟨r, rfl⟩ | ⟨w, b, rfl⟩ | ⟨v, f, rfl⟩
  · have hl : .hit i ∈ lookup cfg env s k false := by
      rcases List.mem_append.1 h with h | h
      · exact h
      · split at h
        · exact absurd h (quiet_not_hit (quiet_linked _ _))
        · cases h
    obtain ⟨l, hw⟩ := lookup_hit hl
    obtain ⟨hn, e, he, h1, h2, h3, h4⟩ := walk_hit hw
    refine ⟨e, mem_ents_of_bucket he, h1, h2, h3, ?_⟩
    intro v hv
    refine get_val? (env := env) (incl := false) ?_
    rw [h4]
    have hg : (get_ cfg env s k false).2 = l := by simp only [get_, hw]
    have hv : (get cfg env s k r).2.ret = .val v ∨ ∃ w, (w, .ok v) ∈ (get cfg env s k r).2.fired := hv
    simp only [get] at hv
    rw [hg] at hv
    cases hr : cfg.resolver <;> cases l <;> simp_all [syncRet]
  · have hl : .hit i ∈ lookup cfg env s k true := by
      rcases List.mem_append.1 h with h | h
      · exact h
      · split at h
        · exact absurd h (quiet_not_hit (quiet_async _ _ _))
        · cases h
    obtain ⟨l, hw⟩ := lookup_hit hl
    obtain ⟨hn, e, he, h1, h2, h3, h4⟩ := walk_hit hw
    refine ⟨e, mem_ents_of_bucket he, h1, h2, h3, ?_⟩
    intro v hv
    refine get_val? (env := env) (incl := true) ?_
    rw [h4]
    have hv : (asyncGet cfg env s k w b).2.ret = .val v ∨ ∃ u, (u, .ok v) ∈ (asyncGet cfg env s k w b).2.fired := hv
    simp only [asyncGet, hw] at hv
    cases l <;> simp_all [answer]
  · have hl : .hit i ∈ lookup cfg env s k true := by
      rcases List.mem_append.1 h with h | h
      · exact h
      · split at h
        · exact absurd h (quiet_not_hit (quiet_tried _ _ _))
        · cases h
    obtain ⟨l, hw⟩ := lookup_hit hl
    obtain ⟨hn, e, he, h1, h2, h3, h4⟩ := walk_hit hw
    refine ⟨e, mem_ents_of_bucket he, h1, h2, h3, ?_⟩
    intro v' hv
    refine get_val? (env := env) (incl := true) ?_
    rw [h4]
    have hg : (get_ cfg env s k true).2 = l := by simp only [get_, hw]
    have hv : (getOrEmplace cfg env s k v f).2.ret = .val v' ∨ ∃ w, (w, .ok v') ∈ (getOrEmplace cfg env s k v f).2.fired := hv
    simp only [getOrEmplace] at hv
    rw [hg] at hv
    cases l <;> simp_all

/-- A hit among entries of the same hash code. -/
example : let h : Hist Nat Nat Nat := [(at_ 0, .emplace 1 10 .none), (at_ 0, .emplace 5 50 .none)]
    HistOk plain St.init h ∧ events plain (at_ 1) (stateAfter plain h) (.get 1 (.err 0)) = [.hit 0] ∧
    (step plain (at_ 1) (stateAfter plain h) (.get 1 (.err 0))).2.ret = .val 10 := by decide +kernel

/-- C113.  The recency queue by which `max_size_policy` chooses what to evict is what it makes of these calls, in this order, and of nothing else. -/
theorem C113_recency_queue_follows_the_calls (cfg : Cfg K) (hm : cfg.maxSize.isSome = true) (h : Hist K V E) :
    (stateAfter cfg h).bq = recency {} (trace cfg St.init h) := by
  induction h using snoc_ind with
  | h0 => rfl
  | h1 h p ih =>
    obtain ⟨env, o⟩ := p
    rw [stateAfter_snoc, (step_fol o).bq hm, Events.popped_bq, ih, trace_append, recency_append]
    simp only [trace, List.append_nil]
    rfl

/-- C113.  The queue by which the refresh policy chooses what to refresh follows these calls too; its worker takes the first entry off when that is due. -/
theorem C113_refresh_queue_follows_the_calls (cfg : Cfg K) (hr : cfg.refresh.isSome = true) (env : Env V) (s : St K V E) (o : Op K V E) :
    (step cfg env s o).1.delayQ = dues (Events.popped env s o).delayQ (events cfg env s o) := (step_fol o).dq hr

/-- A cache that is filled, asked and destroyed. -/
example :
    let h : Hist Nat Nat Nat := [(at_ 0, .emplace 1 7 .none), (at_ 0, .get 1 (.ok 0)), (at_ 0, .get 2 (.ok 0)), (at_ 1, .getIfExists 1), (at_ 1, .emplace 1 8 .none),
      (at_ 1, .emplace 2 9 .none), (at_ 1, .destroy)]
    HistOk plain St.init h ∧ (stateAfter plain h).destroyed = true ∧
    trace plain St.init h = [.create 0, .assign 0 true false, .hit 0, .miss, .unlink 0, .create 1, .assign 1 true false, .create 2, .assign 2 true false,
      .unlink 1, .unlink 2] := by decide +kernel

/-- A lookup in flight is erased (and stays linked), completed, and then removed by the next lookup. -/
example :
    let h : Hist Nat Nat Nat := [(at_ 0, .asyncGet 1 10 .later), (at_ 0, .asyncGet 1 11 .later), (at_ 0, .erase 1), (at_ 1, .complete 0 (.ok 5)),
      (at_ 1, .asyncGet 1 12 (.now (.ok 6)))]
    HistOk asyncC St.init h ∧ (stateAfter asyncC (h.take 3)).opens = [0] ∧ (stateAfter asyncC h).ents.map (fun e => (e.id, e.mapped.val?)) = [(1, some 6)] ∧
    trace asyncC St.init h = [.miss, .create 0, .hit 0, .assign 0 true true, .unlink 0, .miss, .create 1, .assign 1 true true] := by decide +kernel

/-- Four entries come into a cache with room for two.  One that was marked to be evicted leaves the recency queue when its key is looked up. -/
example :
    let c : Cfg Nat := { plain with maxSize := some 2 }
    let h : Hist Nat Nat Nat := [(at_ 0, .emplace 1 1 .none), (at_ 0, .emplace 2 2 .none), (at_ 0, .get 1 (.ok 0)), (at_ 0, .emplace 3 3 .none), (at_ 1, .emplace 4 4 .none),
      (at_ 1, .get 2 (.ok 0))]
    HistOk c St.init h ∧ trace c St.init h = [.create 0, .assign 0 true false, .create 1, .assign 1 true false, .hit 0, .create 2, .assign 2 true false, .create 3,
      .assign 3 true false, .unlink 1, .miss] ∧ (stateAfter c h).bq.q = [0, 2, 3] := by decide +kernel

/-- The refresh worker takes the first entry off its queue; the entry that replaces it goes to the end. -/
example :
    let c : Cfg Nat := { plain with resolver := .sync, refresh := some (3, 9) }
    let h : Hist Nat Nat Nat := [(at_ 0, .get 1 (.ok 1)), (at_ 1, .get 2 (.ok 2))]
    let s := stateAfter c h
    HistOk c St.init h ∧ s.delayQ = [0, 1] ∧ (Events.popped (at_ 5) s (.tick (.ok 3) .later)).delayQ = [1] ∧
    events c (at_ 5) s (.tick (.ok 3) .later) = [.create 2, .assign 2 true false] ∧ (step c (at_ 5) s (.tick (.ok 3) .later)).1.delayQ = [1, 2] := by decide +kernel

/-- A reported miss with a synchronous resolver, which is called; a hit, which does not. -/
example :
    let c : Cfg Nat := { plain with resolver := .sync }
    let s : St Nat Nat Nat := stateAfter c [(at_ 0, .get 1 (.ok 4))]
    events c (at_ 1) s (.get 1 (.ok 5)) = [.hit 0] ∧ (step c (at_ 1) s (.get 1 (.ok 5))).2.calls = [] ∧
    events c (at_ 1) s (.get 2 (.err 5)) = [.miss, .create 1, .assign 1 false false] ∧ (step c (at_ 1) s (.get 2 (.err 5))).2.calls = [(2, 1)] := by decide +kernel

end Hoard.Props
