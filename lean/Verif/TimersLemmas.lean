import Verif.LifeLemmas
import Verif.AnswerLemmas
import Verif.Spec.Timers
/-! Helper lemmas about refreshing by timers. -/
namespace Hoard.Timers
open Spec
variable {K V E : Type} {cfg : Cfg K} {env : Env V}

/-! ### Histories, one step at the end -/

theorem runT_snoc (t : TSt K V E) (h : THist K V E) (env : Env V) (e : Ev K V E) :
    runT cfg t (h ++ [(env, e)]) = ((next cfg env (runT cfg t h).1 e).1, (runT cfg t h).2 ++ [(next cfg env (runT cfg t h).1 e).2]) := by
  induction h generalizing t with
  | nil => rfl
  | cons p h ih => obtain ⟨env', e'⟩ := p; simp only [List.cons_append, runT, ih]

theorem stateT_snoc (h : THist K V E) (env : Env V) (e : Ev K V E) : stateT cfg (h ++ [(env, e)]) = (next cfg env (stateT cfg h) e).1 := by
  unfold stateT; rw [runT_snoc]

theorem TOk_snoc (t : TSt K V E) (h : THist K V E) (env : Env V) (e : Ev K V E) :
    TOk cfg t (h ++ [(env, e)]) ↔ TOk cfg t h ∧ e.ok cfg env (runT cfg t h).1 := by
  induction h generalizing t with
  | nil => simp [TOk, runT]
  | cons p h ih => obtain ⟨env', e'⟩ := p; simp only [List.cons_append, TOk, runT, ih, and_assoc]

theorem AllInTime_snoc (t : TSt K V E) (h : THist K V E) (env : Env V) (e : Ev K V E) :
    AllInTime cfg t (h ++ [(env, e)]) ↔ AllInTime cfg t h ∧ InTime cfg env (runT cfg t h).1 e := by
  induction h generalizing t with
  | nil => simp [AllInTime, runT]
  | cons p h ih => obtain ⟨env', e'⟩ := p; simp only [List.cons_append, AllInTime, runT, ih, and_assoc]

theorem runT_len (t : TSt K V E) (h : THist K V E) : (runT cfg t h).2.length = h.length := by
  induction h generalizing t with
  | nil => rfl
  | cons p h ih => obtain ⟨env', e'⟩ := p; simp [runT, ih]

theorem ledgerT_snoc (eqv : K → K → Bool) (kind : Kind) : ∀ (h : THist K V E) (os : List (Out K V E)) (L : Ledger K V) (env : Env V) (e : Ev K V E) (o : Out K V E),
    os.length = h.length → ledgerT eqv kind L (h ++ [(env, e)]) (os ++ [o]) = after eqv kind env.now (ledgerT eqv kind L h os) e o
  | [], [], _, _, _, _, _ => rfl
  | (_, _) :: h, _ :: os, L, env, e, o, hl => by
    simp only [List.cons_append, ledgerT]
    exact ledgerT_snoc eqv kind h os _ env e o (by simpa using hl)
  | [], _ :: _, _, _, _, _, hl => by simp at hl
  | _ :: _, [], _, _, _, _, hl => by simp at hl

theorem ledgerAfterT_snoc (h : THist K V E) (env : Env V) (e : Ev K V E) :
    ledgerAfterT cfg (h ++ [(env, e)]) = after cfg.eqv cfg.resolver env.now (ledgerAfterT cfg h) e (outT cfg h env e) := by
  unfold ledgerAfterT
  rw [runT_snoc, ledgerT_snoc _ _ _ _ _ _ _ _ (runT_len _ _)]
  rfl

/-! ### What holds whatever the schedule -/

theorem find_any {s : St K V E} {i : Nat} {e : Entry K V E} (h : s.findAny i = some e) : e.id = i := by
  unfold St.findAny at h
  simpa using List.find?_some h

theorem find_any_linked {s : St K V E} {i : Nat} {e : Entry K V E} (h : s.findAny i = some e) : e ∈ s.ents ∨ ∀ x ∈ s.ents, x.id ≠ i := by
  unfold St.findAny at h
  rw [List.find?_append] at h
  cases hf : s.ents.find? (fun e => e.id == i) with
  | some x =>
    rw [hf] at h; simp at h; subst h
    exact .inl (List.mem_of_find?_eq_some hf)
  | none =>
    rw [List.find?_eq_none] at hf
    exact .inr fun x hx => by simpa using hf x hx

/-- What a refresh calls the resolver for. -/
theorem refresh_calls (s : St K V E) (e : Entry K V E) (r : Res V E) (b : Beh V E) :
    ((refresh cfg env s e r b).2.calls = [] ∧ (refresh cfg env s e r b).1 = s ∧ (refresh cfg env s e r b).2 = {}) ∨
    (refresh cfg env s e r b).2.calls = [(e.key, s.nextId)] := by
  by_cases hx : (e.refreshing || e.expired env) = true
  · left; unfold refresh; rw [if_pos hx]; exact ⟨rfl, rfl, rfl⟩
  · right
    unfold refresh; rw [if_neg hx]
    simp only
    have ht : (if cfg.resolver = .async then resolveAsync cfg env s e.key b else resolveSync cfg env s e.key r).2 = s.nextId := by
      split
      · cases b <;> rfl
      · rfl
    rw [ht]
    repeat' split
    all_goals rfl

/-- What the step can store. -/
def nextP (cfg : Cfg K) (env : Env V) (t : TSt K V E) (e : Ev K V E) (i : Nat) (k : K) (v : V) : Prop :=
  match e with
  | .op o => stepP t.s (step cfg env t.s o).2 o i k v
  | .expire _ => False
  | .handler _ r b => i = t.s.nextId ∧ (∃ a, (next cfg env t e).2.calls = [(a, i)]) ∧ (cfg.resolver ≠ .async ∧ r = .ok v ∨ cfg.resolver = .async ∧ b = .now (.ok v))

/-- The entry it can add. -/
def nextQ (cfg : Cfg K) (env : Env V) (t : TSt K V E) (e : Ev K V E) (i : Nat) (k : K) : Prop :=
  match e with
  | .op o => stepQ t.s (step cfg env t.s o).2 o i k
  | .expire _ => False
  | .handler _ _ _ => i = t.s.nextId ∧ (next cfg env t e).2.calls = [(k, i)]

theorem next_life (hc : cfg.Ok) (t : TSt K V E) (e : Ev K V E) (he : e.ok cfg env t) :
    Life (nextP cfg env t e) (nextQ cfg env t e) t.s (next cfg env t e).1.s := by
  cases e with
  | op o => exact step_life hc o he.2
  | expire i =>
    refine .plain rfl rfl (fun j hj => (List.mem_filter.1 hj).1) fun e he => ⟨e, he, Life.turns_refl e⟩
  | handler i r b =>
    by_cases hd : t.s.destroyed = true
    · have : (next cfg env t (.handler i r b)).1.s = t.s := by simp [next, hd]
      rw [this]; exact .refl _
    · cases hf : t.s.findAny i with
      | none =>
        have : (next cfg env t (.handler i r b)).1.s = t.s := by simp [next, hd, hf]
        rw [this]; exact .refl _
      | some e =>
        have h1 : next cfg env t (.handler i r b) = ({ s := (refresh cfg env t.s e r b).1, queue := t.queue.erase i }, (refresh cfg env t.s e r b).2) := by
          simp [next, hd, hf]
        have h2 : (next cfg env t (.handler i r b)).1.s = (refresh cfg env t.s e r b).1 := by rw [h1]
        rw [h2]
        refine refresh_life (fun hq => ⟨rfl, ?_⟩) (fun v hq hv k => ⟨rfl, ⟨e.key, ?_⟩, hv⟩)
        · rw [h1]; exact hq
        · rw [h1]; exact hq

/-- The timers and handlers belong to entries whose lookup has ended, and there is at most one of them for each. -/
structure TInv (t : TSt K V E) : Prop where
  neat : Neat t.s
  ids : ∀ e ∈ t.s.ents, e.id < t.s.nextId
  nd : t.queue.Nodup
  q : ∀ i ∈ t.queue, i < t.s.nextId ∧ i ∉ t.s.opens ∧ i ∉ t.s.delayQ
  dq : ∀ i ∈ t.s.delayQ, i < t.s.nextId ∧ i ∉ t.s.opens

/-- An entry that is settled and without a timer stays so. -/
theorem idle_keeps {P Q} {s s' : St K V E} (h : Life P Q s s') (hn : Neat s) {i : Nat} (hi : i < s.nextId ∧ i ∉ s.opens ∧ i ∉ s.delayQ) :
    i < s'.nextId ∧ i ∉ s'.opens ∧ i ∉ s'.delayQ := by
  refine ⟨Nat.lt_of_lt_of_le hi.1 h.next, fun hh => ?_, fun hh => ?_⟩
  · rcases h.opn i hh with h1 | h1
    · exact hi.2.1 h1
    · omega
  · rcases h.dq hn i hh with h1 | ⟨h1 | h1, _⟩
    · exact hi.2.2 h1
    · omega
    · exact hi.2.1 h1

theorem TInv.next (hc : cfg.Ok) {t : TSt K V E} (h : TInv t) (e : Ev K V E) (he : e.ok cfg env t) : TInv (next cfg env t e).1 := by
  have l := next_life (env := env) hc t e he
  have hids : ∀ x ∈ (Timers.next cfg env t e).1.s.ents, x.id < (Timers.next cfg env t e).1.s.nextId := by
    intro x hx
    rcases l.bwd x hx with ⟨x0, h0, tn⟩ | ⟨_, h1, _⟩
    · rw [tn.id]; exact Nat.lt_of_lt_of_le (h.ids x0 h0) l.next
    · exact h1
  have hdq : ∀ i ∈ (Timers.next cfg env t e).1.s.delayQ, i < (Timers.next cfg env t e).1.s.nextId ∧ i ∉ (Timers.next cfg env t e).1.s.opens := by
    intro i hi
    rcases l.dq h.neat i hi with h1 | ⟨_, h2⟩
    · obtain ⟨h3, h4⟩ := h.dq i h1
      refine ⟨Nat.lt_of_lt_of_le h3 l.next, fun hh => ?_⟩
      rcases l.opn i hh with h5 | h5
      · exact h4 h5
      · omega
    · exact h2
  refine ⟨l.neat h.neat, hids, ?_, ?_, hdq⟩
  · cases e with
    | op o => exact h.nd
    | expire i =>
      refine List.nodup_append.2 ⟨h.nd, by simp, ?_⟩
      intro a ha b hb
      simp at hb; subst hb
      rintro rfl
      exact (h.q _ ha).2.2 he.1
    | handler i r b =>
      have : (Timers.next cfg env t (.handler i r b)).1.queue = t.queue.erase i := by
        simp only [Timers.next]; split
        · rfl
        · split <;> rfl
      rw [this]; exact h.nd.erase _
  · cases e with
    | op o => exact fun i hi => idle_keeps l h.neat (h.q i hi)
    | expire i =>
      intro j hj
      rcases List.mem_append.1 hj with h1 | h1
      · exact idle_keeps l h.neat (h.q j h1)
      · simp at h1; subst h1
        obtain ⟨h2, h3⟩ := h.dq j he.1
        exact ⟨h2, h3, by simp [Timers.next]⟩
    | handler i r b =>
      have : (Timers.next cfg env t (.handler i r b)).1.queue = t.queue.erase i := by
        simp only [Timers.next]; split
        · rfl
        · split <;> rfl
      rw [this]
      exact fun j hj => idle_keeps l h.neat (h.q j (List.mem_of_mem_erase hj))

theorem tinv_init : TInv ({} : TSt K V E) :=
  ⟨⟨List.nodup_nil, by simp⟩, by simp [St.ents], List.nodup_nil, by simp, by simp⟩

theorem tinv (hc : cfg.Ok) (h : THist K V E) (hok : TOk cfg {} h) : TInv (stateT cfg h) := by
  induction h using snoc_ind with
  | h0 => exact tinv_init
  | h1 h a ih =>
    obtain ⟨env, e⟩ := a
    rw [TOk_snoc] at hok
    rw [stateT_snoc]
    exact (ih hok.1).next hc e hok.2

/-- Handlers are called once. -/
theorem handled_once (hc : cfg.Ok) (h : THist K V E) (hok : TOk cfg {} h) (i : Nat) :
    h.countP (fun p => p.2.handles i) ≤ 1 ∧
    (0 < h.countP (fun p => p.2.handles i) → i ∉ (stateT cfg h).queue ∧
      i < (stateT cfg h).s.nextId ∧ i ∉ (stateT cfg h).s.opens ∧ i ∉ (stateT cfg h).s.delayQ) := by
  induction h using snoc_ind with
  | h0 => simp
  | h1 h a ih =>
    obtain ⟨env, e⟩ := a
    have ti := tinv hc _ hok
    rw [TOk_snoc] at hok
    obtain ⟨ih1, ih2⟩ := ih hok.1
    have t0 := tinv hc h hok.1
    have l := next_life (env := env) hc (stateT cfg h) e hok.2
    rw [List.countP_append]
    rw [stateT_snoc]
    by_cases hh : e.handles i = true
    · have hcnt : List.countP (fun p : Env V × Ev K V E => p.2.handles i) [(env, e)] = 1 := by simp [List.countP_cons, hh]
      cases e with
      | op o => cases hh
      | expire j => cases hh
      | handler j r b =>
        have hj : j = i := by simpa [Ev.handles] using hh
        subst hj
        have hq : j ∈ (stateT cfg h).queue := hok.2.1
        have h0 : h.countP (fun p => p.2.handles j) = 0 := by
          cases hz : h.countP (fun p => p.2.handles j) with
          | zero => rfl
          | succ n => exact absurd hq (ih2 (by omega)).1
        refine ⟨by omega, fun _ => ⟨?_, idle_keeps l t0.neat (t0.q j hq)⟩⟩
        have : (next cfg env (stateT cfg h) (.handler j r b)).1.queue = (stateT cfg h).queue.erase j := by
          simp only [next]; split
          · rfl
          · split <;> rfl
        rw [this]
        intro hm
        exact ((List.Nodup.mem_erase_iff t0.nd).1 hm).1 rfl
    · have hcnt : List.countP (fun p : Env V × Ev K V E => p.2.handles i) [(env, e)] = 0 := by simp [List.countP_cons, hh]
      rw [hcnt]
      refine ⟨by omega, fun hp => ?_⟩
      obtain ⟨h1, h2⟩ := ih2 (by omega)
      refine ⟨?_, idle_keeps l t0.neat h2⟩
      cases e with
      | op o => exact h1
      | expire j =>
        intro hm
        rcases List.mem_append.1 hm with h3 | h3
        · exact h1 h3
        · simp at h3; subst h3; exact h2.2.2 hok.2.1
      | handler j r b =>
        have : (next cfg env (stateT cfg h) (.handler j r b)).1.queue = (stateT cfg h).queue.erase j := by
          simp only [next]; split
          · rfl
          · split <;> rfl
        rw [this]
        exact fun hm => h1 (List.mem_of_mem_erase hm)

/-! ### Where values come from -/

theorem ProvidedT.snoc {h : THist K V E} {k : K} {v : V} (hp : ProvidedT cfg h k v) (p : Env V × Ev K V E) : ProvidedT cfg (h ++ [p]) k v := by
  obtain ⟨h1, env, e, h2, rfl, hh⟩ := hp
  exact ⟨h1, env, e, h2 ++ [p], by simp, hh⟩

theorem StartedT.snoc {h : THist K V E} {k : K} {i : Nat} (hp : StartedT cfg h k i) (p : Env V × Ev K V E) : StartedT cfg (h ++ [p]) k i := by
  obtain ⟨h1, env, e, h2, a, rfl, hh⟩ := hp
  exact ⟨h1, env, e, h2 ++ [p], a, by simp, hh⟩

/-- The stored values were provided for their keys, and the open lookups were started for theirs. -/
structure Held (cfg : Cfg K) (h : THist K V E) : Prop where
  val : ∀ e ∈ (stateT cfg h).s.ents, ∀ v, e.mapped.val? = some v → ProvidedT cfg h e.key v
  tok : ∀ e ∈ (stateT cfg h).s.ents, e.id ∈ (stateT cfg h).s.opens → StartedT cfg h e.key e.id

theorem step_opens_same {s : St K V E} {o : Op K V E} (h : ∀ k w b, o ≠ .asyncGet k w b) (ht : ∀ r b, o ≠ .tick r b) :
    ∀ i ∈ (step cfg env s o).1.opens, i ∈ s.opens := by
  intro i hi
  cases o with
  | getIfExists k => exact hi
  | count => exact hi
  | get k r =>
    simp only [step, get] at hi
    split at hi <;> simpa [resolveSync] using hi
  | asyncGet k w b => exact absurd rfl (h k w b)
  | emplace k v f =>
    simp only [step, emplace] at hi
    split at hi <;> simpa using hi
  | getOrEmplace k v f =>
    simp only [step, getOrEmplace] at hi
    split at hi
    · simpa using hi
    · split at hi <;> simpa using hi
    · simpa using hi
  | erase k => simpa [step, erase] using hi
  | clear => simpa [step] using hi
  | complete tok r => simp only [step] at hi; rw [complete_opens] at hi; exact List.mem_of_mem_erase hi
  | drop tok => simp only [step] at hi; rw [drop_opens] at hi; exact List.mem_of_mem_erase hi
  | tick r b => exact absurd rfl (ht r b)
  | destroy => exact (dispose_fields cfg s.ents { s with tbl := s.tbl.map (fun _ => []) }).2.2.2.1 ▸ hi

/-- What a new value of an entry means: the step provided it. -/
theorem provided_of (hc : cfg.Ok) {h : THist K V E} (hh : Held cfg h) (ti : TInv (stateT cfg h)) {e : Ev K V E} (hok : e.ok cfg env (stateT cfg h))
    {i : Nat} {k : K} {v : V} (hp : nextP cfg env (stateT cfg h) e i k v)
    (hold : (i < (stateT cfg h).s.nextId ∧ ∃ x ∈ (stateT cfg h).s.ents, x.id = i ∧ x.key = k) ∨
      ((stateT cfg h).s.nextId ≤ i ∧ nextQ cfg env (stateT cfg h) e i k)) :
    provides cfg h k v e (outT cfg h env e) := by
  cases e with
  | expire j => cases hp
  | handler j r b =>
    obtain ⟨rfl, ⟨a, ha⟩, hv⟩ := hp
    rcases hold with ⟨h1, _⟩ | ⟨_, _, h1⟩
    · omega
    · refine ⟨k, (stateT cfg h).s.nextId, ?_, hc.refl k, ?_⟩
      · unfold outT; rw [h1]; exact List.mem_singleton.2 rfl
      · rcases hv with ⟨hv1, hv2⟩ | hv
        · left
          refine ⟨?_, hv2⟩
          have := hok.2
          cases hr : cfg.resolver <;> simp_all
        · exact .inr hv
  | op o =>
    cases o with
    | emplace a u f =>
      obtain ⟨rfl, rfl, hm⟩ := hp
      rcases hold with ⟨h1, _⟩ | ⟨_, _, rfl⟩
      · omega
      · exact ⟨hm, hc.refl _, rfl⟩
    | getOrEmplace a u f =>
      obtain ⟨rfl, rfl, hm⟩ := hp
      rcases hold with ⟨h1, _⟩ | ⟨_, _, rfl⟩
      · omega
      · exact ⟨hm, hc.refl _, rfl⟩
    | get a r =>
      obtain ⟨rfl, rfl, hm⟩ := hp
      rcases hold with ⟨h1, _⟩ | ⟨_, _, rfl⟩
      · omega
      · exact ⟨k, _, by unfold outT; simp only [next]; rw [hm]; exact List.mem_singleton.2 rfl, hc.refl _, rfl⟩
    | asyncGet a w b =>
      obtain ⟨rfl, rfl, hm⟩ := hp
      rcases hold with ⟨h1, _⟩ | ⟨_, _, rfl, _⟩
      · omega
      · exact ⟨k, _, by unfold outT; simp only [next]; rw [hm]; exact List.mem_singleton.2 rfl, hc.refl _, rfl⟩
    | complete tok r =>
      obtain ⟨rfl, rfl, ho, _⟩ := hp
      rcases hold with ⟨_, x, hx, rfl, rfl⟩ | ⟨_, h1⟩
      · exact ⟨hh.tok x hx ho, rfl⟩
      · cases h1
    | _ => cases hp

theorem held (hc : cfg.Ok) (h : THist K V E) (hok : TOk cfg {} h) : Held cfg h := by
  induction h using snoc_ind with
  | h0 => exact ⟨by simp [stateT, runT, St.ents], by simp [stateT, runT, St.ents]⟩
  | h1 h a ih =>
    obtain ⟨env, e⟩ := a
    rw [TOk_snoc] at hok
    have ih := ih hok.1
    have ti := tinv hc h hok.1
    have l := next_life (env := env) hc (stateT cfg h) e hok.2
    constructor
    · rw [stateT_snoc]
      intro x hx v hv
      rcases l.bwd x hx with ⟨y, hy, t⟩ | ⟨h1, h2, h3, h4⟩
      · rcases t.val v hv with h5 | h5
        · rw [t.key]; exact (ih.val y hy v h5).snoc _
        · exact ⟨h, env, e, [], rfl, provided_of hc ih ti hok.2 h5 (.inl ⟨by rw [t.id]; exact ti.ids y hy, y, hy, t.id.symm, t.key.symm⟩)⟩
      · exact ⟨h, env, e, [], rfl, provided_of hc ih ti hok.2 (h4 v hv) (.inr ⟨h1, h3⟩)⟩
    · rw [stateT_snoc]
      intro x hx ho
      rcases l.bwd x hx with ⟨y, hy, t⟩ | ⟨h1, h2, h3, h4⟩
      · rw [t.key, t.id]
        rcases l.opn _ ho with h5 | h5
        · exact (ih.tok y hy (t.id ▸ h5)).snoc _
        · have := ti.ids y hy; have := t.id; omega
      · refine ⟨h, env, e, [], x.key, rfl, ?_, hc.refl _⟩
        cases e with
        | expire j => cases h3
        | handler j r b => unfold outT; rw [h3.2]; exact List.mem_singleton.2 rfl
        | op o =>
          by_cases hg : ∃ k w b, o = .asyncGet k w b
          · obtain ⟨k, w, b, rfl⟩ := hg
            obtain ⟨h5, rfl, h6⟩ := h3
            unfold outT; simp only [next]; rw [h6]; exact List.mem_singleton.2 rfl
          · have := step_opens_same (fun k w b hh => hg ⟨k, w, b, hh⟩) hok.2.2 _ ho
            have := ti.neat.lt _ this
            have h1 : (stateT cfg h).s.nextId ≤ x.id := h1
            have hlt : x.id < (stateT cfg h).s.nextId := this
            omega

theorem get_val {m : Mapped V E} {incl : Bool} {v : V} (h : m.get env incl = .val v) : m.val? = some v := by
  cases m <;> simp_all [Mapped.get, Mapped.val?] <;> (split at h <;> simp_all)

theorem peekWalk_val {k : K} {v : V} : ∀ {es : List (Entry K V E)}, peekWalk cfg env k es = .val v →
    ∃ e ∈ es, cfg.eqv e.key k = true ∧ e.mapped.val? = some v
  | [], h => by cases h
  | e :: es, h => by
    simp only [peekWalk] at h
    have ih := peekWalk_val (k := k) (v := v) (es := es)
    split at h
    · obtain ⟨x, hx, hh⟩ := ih h; exact ⟨x, List.mem_cons_of_mem _ hx, hh⟩
    · split at h
      · obtain ⟨x, hx, hh⟩ := ih h; exact ⟨x, List.mem_cons_of_mem _ hx, hh⟩
      · split at h
        · obtain ⟨x, hx, hh⟩ := ih h; exact ⟨x, List.mem_cons_of_mem _ hx, hh⟩
        · unfold getIfMatching at h
          split at h
          · exact ⟨e, List.mem_cons_self, by assumption, get_val h⟩
          · cases h

theorem getWalk_val {k : K} {v : V} {incl : Bool} {i : Nat} : ∀ {es : List (Entry K V E)}, (getWalk cfg env k incl es).hit = some (i, .val v) →
    ∃ e ∈ es, cfg.eqv e.key k = true ∧ e.mapped.val? = some v
  | [], h => by cases h
  | e :: es, h => by
    simp only [getWalk] at h
    have ih := getWalk_val (k := k) (v := v) (incl := incl) (es := es) (i := i)
    have next : (getWalk cfg env k incl es).hit = some (i, .val v) → ∃ x ∈ e :: es, cfg.eqv x.key k = true ∧ x.mapped.val? = some v := by
      intro h; obtain ⟨x, hx, hh⟩ := ih h; exact ⟨x, List.mem_cons_of_mem _ hx, hh⟩
    repeat' split at h
    all_goals try exact next h
    simp only [Option.some.injEq, Prod.mk.injEq] at h
    have h := h.2
    unfold getIfMatching at h
    split at h
    · exact ⟨e, List.mem_cons_self, by assumption, get_val h⟩
    · cases h

theorem bucket_mem {s : St K V E} {i : Nat} {e : Entry K V E} (h : e ∈ s.bucket i) : e ∈ s.ents := by
  unfold St.bucket at h
  cases hb : s.tbl[i]? with
  | none => rw [hb] at h; simp at h
  | some b =>
    rw [hb] at h
    exact List.mem_flatten.2 ⟨b, List.mem_of_getElem? hb, h⟩

theorem get__val {s : St K V E} {k : K} {v : V} {incl : Bool} (h : (get_ cfg env s k incl).2 = .val v) :
    ∃ e ∈ s.ents, cfg.eqv e.key k = true ∧ e.mapped.val? = some v := by
  unfold get_ at h
  simp only at h
  split at h
  · cases h
  · rename_i i l hh
    simp only at h; subst h
    obtain ⟨e, he, hk⟩ := getWalk_val hh
    exact ⟨e, bucket_mem he, hk⟩

theorem answered_ret {k' : K} {o : Op K V E} (ho : o = .getIfExists k' ∨ (∃ r, o = .get k' r) ∨ ∃ u f, o = .getOrEmplace k' u f) {out : Out K V E} {k : K} {v : V}
    (h : answered o out = some (k, v)) : out.ret = .val v ∧ k' = k := by
  obtain ⟨r, f, b, c, m⟩ := out
  rcases ho with rfl | ⟨_, rfl⟩ | ⟨_, _, rfl⟩ <;> (cases r <;> simp [answered] at h; exact ⟨by rw [h.2], h.1⟩)

/-- The value shown by an operation was provided, perhaps by the operation itself. -/
theorem shown_provided (hc : cfg.Ok) (h : THist K V E) (hok : TOk cfg {} h) (o : Op K V E) (ho : (Ev.op o : Ev K V E).ok cfg env (stateT cfg h))
    {k : K} {v : V} (ha : answered o (outT cfg h env (.op o)) = some (k, v)) : ProvidedT cfg (h ++ [(env, .op o)]) k v := by
  have hh := held hc h hok
  have ti := tinv hc h hok
  have hok' : TOk cfg {} (h ++ [(env, .op o)]) := (TOk_snoc _ _ _ _).2 ⟨hok, ho⟩
  have old : (∃ e ∈ (stateT cfg h).s.ents, cfg.eqv e.key k = true ∧ e.mapped.val? = some v) → ProvidedT cfg (h ++ [(env, .op o)]) k v := by
    rintro ⟨e, he, hk, hv⟩
    obtain ⟨h1, env1, e1, h2, heq, hp⟩ := (hh.val e he v hv).snoc (env, .op o)
    refine ⟨h1, env1, e1, h2, heq, ?_⟩
    have tr := fun a (h : cfg.eqv a e.key = true) => hc.trans _ _ _ h hk
    cases e1 with
    | expire _ => cases hp
    | handler _ r b =>
      obtain ⟨a, t, h1, h2, h3⟩ := hp
      exact ⟨a, t, h1, tr _ h2, h3⟩
    | op o1 =>
      cases o1 with
      | emplace a u f => exact ⟨hp.1, tr _ hp.2.1, hp.2.2⟩
      | getOrEmplace a u f => exact ⟨hp.1, tr _ hp.2.1, hp.2.2⟩
      | get a r =>
        cases r with
        | ok u => obtain ⟨a, t, h1, h2, h3⟩ := hp; exact ⟨a, t, h1, tr _ h2, h3⟩
        | err u => cases hp
      | asyncGet a w b =>
        cases b with
        | now r => cases r with
          | ok u => obtain ⟨a, t, h1, h2, h3⟩ := hp; exact ⟨a, t, h1, tr _ h2, h3⟩
          | err u => cases hp
        | later => cases hp
        | drop => cases hp
      | complete t r =>
        cases r with
        | ok u =>
          obtain ⟨⟨g1, envg, eg, g2, a, h1, h2, h3⟩, h4⟩ := hp
          exact ⟨⟨g1, envg, eg, g2, a, h1, h2, tr _ h3⟩, h4⟩
        | err u => cases hp
      | _ => cases hp
  have now : provides cfg h k v (.op o) (outT cfg h env (.op o)) → ProvidedT cfg (h ++ [(env, .op o)]) k v := fun hp => ⟨h, env, _, [], rfl, hp⟩
  have hout : outT cfg h env (.op o) = (step cfg env (stateT cfg h).s o).2 := rfl
  rw [hout] at ha now
  have tids := ti.ids
  generalize (stateT cfg h).s = s at *
  cases o with
  | getIfExists k' =>
    obtain ⟨h1, rfl⟩ := answered_ret (.inl rfl) ha
    simp only [step, getIfExists] at h1
    refine old ?_
    generalize hp : peekWalk cfg env k' (s.bucket (s.bucketFor (cfg.hash k'))) = l at h1
    cases l <;> simp [optRet] at h1
    subst h1
    obtain ⟨e, he, hk⟩ := peekWalk_val hp
    exact ⟨e, bucket_mem he, hk⟩
  | get k' r =>
    obtain ⟨h1, rfl⟩ := answered_ret (.inr (.inl ⟨r, rfl⟩)) ha
    have hg := get__val (cfg := cfg) (env := env) (s := s) (k := k') (v := v) (incl := false)
    simp only [step, get] at h1 now
    generalize get_ cfg env s k' false = g at *
    obtain ⟨s1, l⟩ := g
    have hl : l = .val v ∨ (cfg.resolver = .sync ∧ l = .none) := by
      revert h1
      cases hr : cfg.resolver <;> cases l <;> simp [syncRet]
    rcases hl with rfl | ⟨hr, rfl⟩
    · exact old (hg rfl)
    · simp only [hr] at h1 now
      refine now ?_
      cases r with
      | ok u =>
        simp [syncMapped, Mapped.get, syncRet] at h1
        exact ⟨k', _, List.mem_singleton.2 rfl, hc.refl _, h1⟩
      | err u => simp [syncMapped, Mapped.get, syncRet] at h1
  | getOrEmplace k' u f =>
    obtain ⟨h1, rfl⟩ := answered_ret (.inr (.inr ⟨u, f, rfl⟩)) ha
    have hg := get__val (cfg := cfg) (env := env) (s := s) (k := k') (v := v) (incl := true)
    simp only [step, getOrEmplace] at h1 now
    generalize get_ cfg env s k' true = g at *
    obtain ⟨s1, l⟩ := g
    cases l with
    | val w => simp at h1; subst h1; exact old (hg rfl)
    | none =>
      simp only at h1 now
      split at h1
      · rename_i hm
        rw [if_pos hm] at now
        simp at h1
        exact now ⟨rfl, hc.refl _, h1⟩
      · cases h1
    | err w => simp at h1
    | pend => simp at h1
  | asyncGet k' w b =>
    have hn := get__nextId (cfg := cfg) (env := env) (s := s) k' true
    have hids : ∀ x ∈ (get_ cfg env s k' true).1.ents, x.id < s.nextId := by
      intro x hx
      rcases (get__life (P := fun _ _ _ => False) (Q := fun _ _ => False) (cfg := cfg) (env := env) (s := s) k' true).bwd x hx with ⟨y, hy, t⟩ | ⟨_, _, h3, _⟩
      · rw [t.id]; exact tids y hy
      · cases h3
    simp only [step, asyncGet] at ha now
    have fst : ∀ (s2 : St K V E) (i : Nat) (l : Look V E) (c : List (K × Nat)), answered (.asyncGet k' w b) { (answer s2 i w l).2 with calls := c } = some (k, v) → l = .val v ∧ k' = k := by
      intro s2 i l c h1
      cases l <;> simp [answer, answered] at h1
      exact ⟨by rw [h1.2], h1.1⟩
    have fst' : ∀ (s2 : St K V E) (i : Nat) (l : Look V E), answered (.asyncGet k' w b) (answer s2 i w l).2 = some (k, v) → l = .val v ∧ k' = k := by
      intro s2 i l h1
      cases l <;> simp [answer, answered] at h1
      exact ⟨by rw [h1.2], h1.1⟩
    split at ha
    · rename_i i l hhit
      obtain ⟨rfl, rfl⟩ := fst' _ _ _ ha
      obtain ⟨e, he, hk⟩ := getWalk_val hhit
      exact old ⟨e, bucket_mem he, hk⟩
    · rename_i hhit
      simp only [hhit] at now
      obtain ⟨hl, rfl⟩ := fst _ _ _ _ ha
      refine now ?_
      generalize (get_ cfg env s k' true).1 = s1 at *
      have l := resolveAsync_life (cfg := cfg) (env := env) (s := s1) (k := k') (b := b) (P := fun i _ u => i = s1.nextId ∧ b = .now (.ok u)) (Q := fun _ a => a = k')
        rfl (fun u hb _ => ⟨rfl, hb⟩)
      cases hf : (resolveAsync cfg env s1 k' b).1.find (resolveAsync cfg env s1 k' b).2 with
      | none => rw [hf] at hl; cases hl
      | some e =>
        rw [hf] at hl
        obtain ⟨he, hi⟩ := find_some hf
        have hv := get_val hl
        have htok : (resolveAsync cfg env s1 k' b).2 = s1.nextId := by cases b <;> rfl
        have hb : b = .now (.ok v) := by
          rcases l.bwd e he with ⟨y, hy, t⟩ | ⟨_, _, _, h4⟩
          · have := hids y hy; have := t.id; rw [htok] at hi; omega
          · exact (h4 v hv).2
        subst hb
        exact ⟨k', _, List.mem_singleton.2 rfl, hc.refl _, rfl⟩
  | _ => simp [answered] at ha

end Hoard.Timers
