import Verif.HandlersRun
/-! # Completions during which nothing else happens -/
namespace Hoard.Handlers
open Spec
variable {K V E : Type} {cfg : Cfg K} {env : Env V}

theorem findAny_mapE (f : Entry K V E → Entry K V E) (hf : ∀ e, (f e).id = e.id) (s : St K V E) (j : Nat) : (mapE f s).findAny j = (s.findAny j).map f := by
  unfold St.findAny
  have : (mapE f s).ents ++ (mapE f s).limbo = (s.ents ++ s.limbo).map f := by
    simp [mapE, St.ents, List.map_flatten]
  rw [this, List.find?_map]
  have : (fun e : Entry K V E => e.id == j) ∘ f = fun e => e.id == j := by funext e; simp [hf]
  rw [this]

theorem onId_id {f : Entry K V E → Entry K V E} (hf : ∀ e, (f e).id = e.id) (i : Nat) (e : Entry K V E) : (onId i f e).id = e.id := by
  simp only [onId]; split
  · exact hf e
  · rfl

/-- The deadline the callback of a refresh copies. -/
def oldTp (s : St K V E) (old : Nat) : Option Int := match s.findAny old with
  | some o => o.canTp
  | none => none

theorem runCb_refresh (s : St K V E) (x old : Nat) :
    runCb s x (.refresh old) = (s.modify x (fun e => { e with canTp := tpMin e.canTp (oldTp s old) })).modify old (·.upd .markExpired) := rfl

/-- The callbacks of a lookup and a change of what its entry holds can be swapped. -/
theorem runCb_upd (s : St K V E) (x : Nat) (f : Mapped V E → Mapped V E) {cb : Cb} (h : ∀ old, cb = .refresh old → old ≠ x) :
    runCb (s.modify x (·.upd f)) x cb = (runCb s x cb).modify x (·.upd f) := by
  cases cb with
  | user w => rfl
  | refresh old =>
    have hne := h old rfl
    have h1 : oldTp (s.modify x (·.upd f)) old = oldTp s old := by
      simp only [oldTp]
      rw [modify_mapE, findAny_mapE _ (onId_id (f := fun e => Entry.upd f e) (fun _ => rfl) x)]
      cases s.findAny old with
      | none => rfl
      | some o => simp only [Option.map_some, onId]; split <;> rfl
    rw [runCb_refresh, runCb_refresh, h1]
    generalize oldTp s old = tp
    simp only [modify_mapE, mapE_mapE]
    apply mapE_congr
    intro e _
    simp only [onId]
    by_cases he : e.id = x
    · have : e.id ≠ old := by rw [he]; exact fun h => hne h.symm
      simp [he, Entry.upd, Ne.symm hne]
    · by_cases ho : e.id = old <;> simp [he, ho, Entry.upd, hne]

theorem runCbs_upd (x : Nat) (f : Mapped V E → Mapped V E) : ∀ (cbs : List Cb) (s : St K V E), (∀ old, .refresh old ∈ cbs → old ≠ x) →
    runCbs (s.modify x (·.upd f)) x cbs = (runCbs s x cbs).modify x (·.upd f)
  | [], _, _ => rfl
  | cb :: cbs, s, h => by
    simp only [runCbs, List.foldl_cons]
    rw [runCb_upd s x f (fun old ho => h old (by rw [ho]; exact List.mem_cons_self ..))]
    exact runCbs_upd x f cbs _ (fun old ho => h old (List.mem_cons_of_mem _ ho))

theorem runCb_all {P : Nat → Mapped V E → Prop} {s : St K V E} {x : Nat} {cb : Cb} (h : ∀ old, cb = .refresh old → old ≠ x)
    (ha : AllE (fun e => e.id = x → P e.id e.mapped) s) : AllE (fun e => e.id = x → P e.id e.mapped) (runCb s x cb) := by
  cases cb with
  | user w => exact ha
  | refresh old =>
    have hne := h old rfl
    simp only [runCb, modify_mapE, mapE_mapE]
    refine mapE_all ha (fun e _ hp => ?_)
    simp only [onId]
    by_cases he : e.id = x
    · simpa [he, Ne.symm hne] using hp
    · by_cases ho : e.id = old
      · simp [he, ho, hne, Entry.upd]
      · simp [he, ho]

theorem runCbs_all {P : Nat → Mapped V E → Prop} {x : Nat} : ∀ (cbs : List Cb) {s : St K V E}, (∀ old, .refresh old ∈ cbs → old ≠ x) →
    AllE (fun e => e.id = x → P e.id e.mapped) s → AllE (fun e => e.id = x → P e.id e.mapped) (runCbs s x cbs)
  | [], _, _, ha => ha
  | cb :: cbs, s, h, ha => by
    simp only [runCbs, List.foldl_cons]
    exact runCbs_all cbs (fun old ho => h old (List.mem_cons_of_mem _ ho))
      (runCb_all (fun old ho => h old (by rw [ho]; exact List.mem_cons_self ..)) ha)

theorem runCb_has {s : St K V E} {x : Nat} {cb : Cb} (j : Nat) (h : ∃ e, s.findAny j = some e) : ∃ e, (runCb s x cb).findAny j = some e := by
  obtain ⟨e, h⟩ := h
  cases cb with
  | user w => exact ⟨e, h⟩
  | refresh old =>
    rw [runCb_refresh]
    generalize oldTp s old = tp
    simp only [modify_mapE]
    rw [findAny_mapE _ (onId_id (f := fun e => Entry.upd Mapped.markExpired e) (fun _ => rfl) _),
      findAny_mapE _ (onId_id (f := fun e : Entry K V E => { e with canTp := tpMin e.canTp tp }) (fun _ => rfl) _), h]
    exact ⟨_, rfl⟩

theorem holdsStrong_of {s : St K V E} {x : Nat} {v : V} (hh : ∃ e, s.findAny x = some e) (ha : AllE (fun e => e.id = x → e.mapped = .value v) s) :
    holdsStrong s x = true := by
  obtain ⟨e, he⟩ := hh
  have h1 : e ∈ s.ents ++ s.limbo := List.mem_of_find?_eq_some he
  have h2 : e.id = x := by simpa using List.find?_some he
  simp [holdsStrong, he, ha e h1 h2]

/-- All callbacks are invoked, one after the other. -/
theorem nexts : ∀ (cbs : List Cb) (s : St K V E) (f : Frame V E), f.todo = cbs → (∀ old, .refresh old ∈ cbs → old ≠ f.tok) → (∃ e, s.findAny f.tok = some e) →
    (∀ v, f.r = .ok v → AllE (fun e => e.id = f.tok → e.mapped = .value v) s) →
    ∃ as, runH cfg { s := s, frames := [f] } (List.replicate cbs.length (env, .next)) =
      some ({ s := runCbs s f.tok cbs, frames := [{ f with ran := f.ran ++ cbs, todo := [] }] }, as) ∧
      answeredH as = (users cbs).map (fun w => (w, f.r)) ∧ brokenH as = []
  | [], s, f, hf, _, _, _ => by
    refine ⟨[], ?_, rfl, rfl⟩
    obtain ⟨x, r, ran, todo, a, b⟩ := f
    subst hf
    simp [runH, runCbs]
  | cb :: cbs, s, f, hf, hn, hh, hv => by
    have hcb : ∀ old, cb = .refresh old → old ≠ f.tok := fun old ho => hn old (by rw [ho]; exact List.mem_cons_self ..)
    obtain ⟨as, h1, h2, h3⟩ := nexts cbs (runCb s f.tok cb) { f with ran := f.ran ++ [cb], todo := cbs } rfl (fun old ho => hn old (List.mem_cons_of_mem _ ho))
      (runCb_has _ hh) (fun v hr => runCb_all (P := fun _ m => m = .value v) hcb (hv v hr))
    cases cb with
    | user w =>
      have hu : (!failed f.r && !cfg.ptr && !holdsStrong s f.tok) = false := by
        cases hr : f.r with
        | ok v => simp [holdsStrong_of hh (hv v hr)]
        | err q => simp [failed]
      refine ⟨.ran w f.r :: as, ?_, ?_, ?_⟩
      · rw [List.length_cons, List.replicate_succ]
        simp only [runH, next, next_, hf, hu, Bool.false_eq_true, if_false]
        rw [show runCb s f.tok (.user w) = s from rfl] at h1
        rw [h1]
        simp [runCbs, runCb]
      · simp only [answeredH, List.flatMap_cons, users] at h2 ⊢
        rw [h2]; simp
      · simpa [brokenH] using h3
    | refresh old =>
      refine ⟨.internal :: as, ?_, ?_, ?_⟩
      · rw [List.length_cons, List.replicate_succ]
        simp only [runH, next, next_, hf]
        rw [h1]
        simp [runCbs]
      · simp only [answeredH, List.flatMap_cons, users] at h2 ⊢
        rw [h2]; simp
      · simpa [brokenH] using h3

theorem runH_append : ∀ (h1 : HHist K V E) {h2 : HHist K V E} {n n1 n2 : HSt K V E} {as1 as2 : List (Ans K V E)}, runH cfg n h1 = some (n1, as1) →
    runH cfg n1 h2 = some (n2, as2) → runH cfg n (h1 ++ h2) = some (n2, as1 ++ as2)
  | [], _, _, _, _, _, _, e1, e2 => by
    simp only [runH, Option.some.injEq, Prod.mk.injEq] at e1
    obtain ⟨rfl, rfl⟩ := e1
    exact e2
  | (env, e) :: h1, h2, n, n1, n2, as1, as2, e1, e2 => by
    obtain ⟨m, a, as3, q1, q2, rfl⟩ := runH_cons e1
    have := runH_append h1 q2 e2
    simp only [List.cons_append, runH, q1, this]

/-- A completion during which nothing else happens is `complete`. -/
theorem quiet (hc : cfg.Ok) {F : Hist K V E} (hok : HistOk cfg St.init F) (env : Env V) {x : Nat} (r : Res V E) (hx : x ∈ (stateAfter cfg F).opens)
    (hd : (stateAfter cfg F).destroyed = false) :
    ∃ m as, runH cfg { s := stateAfter cfg F } ((env, .begin x r) :: (List.replicate m (env, .next) ++ [(env, .finish)])) =
      some ({ s := (complete cfg env (stateAfter cfg F) x r).1 }, as) ∧
      answeredH as = (complete cfg env (stateAfter cfg F) x r).2.fired ∧ brokenH as = (complete cfg env (stateAfter cfg F) x r).2.broken := by
  have g := good_any hc F hok env
  obtain ⟨e, he, rfl, hp⟩ := g.wf2.opE hd x hx
  cases hm : e.mapped with
  | value v => rw [Entry.isPending, hm] at hp; cases hp
  | weak v => rw [Entry.isPending, hm] at hp; cases hp
  | error v => rw [Entry.isPending, hm] at hp; cases hp
  | gone => rw [Entry.isPending, hm] at hp; cases hp
  | void => rw [Entry.isPending, hm] at hp; cases hp
  | pending p =>
    have hfa := findAny_mem g.wf1 he
    have hcb : ∀ old, Cb.refresh old ∈ p.cbs → old ≠ e.id := by
      intro old ho
      have := (g.wf2.cb e he old (by rw [hm]; exact ho)).1
      omega
    have hun : AllE (fun a => a.id = e.id → a.mapped = .pending p) (stateAfter cfg F) := by
      intro a ha hid
      have := findAny_of g.wf1 ha
      rw [hid, hfa] at this
      cases this
      exact hm
    have hcbs : cbsOf (stateAfter cfg F) e.id = p.cbs := by simp [cbsOf, hfa, hm, Mapped.cbs]
    rw [complete_pos hx hd, hcbs]
    cases r with
    | err q =>
      obtain ⟨as, h1, h2, h3⟩ := nexts (cfg := cfg) (env := env) p.cbs (stateAfter cfg F) { tok := e.id, r := .err q, todo := p.cbs } rfl hcb ⟨e, hfa⟩ (by intro v hv; cases hv)
      refine ⟨p.cbs.length, .begun :: (as ++ [.finished]), ?_, ?_, ?_⟩
      · simp only [runH, next, begin_, hx, hd, and_self, if_true, hfa, hm]
        rw [runH_append _ h1 (n2 := { s := withOpens ((stateAfter cfg F).opens.erase e.id) (onAssign cfg env ((runCbs (stateAfter cfg F) e.id p.cbs).modify e.id (·.upd (completed cfg (.err q)))) e.id false) }) (as2 := [.finished])]
        · rfl
        · simp only [runH, next, finish_, failed, Bool.not_true, Bool.false_and, Bool.false_eq_true, if_false, if_true]
          simp [withOpens]
      · simp only [answeredH, List.flatMap_cons, List.flatMap_append] at h2 ⊢
        rw [h2]; simp
      · simp only [brokenH, List.flatMap_cons, List.flatMap_append] at h3 ⊢
        rw [h3]; simp
    | ok v =>
      have hh : ∃ a, ((stateAfter cfg F).modify e.id (·.upd (fun _ => .value v))).findAny e.id = some a := by
        rw [modify_mapE, findAny_mapE _ (onId_id (f := fun a => Entry.upd (fun _ => .value v) a) (fun _ => rfl) _), hfa]
        exact ⟨_, rfl⟩
      have hv : AllE (fun a => a.id = e.id → a.mapped = .value v) ((stateAfter cfg F).modify e.id (·.upd (fun _ => .value v))) := by
        rw [modify_mapE]
        refine mapE_all hun (fun a _ _ => ?_)
        simp only [onId]
        split
        · intro _; rfl
        · rename_i h; intro h'; exact absurd h' h
      obtain ⟨as, h1, h2, h3⟩ := nexts (cfg := cfg) (env := env) p.cbs _ { tok := e.id, r := .ok v, todo := p.cbs, expired := p.expired, weakened := p.weakened } rfl hcb hh
        (by intro u hu; cases hu; exact hv)
      have hst : holdsStrong (runCbs ((stateAfter cfg F).modify e.id (·.upd (fun _ => .value v))) e.id p.cbs) e.id = true := by
        refine holdsStrong_of (v := v) ?_ (runCbs_all (P := fun _ m => m = .value v) p.cbs hcb hv)
        clear h1 h2 h3 hv hcb hcbs hun
        generalize (stateAfter cfg F).modify e.id (·.upd (fun _ => .value v)) = s at hh
        generalize p.cbs = cbs
        induction cbs generalizing s with
        | nil => exact hh
        | cons cb cbs ih => exact ih _ (runCb_has _ hh)
      refine ⟨p.cbs.length, .begun :: (as ++ [.finished]), ?_, ?_, ?_⟩
      · simp only [runH, next, begin_, hx, hd, and_self, if_true, hfa, hm]
        rw [runH_append _ h1 (n2 := { s := withOpens ((stateAfter cfg F).opens.erase e.id) (onAssign cfg env ((runCbs (stateAfter cfg F) e.id p.cbs).modify e.id (·.upd (completed cfg (.ok v)))) e.id true) }) (as2 := [.finished])]
        · rfl
        · simp only [runH, next, finish_, failed, Bool.not_false, hst, Bool.not_true, Bool.and_false, Bool.false_eq_true, if_false]
          rw [runCbs_upd _ _ _ _ hcb]
          have hall := runCbs_all (P := fun _ m => m = .pending p) p.cbs hcb hun
          have : (((runCbs (stateAfter cfg F) e.id p.cbs).modify e.id (·.upd (fun _ => .value v))).modify e.id
              (·.upd (settled cfg { tok := e.id, r := .ok v, ran := [] ++ p.cbs, todo := [], expired := p.expired, weakened := p.weakened }))) =
              (runCbs (stateAfter cfg F) e.id p.cbs).modify e.id (·.upd (completed cfg (.ok v))) := by
            simp only [modify_mapE, mapE_mapE]
            refine mapE_congr (fun a ha => ?_)
            have := hall a ha
            simp only [onId]
            by_cases hid : a.id = e.id
            · simp only [hid, if_true, Entry.upd, this hid, completed, settled, Mapped.assigned]
              cases p.expired <;> cases p.weakened <;> cases cfg.ptr <;> simp [Mapped.weaken]
            · simp [hid]
          rw [this]
          simp [withOpens]
      · simp only [answeredH, List.flatMap_cons, List.flatMap_append] at h2 ⊢
        rw [h2]; simp
      · simp only [brokenH, List.flatMap_cons, List.flatMap_append] at h3 ⊢
        rw [h3]; simp

end Hoard.Handlers
