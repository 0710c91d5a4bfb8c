import Verif.HandlersStep
import Verif.Spec.Handlers
import Verif.AnswerLemmas
import Verif.WithinLemmas
/-! A run with handlers and the plain run it counts as. -/
namespace Hoard.Handlers
open Spec
variable {K V E : Type} {cfg : Cfg K} {env : Env V} {n n1 : HSt K V E} {F : Hist K V E} {as : List (Ans K V E)} {t : Time}

/-- The deadline of an entry that is being delivered is what it gets at time `t`. -/
def Due (cfg : Cfg K) (t : Time) (T : List Nat) (e : Entry K V E) : Prop := e.id ∈ T → e.expTp = cfg.maxAge.map (fun a => (t.steady + a, if cfg.wall then some (t.wall + a) else none))

/-- An entry that is being delivered holds its value. -/
def HasVal (T : List Nat) (e : Entry K V E) : Prop := e.id ∈ T → ∃ v, e.mapped = .value v

theorem due_cl {T : List Nat} : Cl (E := E) (K := K) env T (Due cfg t T) where
  out := fun _ h h' => absurd h' h
  mark := fun _ _ h => h
  cancel := fun _ h => h
  str := fun _ h => h
  add := fun _ _ h => h

theorem hasVal_cl {T : List Nat} : Cl (E := E) (K := K) env T (HasVal T) where
  out := fun _ h h' => absurd h' h
  mark := fun e hp h h' => by
    obtain ⟨v, hv⟩ := h h'
    simp [Entry.isPending, hv, Mapped.isPending] at hp
  cancel := fun e h h' => by obtain ⟨v, hv⟩ := h h'; exact ⟨v, by simp [Entry.upd, hv, Mapped.cancel]⟩
  str := fun e h h' => by obtain ⟨v, hv⟩ := h h'; exact ⟨v, by simp [Entry.upd, hv, Mapped.strengthen]⟩
  add := fun e cb h h' => by obtain ⟨v, hv⟩ := h h'; exact ⟨v, by simp [Entry.upd, hv, Mapped.addCb]⟩

/-- Answers of successful deliveries still to be given. -/
def owed (n : HSt K V E) : List (Nat × Res V E) := n.frames.flatMap (fun f => if failed f.r then [] else (users f.todo).map (fun w => (w, f.r)))

/-- Answers of failing deliveries given. -/
def early (n : HSt K V E) : List (Nat × Res V E) := n.frames.flatMap (fun f => if failed f.r then (users f.ran).map (fun w => (w, f.r)) else [])

/-- The real state and the plain one. -/
structure Sim (cfg : Cfg K) (t : Time) (n : HSt K V E) (F : Hist K V E) (as : List (Ans K V E)) : Prop where
  ok : HistOk cfg St.init F
  st : n.s = tw (delivering n) n.s.opens (stateAfter cfg F)
  op : (stateAfter cfg F).opens = n.s.opens.filter (fun t => !(delivering n).contains t)
  nd : n.s.opens.Nodup
  lt : ∀ f ∈ n.frames, f.tok < (stateAfter cfg F).nextId
  fr : ∀ f ∈ n.frames, f.tok ∈ n.s.opens
  frN : (n.frames.map (·.tok)).Nodup
  des : n.frames ≠ [] → n.s.destroyed = false
  asy : n.frames ≠ [] → cfg.resolver = .async
  flg : ∀ f ∈ n.frames, failed f.r = false → f.expired = false ∧ f.weakened = false
  dl : AllE (Due cfg t (delivering n)) (stateAfter cfg F)
  val : AllE (HasVal (delivering n)) (stateAfter cfg F)
  usr : ∀ f ∈ n.frames, ∀ cb ∈ f.ran ++ f.todo, ∃ w, cb = .user w
  wt : ∀ f ∈ n.frames, failed f.r = true → users (f.ran ++ f.todo) = (ledgerAfter cfg F).wait f.tok
  per : (answeredH as ++ owed n).Perm (answeredIn (run cfg St.init F).2 ++ early n)

theorem sim_init : Sim (K := K) (V := V) (E := E) cfg t {} [] [] := by
  constructor <;> simp [HistOk, stateAfter, run, delivering, tw, St.init, AllE, St.ents, owed, early, answeredH, answeredIn]

theorem delivering_mem {x : Nat} : x ∈ delivering n ↔ ∃ f ∈ n.frames, failed f.r = false ∧ f.tok = x := by
  simp only [delivering, List.mem_map, List.mem_filter]
  constructor
  · rintro ⟨f, ⟨h1, h2⟩, h3⟩; exact ⟨f, h1, by simpa using h2, h3⟩
  · rintro ⟨f, h1, h2, h3⟩; exact ⟨f, ⟨h1, by simpa using h2⟩, h3⟩

theorem failing_mem {x : Nat} : x ∈ failing n ↔ ∃ f ∈ n.frames, failed f.r = true ∧ f.tok = x := by
  simp only [failing, List.mem_map, List.mem_filter]
  constructor
  · rintro ⟨f, ⟨h1, h2⟩, h3⟩; exact ⟨f, h1, h2, h3⟩
  · rintro ⟨f, h1, h2, h3⟩; exact ⟨f, ⟨h1, h2⟩, h3⟩

/-- Nothing is being delivered: the states are equal. -/
theorem Sim.eq (h : Sim cfg t n F as) (hf : n.frames = []) : n.s = stateAfter cfg F := by
  have hd : delivering n = [] := by simp [delivering, hf]
  have h1 := h.op
  rw [hd] at h1
  rw [List.filter_eq_self.2 (by simp)] at h1
  have := h.st
  rw [hd, ← h1, tw_nil] at this
  exact this

theorem Sim.destroyed (h : Sim cfg t n F as) : (stateAfter cfg F).destroyed = n.s.destroyed := by
  rw [h.st]; rfl

/-- A lookup in flight that is not being delivered. -/
theorem Sim.open_iff (h : Sim cfg t n F as) {x : Nat} (hx : ∀ f ∈ n.frames, f.tok ≠ x) : x ∈ n.s.opens ↔ x ∈ (stateAfter cfg F).opens := by
  rw [h.op, List.mem_filter]
  constructor
  · intro h1
    refine ⟨h1, ?_⟩
    simp only [Bool.not_eq_true', List.contains_eq_mem, decide_eq_false_iff_not]
    intro hm
    obtain ⟨f, hf, _, he⟩ := delivering_mem.1 hm
    exact hx f hf he
  · exact fun h1 => h1.1

/-- A lookup whose failure is being delivered. -/
theorem Sim.failing_open (h : Sim cfg t n F as) {f : Frame V E} (hf : f ∈ n.frames) (he : failed f.r = true) : f.tok ∈ (stateAfter cfg F).opens := by
  rw [h.op, List.mem_filter]
  refine ⟨h.fr f hf, ?_⟩
  simp only [Bool.not_eq_true', List.contains_eq_mem, decide_eq_false_iff_not]
  intro hm
  obtain ⟨g, hg, hge, hgt⟩ := delivering_mem.1 hm
  have : g = f := by
    have hn := h.frN
    clear h
    generalize n.frames = fs at hn hf hg
    induction fs with
    | nil => cases hf
    | cons a l ih =>
      simp only [List.map_cons, List.nodup_cons, List.mem_map, not_exists, not_and] at hn
      rcases List.mem_cons.1 hf with rfl | hf' <;> rcases List.mem_cons.1 hg with rfl | hg'
      · rfl
      · exact absurd hgt (hn.1 g hg')
      · exact absurd hgt.symm (hn.1 f hf')
      · exact ih hn.2 hf' hg'
  rw [this, he] at hge; cases hge

theorem opens_lt (hc : cfg.Ok) (hok : HistOk cfg St.init F) (hd : (stateAfter cfg F).destroyed = false) {x : Nat}
    (hx : x ∈ (stateAfter cfg F).opens) : x < (stateAfter cfg F).nextId := by
  have g := good_any hc F hok (⟨⟨0, 0⟩, fun _ => true⟩ : Env V)
  obtain ⟨e, he, rfl, _⟩ := g.wf2.opE hd x hx
  exact g.wf1.lt e (List.mem_append_left _ he)

/-- Without the refresh policy there are no refreshes. -/
theorem refr_false (hr : cfg.refresh = none) (F : Hist K V E) (hok : HistOk cfg St.init F) (x : Nat) : (ledgerAfter cfg F).refr x = false := by
  induction F using snoc_ind generalizing x with
  | h0 => rfl
  | h1 F a ih =>
    obtain ⟨env, o⟩ := a
    rw [HistOk_append] at hok
    have ih := ih hok.1
    rw [ledgerAfter_snoc]
    have hlk : ∀ (L : Ledger K V) (k : K) (tok : Nat) (b : Beh V E), (∀ x, L.refr x = false) → ∀ x, (L.lookup cfg.eqv env.now false k tok b).refr x = false := by
      intro L k tok b hL x
      cases b with
      | later => simp only [Ledger.lookup, Ledger.begin]; split <;> simp [hL]
      | now r => exact hL x
      | drop => exact hL x
    cases o with
    | tick r b => have := hok.2.1; simp [Op.ok, hr] at this
    | asyncGet k w b =>
      simp only [Ledger.after]
      split
      · split
        · split
          · exact ih x
          · exact ih x
        · exact ih x
      · split
        · exact hlk _ _ _ _ ih x
        · exact hlk _ _ _ _ ih x
    | getIfExists k => simp only [Ledger.after]; split <;> exact ih x
    | get k r =>
      simp only [Ledger.after]; split
      · simp only [Ledger.read]; split <;> exact ih x
      · exact ih x
    | getOrEmplace k v f => simp only [Ledger.after]; split <;> (try split) <;> exact ih x
    | complete tok r => simp only [Ledger.after]; split <;> exact ih x
    | drop tok => simp only [Ledger.after]; split <;> exact ih x
    | _ => exact ih x

/-- The entry of a lookup in flight, and its callbacks. -/
theorem open_entry (hc : cfg.Ok) (hr : cfg.refresh = none) (hok : HistOk cfg St.init F) (hd : (stateAfter cfg F).destroyed = false) {x : Nat}
    (hx : x ∈ (stateAfter cfg F).opens) :
    ∃ e p, e ∈ (stateAfter cfg F).ents ∧ e.id = x ∧ e.mapped = .pending p ∧ e.expTp = none ∧ (stateAfter cfg F).findAny x = some e ∧
      (∀ cb ∈ p.cbs, ∃ w, cb = .user w) ∧ users p.cbs = (ledgerAfter cfg F).wait x := by
  have g := good_any hc F hok (⟨⟨0, 0⟩, fun _ => true⟩ : Env V)
  obtain ⟨e, he, rfl, hp⟩ := g.wf2.opE hd x hx
  have hpn := g.wf2.pen e he hp
  cases hm : e.mapped with
  | pending p =>
    refine ⟨e, p, he, rfl, hm, hpn.1, findAny_mem g.wf1 he, ?_, ?_⟩
    · intro cb hcb
      cases cb with
      | user w => exact ⟨w, rfl⟩
      | refresh old =>
        have := (g.g.rfw e he hx).2 ⟨old, by rw [hm]; exact hcb⟩
        rw [refr_false hr F hok] at this; cases this
    · have := g.g.wt e he hx
      rw [hm] at this; exact this
  | _ => simp [Entry.isPending, hm, Mapped.isPending] at hp

theorem users_app (a b : List Cb) : users (a ++ b) = users a ++ users b := by simp [users]

theorem runCbs_users (s : St K V E) (x : Nat) : ∀ l : List Cb, (∀ cb ∈ l, ∃ w, cb = .user w) → runCbs s x l = s
  | [], _ => rfl
  | cb :: l, h => by
    obtain ⟨w, rfl⟩ := h cb (List.mem_cons_self ..)
    exact runCbs_users s x l (fun c hc => h c (List.mem_cons_of_mem _ hc))

/-- The lookup with a value that is still to be kept: nothing happened to it. -/
theorem flags_clear (hc : cfg.Ok) (hok : HistOk cfg St.init F) (hm : Mono (F.map (·.1) ++ [env])) (hw : ∀ N, cfg.maxSize = some N → WithinH cfg N F)
    (hd : (stateAfter cfg F).destroyed = false) {x : Nat} {k : K} (hv : (ledgerAfter cfg F).valid k = some x) {e : Entry K V E} {p : Pend}
    (he : e ∈ (stateAfter cfg F).ents) (hi : e.id = x) (hp : e.mapped = .pending p) : p.expired = false ∧ p.weakened = false := by
  have key : ∀ cfg' : Cfg K, cfg'.Ok → (stateAfter cfg' F : St K V E) = stateAfter cfg F → (ledgerAfter cfg' F : Ledger K V) = ledgerAfter cfg F →
      HistOk cfg' (St.init : St K V E) F → NoEvictH cfg' (St.init : St K V E) F → (cfg'.weaken = false ∨ cfg'.ptr = false ∨ cfg'.maxSize = none) →
      p.expired = false ∧ p.weakened = false := by
    intro cfg' hc' h1 h2 h3 h4 h5
    have g := good_exact hc' F h3 env hm h4
    obtain ⟨_, T, hT, hTi, _, _, hlive, _⟩ := (g.p k).c3 (by rw [h1]; exact hd) x (by rw [h2]; exact hv)
    have : T = e := by
      rw [h1] at hT
      have g0 := good_any hc F hok env
      exact eq_of_id g0.wf1 hT he (hTi.trans hi.symm)
    subst this
    have hl := hlive trivial
    have hs := g.g.st trivial h5 T hT
    rw [hp] at hl hs
    simp [Mapped.live, Mapped.strong] at hl hs
    exact ⟨hl, hs⟩
  cases hN : cfg.maxSize with
  | none => exact key cfg hc rfl rfl hok (by
      have : ∀ (s : St K V E) (h : Hist K V E), NoEvictH cfg s h := by
        intro s h
        induction h generalizing s with
        | nil => intro N hN'; rw [hN] at hN'; cases hN'
        | cons a h ih =>
          obtain ⟨en, o⟩ := a
          exact ⟨fun N hN' => (by rw [hN] at hN'; cases hN'), ih _⟩
      exact this _ _) (.inr (.inr hN))
  | some N =>
    exact key cfg.noWeak hc.noWeak (stateAfter_nw hN F (hw N hN)) (ledgerAfter_nw hN F (hw N hN)) (histOk_nw hN F (hw N hN) hok)
      (by
        have h1 := noEvictH_of hN F (hw N hN)
        have hww := hw N hN
        have : WithinH cfg.noWeak N F := fun a b hab => by rw [stateAfter_nw hN a (by rw [hab] at hww; exact hww.prefix)]; exact hww a b hab
        exact noEvictH_of (cfg := cfg.noWeak) hN F this) (.inl rfl)

/-- Who waits for the other lookups in flight does not change. -/
theorem wait_keep (hc : cfg.Ok) (hok : HistOk cfg St.init F) {o : Op K V E} (ho : o.ok cfg (stateAfter cfg F)) (hm : Mid o) {x : Nat}
    (hx : x < (stateAfter cfg F).nextId)
    (hj : ∀ k w b, o = .asyncGet k w b → (getWalk cfg env k true ((stateAfter cfg F).bucket ((stateAfter cfg F).bucketFor (cfg.hash k)))).hit ≠ some (x, .pend)) :
    (ledgerAfter cfg (F ++ [(env, o)])).wait x = (ledgerAfter cfg F).wait x := by
  have g := good_any hc F hok env
  rw [ledgerAfter_snoc]
  have ws := wstep hc g o ho
  have hout : outAt cfg F env o = (step cfg env (stateAfter cfg F) o).2 := rfl
  rw [hout]
  cases ws with
  | quiet _ _ _ _ hw _ => rw [hw]
  | now k w b r _ _ _ hw _ => rw [hw]
  | join k w b u hoo hf hb hcs hw _ _ =>
    subst hoo
    simp only [Ledger.after, hcs, hf]
    have hxj := hj k w b rfl
    rw [getWalk_hit hc, find_ents_bucket hc g.wf1.placed] at hxj
    simp only [step] at hcs hf
    rw [asyncGet_eq hc g.wf1.placed] at hcs hf
    cases hh : (stateAfter cfg F).ents.find? (isHit cfg env k true) with
    | none => simp only [hh] at hcs; cases hcs
    | some e =>
      simp only [hh, Option.map_some, ne_eq, Option.some.injEq, Prod.mk.injEq, not_and] at hxj hcs hf
      obtain ⟨he, hk, hex, h1 | h1⟩ := hit_facts hh
      · obtain ⟨v, _, h3⟩ := h1
        rw [h3] at hf; simp [answer] at hf
      · have hv := (g.p k).c2 e he hk h1.2.1
        rw [hv]
        simp only [Ledger.join]
        rw [if_neg (fun hh => hxj hh.symm h1.2.2)]
  | start k w b _ _ _ _ hw _ _ =>
    have : x ≠ (stateAfter cfg F).nextId := by omega
    rw [hw]; simp [this]
  | done u r hoo _ _ _ _ _ _ _ => exact absurd hoo (hm.2.1 u r)
  | dropped u _ _ _ _ _ hw _ _ => rw [hw]
  | gone hoo _ _ _ _ _ => exact absurd hoo hm.2.2.2

/-! ### The answers -/

section
open Classical
/-- Counting form of `Sim.per`. -/
theorem per_iff {a b c d : List (Nat × Res V E)} : (a ++ b).Perm (c ++ d) ↔ ∀ x, a.count x + b.count x = c.count x + d.count x := by
  rw [List.perm_iff_count]
  constructor <;> intro h x
  · have := h x; rw [List.count_append, List.count_append] at this; exact this
  · rw [List.count_append, List.count_append]; exact h x
end

theorem answeredH_snoc (as : List (Ans K V E)) (a : Ans K V E) : answeredH (as ++ [a]) = answeredH as ++ answeredH [a] := by simp [answeredH]

theorem run_snoc_out (F : Hist K V E) (env : Env V) (o : Op K V E) :
    answeredIn (run cfg St.init (F ++ [(env, o)])).2 = answeredIn (run cfg St.init F).2 ++ (step cfg env (stateAfter cfg F) o).2.fired := by
  rw [run_append]
  simp [answeredIn, run, stateAfter]

theorem histOk_snoc (h : HistOk cfg St.init F) {o : Op K V E} (ho : o.ok cfg (stateAfter cfg F)) : HistOk cfg St.init (F ++ [(env, o)]) := by
  rw [HistOk_append]; exact ⟨h, ho, trivial⟩

/-- An operation by a handler gets the answer it would get in the plain run. -/
theorem Sim.step (hc : cfg.Ok) (hr : cfg.refresh = none) (hA : ∀ A, cfg.maxAge = some A → 0 < A) (h : Sim cfg t n F as) {o : Op K V E}
    (ho : (Ev.op o).ok cfg n) (ht : cfg.maxAge ≠ none → n.frames ≠ [] → env.now = t) :
    ∃ l', Hoard.step cfg env n.s o = (tw (delivering n) l' (Hoard.step cfg env (stateAfter cfg F) o).1, (Hoard.step cfg env (stateAfter cfg F) o).2) ∧
      (n.frames ≠ [] → Mid o ∧ OpensTo (delivering n) n.s.opens l' o (stateAfter cfg F) (Hoard.step cfg env (stateAfter cfg F) o).1) ∧
      (n.frames = [] → l' = (Hoard.step cfg env (stateAfter cfg F) o).1.opens) := by
  obtain ⟨h1, h2, h3, h4⟩ := ho
  by_cases hf : n.frames = []
  · have hd : delivering n = [] := by simp [delivering, hf]
    refine ⟨(Hoard.step cfg env (stateAfter cfg F) o).1.opens, ?_, fun hh => absurd hf hh, fun _ => rfl⟩
    rw [hd, tw_nil, h.eq hf]
  · have hm : Mid o := by
      refine ⟨?_, h2, ?_, ?_⟩
      · rintro k r rfl; exact h1.1 (h.asy hf)
      · rintro r b rfl; exact hf (h4 (.inl ⟨r, b, rfl⟩))
      · rintro rfl; exact hf (h4 (.inr rfl))
    have g := good_any hc F h.ok env
    have hE : AllE (Early env (delivering n)) (stateAfter cfg F) := by
      intro e he hT
      rw [h.dl e he hT]
      cases hmA : cfg.maxAge with
      | none => rfl
      | some A =>
        have h5 := ht (by simp [hmA]) hf
        have h6 := hA A hmA
        rw [Option.map_some, Bool.eq_false_iff, ne_eq, not_past, h5]
        exact ⟨by omega, fun _ => by omega⟩
    have hTlt : ∀ x ∈ delivering n, x < (stateAfter cfg F).nextId := by
      intro x hx
      obtain ⟨f, hf, _, rfl⟩ := delivering_mem.1 hx
      exact h.lt f hf
    have hdes : (stateAfter cfg F).destroyed = false := by rw [h.destroyed]; exact h.des hf
    have hlt : ∀ x ∈ n.s.opens, x < (stateAfter cfg F).nextId := by
      intro x hx
      by_cases hT : x ∈ delivering n
      · exact hTlt x hT
      · exact opens_lt hc h.ok hdes (by rw [h.op, List.mem_filter]; exact ⟨hx, by simpa using hT⟩)
    obtain ⟨l', e1, e2⟩ := step_tw hc hr g.wf1 hE hTlt h.nd hlt h.op hm (by
      intro x hx
      obtain ⟨f, hf, _, rfl⟩ := delivering_mem.1 hx
      exact h3 f hf)
    refine ⟨l', ?_, fun _ => ⟨hm, e2⟩, fun hh => absurd hh hf⟩
    rw [← e1, ← h.st]

/-- The simulation when nothing is being delivered. -/
theorem Sim.idle (hc : cfg.Ok) (h : Sim cfg t n F as) (hf : n.frames = []) {o : Op K V E} (hok' : o.ok cfg (stateAfter cfg F)) :
    Sim cfg t { n with s := (Hoard.step cfg env n.s o).1 } (F ++ [(env, o)]) (as ++ [.out (Hoard.step cfg env n.s o).2]) := by
  have hd : delivering n = [] := by simp [delivering, hf]
  have es : (Hoard.step cfg env n.s o).1 = stateAfter cfg (F ++ [(env, o)]) := by rw [h.eq hf, stateAfter_snoc]
  have ok2 := histOk_snoc (env := env) h.ok hok'
  have g2 := good_any hc _ ok2 env
  constructor
  case ok => exact ok2
  case st =>
    show (Hoard.step cfg env n.s o).1 = tw (delivering n) (Hoard.step cfg env n.s o).1.opens _
    rw [hd, es, tw_nil]
  case op =>
    show _ = (Hoard.step cfg env n.s o).1.opens.filter (fun t => !(delivering n).contains t)
    rw [hd, es, List.filter_eq_self.2 (by simp)]
  case nd => simp only [es]; exact g2.wf2.opN
  case per =>
    classical
    have := h.per
    rw [per_iff] at this ⊢
    intro x
    have := this x
    rw [answeredH_snoc, run_snoc_out, List.count_append, List.count_append, h.eq hf]
    simp only [answeredH, owed, early, List.flatMap_cons, List.flatMap_nil, List.append_nil] at this ⊢
    omega
  case dl =>
    intro e _ hT
    have hT : e.id ∈ delivering n := hT
    rw [hd] at hT; cases hT
  case val =>
    intro e _ hT
    have hT : e.id ∈ delivering n := hT
    rw [hd] at hT; cases hT
  case frN => simp [hf]
  all_goals (simp [hf])

/-- Operations keep the simulation. -/
theorem Sim.opStep (hc : cfg.Ok) (hr : cfg.refresh = none) (hA : ∀ A, cfg.maxAge = some A → 0 < A) (h : Sim cfg t n F as) {o : Op K V E}
    (ho : (Ev.op o).ok cfg n) (ht : cfg.maxAge ≠ none → n.frames ≠ [] → env.now = t) (hj : joinsFailing cfg env n o = false)
    (hw : ∀ N, cfg.maxSize = some N → WithinH cfg N (F ++ [(env, o)])) :
    Sim cfg t { n with s := (Hoard.step cfg env n.s o).1 } (F ++ [(env, o)]) (as ++ [.out (Hoard.step cfg env n.s o).2]) := by
  obtain ⟨l', e1, e2, e3⟩ := h.step hc hr hA ho ht
  have g := good_any hc F h.ok env
  have hok' : o.ok cfg (stateAfter cfg F) := by
    have := ho.1
    have hd := h.destroyed
    cases o <;> simp only [Op.ok, hd] at this ⊢ <;> exact this
  have hdl : delivering ({ n with s := (Hoard.step cfg env n.s o).1 } : HSt K V E) = delivering n := rfl
  have hst : (Hoard.step cfg env n.s o).1 = tw (delivering n) l' (stateAfter cfg (F ++ [(env, o)])) := by rw [e1, stateAfter_snoc]
  have hperm : (answeredH (as ++ [Ans.out (Hoard.step cfg env n.s o).2]) ++ owed n).Perm (answeredIn (run cfg St.init (F ++ [(env, o)])).2 ++ early n) := by
    classical
    have := h.per
    rw [per_iff] at this ⊢
    intro x
    have := this x
    rw [answeredH_snoc, run_snoc_out, List.count_append, List.count_append, e1]
    simp only [answeredH, List.flatMap_cons, List.flatMap_nil, List.append_nil] at this ⊢
    omega
  by_cases hf : n.frames = []
  · exact h.idle hc hf hok'
  · obtain ⟨hm, oT⟩ := e2 hf
    rw [← stateAfter_snoc] at oT
    have hnx : (stateAfter cfg F).nextId ≤ (stateAfter cfg (F ++ [(env, o)])).nextId := by
      rw [stateAfter_snoc]; exact (step_tokens cfg env _ o).1
    have hTlt : ∀ x ∈ delivering n, x < (stateAfter cfg F).nextId := by
      intro x hx
      obtain ⟨f, hf, _, rfl⟩ := delivering_mem.1 hx
      exact h.lt f hf
    constructor
    case ok => exact histOk_snoc h.ok hok'
    case st =>
      show (Hoard.step cfg env n.s o).1 = tw (delivering n) (Hoard.step cfg env n.s o).1.opens _
      rw [hst]; rfl
    case op =>
      show _ = (Hoard.step cfg env n.s o).1.opens.filter (fun t => !(delivering n).contains t)
      rw [hst]; exact oT.eq
    case nd => simp only [hst, tw_opens]; exact oT.nd
    case lt => intro f hf'; exact Nat.lt_of_lt_of_le (h.lt f hf') hnx
    case fr =>
      intro f hf'
      simp only [hst, tw_opens]
      exact oT.keep _ (h.fr f hf') (ho.2.2.1 f hf')
    case frN => exact h.frN
    case des =>
      intro _
      have := h.des hf
      show (Hoard.step cfg env n.s o).1.destroyed = false
      rw [step_destroyed cfg env n.s o hm.2.2.2]; exact this
    case asy => exact h.asy
    case flg => exact h.flg
    case dl => rw [stateAfter_snoc]; exact AllE.step hc hr due_cl g.wf1 h.dl hTlt hm (.inl (fun e he => he))
    case val =>
      rw [stateAfter_snoc]
      refine AllE.step hc hr hasVal_cl g.wf1 h.val hTlt hm (.inr (fun N hN => ?_))
      have := hw N hN (F ++ [(env, o)]) [] (by simp)
      rw [stateAfter_snoc] at this; exact this
    case usr => exact h.usr
    case wt =>
      intro f hf' he
      refine (h.wt f hf' he).trans (wait_keep hc h.ok hok' hm (h.lt f hf') ?_).symm
      rintro k w b rfl hhit
      have hE : AllE (Early env (delivering n)) (stateAfter cfg F) := by
        intro e he hT
        rw [h.dl e he hT]
        cases hmA : cfg.maxAge with
        | none => rfl
        | some A =>
          have h5 := ht (by simp [hmA]) hf
          have h6 := hA A hmA
          rw [Option.map_some, Bool.eq_false_iff, ne_eq, not_past, h5]
          exact ⟨by omega, fun _ => by omega⟩
      have : (getWalk cfg env k true (n.s.bucket (n.s.bucketFor (cfg.hash k)))).hit = some (f.tok, .pend) := by
        rw [h.st, tw_bucketFor, tw_bucket, getWalk_strip k true _ (hE.agree.bucket _)]
        exact hhit
      simp only [joinsFailing, this] at hj
      have : f.tok ∈ failing n := failing_mem.2 ⟨f, hf', he, rfl⟩
      simp [this] at hj
    case per => exact hperm

/-- Another clock. -/
theorem Sim.time (h : Sim cfg t n F as) {u : Time} (ht : cfg.maxAge ≠ none → n.frames ≠ [] → u = t) : Sim cfg u n F as := by
  refine { h with dl := ?_ }
  intro e he hT
  rw [h.dl e he hT]
  cases hm : cfg.maxAge with
  | none => rfl
  | some A =>
    have : n.frames ≠ [] := by
      intro hf
      simp [delivering, hf] at hT
    rw [ht (by simp [hm]) this]

/-- A completion that comes too late, or to a cache that is gone. -/
theorem Sim.late (hc : cfg.Ok) (h : Sim cfg t n F as) {x : Nat} (hx : ∀ f ∈ n.frames, f.tok ≠ x) (r : Res V E) (hn : ¬(x ∈ n.s.opens ∧ n.s.destroyed = false)) :
    Sim cfg t { n with s := (complete cfg env n.s x r).1 } (F ++ [(env, .complete x r)]) (as ++ [.out (complete cfg env n.s x r).2]) := by
  by_cases hf : n.frames = []
  · exact h.idle hc (env := env) hf (o := .complete x r) trivial
  · have hd := h.des hf
    have h1 : x ∉ n.s.opens := fun hh => hn ⟨hh, hd⟩
    have h2 : x ∉ (stateAfter cfg F).opens := fun hh => h1 ((h.open_iff hx).2 hh)
    have e1 : complete cfg env n.s x r = (n.s, { ret := .bool false }) := complete_neg h1 r
    have e2 : Hoard.step cfg env (stateAfter cfg F) (.complete x r) = (stateAfter cfg F, { ret := .bool false }) := complete_neg h2 r
    have e3 : stateAfter cfg (F ++ [(env, .complete x r)]) = stateAfter cfg F := by rw [stateAfter_snoc, e2]
    have e4 : ledgerAfter cfg (F ++ [(env, .complete x r)]) = ledgerAfter cfg F := by
      rw [ledgerAfter_snoc]
      simp only [outAt, e2, Ledger.after]
    rw [e1]
    constructor
    case ok => exact histOk_snoc h.ok trivial
    case st => rw [e3]; exact h.st
    case op => rw [e3]; exact h.op
    case nd => exact h.nd
    case lt => rw [e3]; exact h.lt
    case fr => exact h.fr
    case frN => exact h.frN
    case des => exact h.des
    case asy => exact h.asy
    case flg => exact h.flg
    case dl => rw [e3]; exact h.dl
    case val => rw [e3]; exact h.val
    case usr => exact h.usr
    case wt => rw [e4]; exact h.wt
    case per =>
      rw [run_snoc_out, e2, answeredH_snoc]
      simp only [answeredH, List.flatMap_cons, List.flatMap_nil, List.append_nil]
      exact h.per

theorem delivering_ok (f : Frame V E) (fs : List (Frame V E)) (s : St K V E) (hf : failed f.r = false) :
    delivering ({ s := s, frames := f :: fs } : HSt K V E) = f.tok :: delivering ({ s := s, frames := fs } : HSt K V E) := by
  simp [delivering, hf]

theorem delivering_err (f : Frame V E) (fs : List (Frame V E)) (s : St K V E) (hf : failed f.r = true) :
    delivering ({ s := s, frames := f :: fs } : HSt K V E) = delivering ({ s := s, frames := fs } : HSt K V E) := by
  simp [delivering, hf]

theorem delivering_same (fs : List (Frame V E)) (s s' : St K V E) : delivering ({ s := s, frames := fs } : HSt K V E) = delivering ({ s := s', frames := fs } : HSt K V E) := rfl

/-- A failure begins. -/
theorem Sim.beginErr (hc : cfg.Ok) (hr : cfg.refresh = none) (h : Sim cfg t n F as) {x : Nat} (hx : ∀ f ∈ n.frames, f.tok ≠ x) {r : Res V E} (hre : failed r = true)
    (ho : x ∈ n.s.opens) (hd : n.s.destroyed = false) {e : Entry K V E} {p : Pend} (he : n.s.findAny x = some e) (hp : e.mapped = .pending p) :
    Sim cfg t { n with frames := { tok := x, r := r, todo := p.cbs } :: n.frames } F (as ++ [.begun]) := by
  have ho' := (h.open_iff hx).1 ho
  have hd' : (stateAfter cfg F).destroyed = false := by rw [h.destroyed]; exact hd
  obtain ⟨e', p', h1, h2, h3, h4, h5, h6, h7⟩ := open_entry hc hr h.ok hd' ho'
  have hpp : p = p' := by
    rw [h.st, tw_findAny, h5] at he
    simp only [Option.map_some, Option.some.injEq] at he
    rw [← he, strip_mapped, h3] at hp
    exact (Mapped.pending.inj hp).symm
  subst hpp
  have hdl : delivering ({ n with frames := { tok := x, r := r, todo := p.cbs } :: n.frames } : HSt K V E) = delivering n := delivering_err _ _ _ hre
  constructor
  case ok => exact h.ok
  case st => rw [hdl]; exact h.st
  case op => rw [hdl]; exact h.op
  case nd => exact h.nd
  case lt =>
    intro f hf
    rcases List.mem_cons.1 hf with rfl | hf
    · exact opens_lt hc h.ok hd' ho'
    · exact h.lt f hf
  case fr =>
    intro f hf
    rcases List.mem_cons.1 hf with rfl | hf
    · exact ho
    · exact h.fr f hf
  case frN =>
    simp only [List.map_cons, List.nodup_cons, List.mem_map, not_exists, not_and]
    exact ⟨hx, h.frN⟩
  case des => exact fun _ => hd
  case asy =>
    intro _
    apply Classical.byContradiction
    intro hh
    have := ((good_any hc F h.ok (⟨⟨0, 0⟩, fun _ => true⟩ : Env V)).wf2.noA hh).1
    rw [this] at ho'; cases ho'
  case flg =>
    intro f hf hfe
    rcases List.mem_cons.1 hf with rfl | hf
    · exact ⟨rfl, rfl⟩
    · exact h.flg f hf hfe
  case dl => rw [hdl]; exact h.dl
  case val => rw [hdl]; exact h.val
  case usr =>
    intro f hf cb hcb
    rcases List.mem_cons.1 hf with rfl | hf
    · exact h6 cb (by simpa using hcb)
    · exact h.usr f hf cb hcb
  case wt =>
    intro f hf hfe
    rcases List.mem_cons.1 hf with rfl | hf
    · simpa using h7
    · exact h.wt f hf hfe
  case per =>
    have h1 : owed ({ n with frames := { tok := x, r := r, todo := p.cbs } :: n.frames } : HSt K V E) = owed n := by simp [owed, hre]
    have h2 : early ({ n with frames := { tok := x, r := r, todo := p.cbs } :: n.frames } : HSt K V E) = early n := by simp [early, users]
    rw [h1, h2, answeredH_snoc]
    simpa [answeredH] using h.per

/-! ### Entrywise changes -/

/-- Change every entry. -/
def mapE (f : Entry K V E → Entry K V E) (s : St K V E) : St K V E := { s with tbl := s.tbl.map (·.map f), limbo := s.limbo.map f }

/-- Change the entry with the given number. -/
def onId (i : Nat) (f : Entry K V E → Entry K V E) (e : Entry K V E) : Entry K V E := if e.id = i then f e else e

theorem modify_mapE (s : St K V E) (i : Nat) (f : Entry K V E → Entry K V E) : s.modify i f = mapE (onId i f) s := rfl
theorem tw_mapE (T l : List Nat) (s : St K V E) : tw T l s = withOpens l (mapE (strip T) s) := rfl
theorem mapE_mapE (f g : Entry K V E → Entry K V E) (s : St K V E) : mapE f (mapE g s) = mapE (fun e => f (g e)) s := by
  simp only [mapE, List.map_map]
  congr 1
  apply List.map_congr_left
  intro b _
  simp [Function.comp_def]
theorem mapE_withOpens (f : Entry K V E → Entry K V E) (l : List Nat) (s : St K V E) : mapE f (withOpens l s) = withOpens l (mapE f s) := rfl
theorem mapE_congr {f g : Entry K V E → Entry K V E} {s : St K V E} (h : ∀ e ∈ s.ents ++ s.limbo, f e = g e) : mapE f s = mapE g s := by
  simp only [mapE]
  congr 1
  · apply List.map_congr_left
    intro b hb
    apply List.map_congr_left
    intro e he
    exact h e (List.mem_append_left _ (List.mem_flatten.2 ⟨b, hb, he⟩))
  · apply List.map_congr_left
    intro e he
    exact h e (List.mem_append_right _ he)
theorem mapE_all {P Q : Entry K V E → Prop} {f : Entry K V E → Entry K V E} {s : St K V E} (h : AllE P s) (hf : ∀ e ∈ s.ents ++ s.limbo, P e → Q (f e)) : AllE Q (mapE f s) := by
  intro e he
  rcases List.mem_append.1 he with he | he
  · simp only [St.ents, mapE, List.mem_flatten, List.mem_map] at he
    obtain ⟨b, ⟨b0, hb0, rfl⟩, hb⟩ := he
    obtain ⟨x, hx, rfl⟩ := List.mem_map.1 hb
    have := List.mem_append_left s.limbo (List.mem_flatten.2 ⟨b0, hb0, hx⟩)
    exact hf x this (h x this)
  · simp only [mapE, List.mem_map] at he
    obtain ⟨x, hx, rfl⟩ := he
    have := List.mem_append_right s.ents hx
    exact hf x this (h x this)

theorem onAssign_plain (hr : cfg.refresh = none) (s : St K V E) (i : Nat) (b : Bool) :
    onAssign cfg env s i b = s.modify i (fun e => { e with expTp := ageTp cfg env b e.expTp }) := by
  have : assignTimes cfg env b = fun (e : Entry K V E) => { e with expTp := ageTp cfg env b e.expTp } := by
    funext e; simp only [assignTimes, hr]
  simp only [onAssign, hr, this]; rfl

theorem strip_cons_ne {T : List Nat} {x : Nat} {e : Entry K V E} (h : e.id ≠ x) : strip (x :: T) e = strip T e := by
  simp only [strip, List.mem_cons, h, false_or]

/-- A success begins. -/
theorem Sim.beginOk (hc : cfg.Ok) (hr : cfg.refresh = none) (h : Sim cfg env.now n F as) {x : Nat} (hx : ∀ f ∈ n.frames, f.tok ≠ x) {v : V}
    (ho : x ∈ n.s.opens) (hd : n.s.destroyed = false) {e : Entry K V E} {p : Pend} (he : n.s.findAny x = some e) (hp : e.mapped = .pending p)
    (hm : Mono (F.map (·.1) ++ [env])) (hw : ∀ N, cfg.maxSize = some N → WithinH cfg N F) {k : K} (hv : (ledgerAfter cfg F).valid k = some x) :
    Sim cfg env.now {
      s := n.s.modify x (·.upd (fun _ => .value v))
      frames := { tok := x, r := .ok v, todo := p.cbs, expired := p.expired, weakened := p.weakened } :: n.frames }
      (F ++ [(env, .complete x (.ok v))]) (as ++ [.begun]) := by
  have ho' := (h.open_iff hx).1 ho
  have hd' : (stateAfter cfg F).destroyed = false := by rw [h.destroyed]; exact hd
  have g := good_any hc F h.ok env
  obtain ⟨e', p', h1, h2, h3, h4, h5, h6, h7⟩ := open_entry hc hr h.ok hd' ho'
  have hpp : p = p' := by
    rw [h.st, tw_findAny, h5] at he
    simp only [Option.map_some, Option.some.injEq] at he
    rw [← he, strip_mapped, h3] at hp
    exact (Mapped.pending.inj hp).symm
  subst hpp
  obtain ⟨q1, q2⟩ := flags_clear hc h.ok hm hw hd' hv h1 h2 h3
  have hxT : x ∉ delivering n := by
    intro hh
    obtain ⟨f, hf, _, hft⟩ := delivering_mem.1 hh
    exact hx f hf hft
  have hcb : cbsOf (stateAfter cfg F) x = p.cbs := by simp [cbsOf, h5, h3, Mapped.cbs]
  have hdl : ∀ s : St K V E, delivering ({ s := s, frames := { tok := x, r := .ok v, todo := p.cbs, expired := p.expired, weakened := p.weakened } :: n.frames } : HSt K V E) =
    x :: delivering n := fun s => delivering_ok _ _ _ rfl
  -- the plain state
  have hC := complete_pos (cfg := cfg) (env := env) ho' hd' (.ok v : Res V E)
  rw [hcb, runCbs_users _ _ _ h6, onAssign_plain hr] at hC
  have hs1 : stateAfter cfg (F ++ [(env, .complete x (.ok v))]) =
      withOpens ((stateAfter cfg F).opens.erase x) (mapE (fun e => onId x (fun e => { e with expTp := ageTp cfg env true e.expTp }) (onId x (·.upd (completed cfg (.ok v))) e)) (stateAfter cfg F)) := by
    rw [stateAfter_snoc]
    show (complete cfg env (stateAfter cfg F) x (.ok v)).1 = _
    rw [hC, modify_mapE, modify_mapE, mapE_mapE]; rfl
  have hL : ∀ y, (ledgerAfter cfg (F ++ [(env, .complete x (.ok v))])).wait y = (ledgerAfter cfg F).wait y := by
    intro y
    rw [ledgerAfter_snoc]
    simp only [outAt, Hoard.step, hC, Ledger.after, Ledger.finish]
  have hnx : (stateAfter cfg (F ++ [(env, .complete x (.ok v))])).nextId = (stateAfter cfg F).nextId := by rw [hs1]; rfl
  have uniq : ∀ a ∈ (stateAfter cfg F).ents ++ (stateAfter cfg F).limbo, a.id = x → a = e' := fun a ha hax =>
    eq_of_id_any g.wf1 ha (List.mem_append_left _ h1) (hax.trans h2.symm)
  have hcomp : completed cfg (.ok v) e'.mapped = .value v := by
    rw [h3]; simp [completed, Mapped.assigned, q1, q2]
  have hops : (n.s.modify x (·.upd (fun _ => .value v))).opens = n.s.opens := rfl
  constructor
  case ok => exact histOk_snoc h.ok trivial
  case st =>
    show n.s.modify x (·.upd (fun _ => .value v)) = tw _ n.s.opens _
    rw [hdl, hs1, tw_withOpens]
    have : n.s.modify x (·.upd (fun _ => .value v)) = tw (delivering n) n.s.opens ((stateAfter cfg F).modify x (·.upd (fun _ => .value v))) := by
      rw [← tw_upd, ← h.st]
    rw [this, tw_mapE, tw_mapE, modify_mapE, mapE_mapE, mapE_mapE]
    congr 1
    apply mapE_congr
    intro a ha
    by_cases hax : a.id = x
    · rw [uniq a ha hax]
      have h2' : (e'.upd (completed cfg (.ok v))).id = x := h2
      have h2'' : (e'.upd (fun _ => (.value v : Mapped V E))).id ∉ delivering n := by rw [show (e'.upd (fun _ => (.value v : Mapped V E))).id = x from h2]; exact hxT
      simp only [onId, h2, h2', if_true]
      rw [strip_out h2'']
      simp [strip, Entry.upd, hcomp, h2, h4]
    · simp only [onId, hax, if_false]
      rw [strip_cons_ne hax]
  case op =>
    rw [hdl, hs1]
    show (stateAfter cfg F).opens.erase x = n.s.opens.filter _
    have h9 := g.wf2.opN.erase_eq_filter x
    rw [h9, h.op, List.filter_filter]
    apply List.filter_congr
    intro y _
    simp only [List.contains_cons, Bool.not_or, bne]
  case nd => exact h.nd
  case lt =>
    rw [hnx]
    intro f hf
    rcases List.mem_cons.1 hf with rfl | hf
    · exact opens_lt hc h.ok hd' ho'
    · exact h.lt f hf
  case fr =>
    intro f hf
    rcases List.mem_cons.1 hf with rfl | hf
    · exact ho
    · exact h.fr f hf
  case frN =>
    simp only [List.map_cons, List.nodup_cons, List.mem_map, not_exists, not_and]
    exact ⟨hx, h.frN⟩
  case des => exact fun _ => hd
  case asy =>
    intro _
    apply Classical.byContradiction
    intro hh
    have := (g.wf2.noA hh).1
    rw [this] at ho'; cases ho'
  case flg =>
    intro f hf hfe
    rcases List.mem_cons.1 hf with rfl | hf
    · exact ⟨q1, q2⟩
    · exact h.flg f hf hfe
  case dl =>
    rw [hdl, hs1]
    show AllE _ (mapE _ _)
    refine mapE_all h.dl (fun a ha hda => ?_)
    by_cases hax : a.id = x
    · rw [uniq a ha hax]
      intro _
      have h2' : (e'.upd (completed cfg (.ok v))).id = x := h2
      simp only [onId, h2, h2', if_true]
      show ageTp cfg env true e'.expTp = _
      rw [h4]
      simp only [ageTp, if_true]
      cases cfg.maxAge <;> rfl
    · simp only [onId, hax, if_false]
      intro hT
      rcases List.mem_cons.1 hT with hT | hT
      · exact absurd hT hax
      · exact hda hT
  case val =>
    rw [hdl, hs1]
    show AllE _ (mapE _ _)
    refine mapE_all h.val (fun a ha hda => ?_)
    by_cases hax : a.id = x
    · rw [uniq a ha hax]
      intro _
      have h2' : (e'.upd (completed cfg (.ok v))).id = x := h2
      simp only [onId, h2, h2', if_true]
      exact ⟨v, hcomp⟩
    · simp only [onId, hax, if_false]
      intro hT
      rcases List.mem_cons.1 hT with hT | hT
      · exact absurd hT hax
      · exact hda hT
  case usr =>
    intro f hf cb hcb
    rcases List.mem_cons.1 hf with rfl | hf
    · exact h6 cb (by simpa using hcb)
    · exact h.usr f hf cb hcb
  case wt =>
    intro f hf hfe
    rcases List.mem_cons.1 hf with rfl | hf
    · cases hfe
    · rw [hL]; exact h.wt f hf hfe
  case per =>
    classical
    have := h.per
    rw [per_iff] at this ⊢
    intro y
    have := this y
    rw [answeredH_snoc, run_snoc_out]
    simp only [Hoard.step, hC, answeredH, owed, early, failed, List.flatMap_cons, List.flatMap_nil, List.append_nil, List.nil_append, List.count_append, if_true, Bool.false_eq_true, if_false] at this ⊢
    omega

/-- A handler is invoked. -/
theorem Sim.nextStep (h : Sim cfg t n F as) {f : Frame V E} {fs : List (Frame V E)} {w : Nat} {cbs : List Cb} (hf : n.frames = f :: fs) (htd : f.todo = .user w :: cbs) :
    Sim cfg t { n with frames := { f with ran := f.ran ++ [.user w], todo := cbs } :: fs } F (as ++ [.ran w f.r]) := by
  have hdl : delivering ({ n with frames := { f with ran := f.ran ++ [.user w], todo := cbs } :: fs } : HSt K V E) = delivering n := by
    cases hfe : failed f.r <;> simp [delivering, hf, hfe]
  have hin : f ∈ n.frames := by rw [hf]; exact List.mem_cons_self ..
  have hin' : ∀ g ∈ fs, g ∈ n.frames := by rw [hf]; exact fun g hg => List.mem_cons_of_mem _ hg
  constructor
  case ok => exact h.ok
  case st => rw [hdl]; exact h.st
  case op => rw [hdl]; exact h.op
  case nd => exact h.nd
  case lt =>
    intro g hg
    rcases List.mem_cons.1 hg with rfl | hg
    · exact h.lt f hin
    · exact h.lt g (hin' g hg)
  case fr =>
    intro g hg
    rcases List.mem_cons.1 hg with rfl | hg
    · exact h.fr f hin
    · exact h.fr g (hin' g hg)
  case frN => have := h.frN; rw [hf] at this; exact this
  case des => intro _; exact h.des (by rw [hf]; simp)
  case asy => intro _; exact h.asy (by rw [hf]; simp)
  case flg =>
    intro g hg hge
    rcases List.mem_cons.1 hg with rfl | hg
    · exact h.flg f hin hge
    · exact h.flg g (hin' g hg) hge
  case dl => rw [hdl]; exact h.dl
  case val => rw [hdl]; exact h.val
  case usr =>
    intro g hg cb hcb
    rcases List.mem_cons.1 hg with rfl | hg
    · exact h.usr f hin cb (by rw [htd]; simpa using hcb)
    · exact h.usr g (hin' g hg) cb hcb
  case wt =>
    intro g hg hge
    rcases List.mem_cons.1 hg with rfl | hg
    · have := h.wt f hin hge
      rw [htd] at this
      rw [← this]; simp [users]
    · exact h.wt g (hin' g hg) hge
  case per =>
    classical
    have := h.per
    rw [per_iff] at this ⊢
    intro y
    have := this y
    rw [answeredH_snoc]
    cases hfe : failed f.r with
    | true =>
      simp only [answeredH, owed, early, hf, hfe, users_app, List.map_append, List.flatMap_cons, List.flatMap_nil, List.append_nil, List.nil_append, List.count_append, if_true, Bool.false_eq_true, if_false] at this ⊢
      simp only [users, List.filterMap_cons, List.filterMap_nil, List.map_cons, List.map_nil] at this ⊢
      omega
    | false =>
      simp only [answeredH, owed, early, hf, hfe, htd, List.flatMap_cons, List.flatMap_nil, List.append_nil, List.nil_append, List.count_append, if_true, Bool.false_eq_true, if_false] at this ⊢
      simp only [users, List.filterMap_cons, List.map_cons, List.count_cons, List.count_nil] at this ⊢
      omega

end Hoard.Handlers
