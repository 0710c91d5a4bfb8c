import Verif.EventsNested
import Verif.Props.Events
import Verif.NestedRun
import Verif.NestedAsyncCount
import Verif.HandlersCount
import Verif.HandlersRun
/-!
# Helper lemmas for C114
-/
namespace Hoard.Events
variable {K V E : Type} {cfg : Cfg K} {env : Env V} {s : St K V E} {Z : Nat → Prop}

/-! ## Synchronous resolvers -/

theorem tick_wf1_sync (hr : cfg.resolver = .sync) (w : WF1 cfg s) (r : Res V E) (b : Beh V E) : WF1 cfg (tick cfg env s r b).1 := by
  simp only [tick]
  cases hq : s.delayQ with
  | nil => exact w
  | cons i q =>
    simp only
    cases s.find i with
    | none => exact w
    | some e =>
      simp only
      split
      · have hqn := w.dqN
        have hqm := w.dqM
        rw [hq] at hqn hqm
        have w' : WF1 cfg ({ s with delayQ := q } : St K V E) :=
          ⟨w.ids, w.lt, w.placed, w.sorted, w.bq, (List.nodup_cons.1 hqn).2, fun j hj => hqm j (List.mem_cons_of_mem _ hj)⟩
        simp only [Hoard.refresh]
        split
        · exact w'
        · rw [if_neg (by rw [hr]; simp)]
          have w2 := (link_spc (F := ({} : Eff K V)) env w' (e := newEntry ({ s with delayQ := q } : St K V E) e.key (syncMapped r)) rfl).1
          have w3 : WF1 cfg ((Hoard.resolveSync cfg env ({ s with delayQ := q } : St K V E) e.key r).1.modify e.id (fun x => { x with refreshing := true })) :=
            WF1.modify w2 e.id (fun _ => ⟨rfl, rfl⟩)
          split
          · split
            · exact w3.modify _ (IdKey.upd _)
            · exact Handlers.runCb_wf1 w3 (Hoard.resolveSync cfg env ({ s with delayQ := q } : St K V E) e.key r).2 (.refresh e.id)
          · exact w3
      · exact w

theorem nested_wf1 (hc : cfg.Ok) (hr : cfg.resolver = .sync) {n : Nested.NSt K V E} (w : WF1 cfg n.s) (hop : n.s.opens = []) (e : Nested.Ev K V E)
    (he : e.ok cfg n) : WF1 cfg (Nested.next cfg env n e).1.s := by
  cases e with
  | get k =>
    have hs : (Nested.next cfg env n (.get k)).1.s = (get_ cfg env n.s k false).1 := by
      generalize hgg : get_ cfg env n.s k false = g
      obtain ⟨s1, l⟩ := g
      by_cases hl : l = .none
      · subst hl; rw [Nested.next_none hgg]
      · rw [Nested.next_some hgg hl]
    rw [hs]
    exact get__wf1 hc w env k false
  | ret r =>
    cases hst : n.stack with
    | nil => exact absurd hst he
    | cons k st =>
      have hs : (Nested.next cfg env n (.ret r)).1.s = link cfg env n.s (newEntry n.s k (syncMapped r)) := by simp [Nested.next, hst, Hoard.resolveSync]
      rw [hs]
      exact (link_spc (F := ({} : Eff K V)) env w rfl).1
  | op o =>
    obtain ⟨h1, h2, h3⟩ := he
    show WF1 cfg (step cfg env n.s o).1
    cases o with
    | getIfExists k => exact w
    | get k r => exact absurd rfl (h2 k r)
    | asyncGet k x b => exact absurd h1.1 (by rw [hr]; simp)
    | emplace k v f =>
      simp only [step, emplace]
      have w2 := Handlers.tryLink_wf1' (env := env) (expire_wf1 hc w env k) (e := newEntry (expire_ cfg env n.s k) k (.value v : Mapped V E)) rfl f
      split
      · exact maintenance_wf1 w2
      · exact w2
    | getOrEmplace k v f =>
      have w1 := get__wf1 hc w env k true
      simp only [step, getOrEmplace]
      generalize Hoard.get_ cfg env n.s k true = g at *
      obtain ⟨s1, l⟩ := g
      simp only at *
      have w2 := Handlers.tryLink_wf1' (env := env) w1 (e := newEntry s1 k (.value v : Mapped V E)) rfl f
      cases l with
      | none =>
        simp only
        split
        · exact maintenance_wf1 w2
        · exact w2
      | _ => exact maintenance_wf1 w1
    | erase k => exact expire_wf1 hc w env k
    | clear => exact clear_wf1 w
    | count => exact w
    | complete t r => simp only [step, complete, hop]; exact w
    | drop t => simp only [step, drop, hop]; exact w
    | tick r b => exact tick_wf1_sync hr w r b
    | destroy => exact Nested.destroy_wf1 w

theorem nested_seg (hc : cfg.Ok) {n : Nested.NSt K V E} (w : WF1 cfg n.s) (hop : n.s.opens = []) (e : Nested.Ev K V E)
    (he : e.ok cfg n) : Seg Z n.s (Nested.next cfg env n e).1.s (nested cfg env n e) := by
  cases e with
  | get k =>
    have hs : (Nested.next cfg env n (.get k)).1.s = (get_ cfg env n.s k false).1 := by
      generalize hgg : get_ cfg env n.s k false = g
      obtain ⟨s1, l⟩ := g
      by_cases hl : l = .none
      · subst hl; rw [Nested.next_none hgg]
      · rw [Nested.next_some hgg hl]
    rw [hs]
    exact lookup_seg hc w k false
  | ret r =>
    cases hst : n.stack with
    | nil => exact absurd hst he
    | cons k st =>
      have hs : (Nested.next cfg env n (.ret r)).1.s = (Hoard.resolveSync cfg env n.s k r).1 := by simp [Nested.next, hst]
      simp only [nested, hst]
      rw [hs]
      exact resolveSync_seg w (by rw [hop]; simp) k r
  | op o =>
    exact step_seg' hc w (by rw [hop]; exact List.nodup_nil) (fun _ => by rw [hop]; simp) o he.1 (fun t r _ _ ht => by rw [hop] at ht; cases ht)

theorem nestedTrace_snoc (n : Nested.NSt K V E) (h : Nested.NHist K V E) (env : Env V) (e : Nested.Ev K V E) :
    nestedTrace cfg n (h ++ [(env, e)]) = nestedTrace cfg n h ++ nested cfg env (Nested.runN cfg n h).1 e := by
  induction h generalizing n with
  | nil => simp [nestedTrace, Nested.runN]
  | cons p h ih => obtain ⟨e1, o⟩ := p; simp [nestedTrace, Nested.runN, ih]

theorem nested_knows (hc : cfg.Ok) (hr : cfg.resolver = .sync) (h : Nested.NHist K V E) (hok : Nested.NOk cfg {} h) :
    Book.accepts {} (nestedTrace cfg {} h) ∧ Knows (fun _ => False) (Book.notes {} (nestedTrace cfg {} h)) (Nested.runN cfg {} h).1.s ∧
    WF1 cfg (Nested.runN cfg ({} : Nested.NSt K V E) h).1.s ∧ (Nested.runN cfg ({} : Nested.NSt K V E) h).1.s.opens = [] := by
  induction h using snoc_ind with
  | h0 => exact ⟨trivial, knows_init, wf1_init cfg, rfl⟩
  | h1 h p ih =>
    obtain ⟨env, e⟩ := p
    rw [Nested.NOk_snoc] at hok
    obtain ⟨h1, h2, w, ho⟩ := ih hok.1
    rw [nestedTrace_snoc, accepts_append, notes_append, Nested.runN_snoc]
    obtain ⟨h3, h4⟩ := nested_seg (env := env) hc w ho e hok.2 _ h2
    exact ⟨⟨h1, h3⟩, h4, nested_wf1 hc hr w ho e hok.2, Nested.opens_step hr ho e hok.2⟩

/-! ## Asynchronous resolvers -/

theorem nestedAsync_seg (hc : cfg.Ok) {h : NestedAsync.NHist K V E} (I : NestedAsync.Inv cfg h) (e : NestedAsync.Ev K V E)
    (he : e.ok cfg (NestedAsync.endN cfg h)) :
    Seg Z (NestedAsync.endN cfg h).s (NestedAsync.next cfg env (NestedAsync.endN cfg h) e).1.s (nestedAsync cfg env (NestedAsync.endN cfg h) e) := by
  have g := I.good hc env
  have w := I.wf1 hc
  have hN : (NestedAsync.endN cfg h).s.opens.Nodup := by rw [I.opens]; exact g.wf2.opN
  have hno : (NestedAsync.endN cfg h).s.destroyed = false → (NestedAsync.endN cfg h).s.nextId ∉ (NestedAsync.endN cfg h).s.opens := by
    rw [I.opens, I.nextId, I.destroyed]; exact next_not_open g.wf1 g.wf2
  cases e with
  | op o =>
    refine step_seg' hc w hN hno o he.1 (fun t r _ hd ht => ?_)
    obtain ⟨x, hx, hi, _⟩ := I.openE hc hd ht
    exact List.mem_map.2 ⟨x, hx, hi⟩
  | get k u =>
    have h1 := lookup_seg (Z := Z) (env := env) hc w k true
    simp only [nestedAsync, NestedAsync.next]
    cases (getWalk cfg env k true ((NestedAsync.endN cfg h).s.bucket ((NestedAsync.endN cfg h).s.bucketFor (cfg.hash k)))).hit with
    | some x =>
      obtain ⟨i, l⟩ := x
      exact h1.trans (answer_seg i u l)
    | none => exact h1.trans (resolveAsync_seg (get__wf1 hc w env k true) (by simpa using hN) (by simpa using hno he.2) k .later)
  | ret =>
    simp only [nestedAsync, NestedAsync.next]
    cases hst : (NestedAsync.endN cfg h).stack with
    | nil => exact .refl _
    | cons p st => exact answer_seg _ _ _
  | throw =>
    simp only [nestedAsync, NestedAsync.next]
    cases hst : (NestedAsync.endN cfg h).stack with
    | nil => exact .refl _
    | cons p st => exact .refl _

theorem nestedAsyncTrace_snoc (n : NestedAsync.NSt K V E) (h : NestedAsync.NHist K V E) (env : Env V) (e : NestedAsync.Ev K V E) :
    nestedAsyncTrace cfg n (h ++ [(env, e)]) = nestedAsyncTrace cfg n h ++ nestedAsync cfg env (NestedAsync.runN cfg n h).1 e := by
  induction h generalizing n with
  | nil => simp [nestedAsyncTrace, NestedAsync.runN]
  | cons p h ih => obtain ⟨e1, o⟩ := p; simp [nestedAsyncTrace, NestedAsync.runN, ih]

theorem nestedAsync_knows (hc : cfg.Ok) (h : NestedAsync.NHist K V E) (hok : NestedAsync.NOk cfg {} h) :
    Book.accepts {} (nestedAsyncTrace cfg {} h) ∧ Knows (fun _ => False) (Book.notes {} (nestedAsyncTrace cfg {} h)) (NestedAsync.runN cfg {} h).1.s := by
  induction h using snoc_ind with
  | h0 => exact ⟨trivial, knows_init⟩
  | h1 h p ih =>
    obtain ⟨env, e⟩ := p
    have hk := NestedAsync.NOk_append.1 hok
    obtain ⟨h1, h2⟩ := ih hk.1
    rw [nestedAsyncTrace_snoc, accepts_append, notes_append]
    obtain ⟨h3, h4⟩ := nestedAsync_seg (env := env) hc (NestedAsync.inv_end h hk.1) e hk.2.1 _ h2
    have : (NestedAsync.runN cfg ({} : NestedAsync.NSt K V E) (h ++ [(env, e)])).1 = _ := NestedAsync.endN_snoc (cfg := cfg) h env e
    rw [this]
    exact ⟨⟨h1, h3⟩, h4⟩

/-! ## Completion handlers -/

theorem bears_append (b : Book) (xs ys : List Ev) : b.bears (xs ++ ys) ↔ b.bears xs ∧ (b.notes xs).bears ys := by
  induction xs generalizing b with
  | nil => simp [Book.bears, Book.notes]
  | cons x xs ih => simp [Book.bears, Book.notes, ih, and_assoc]

theorem bears_of_accepts (evs : List Ev) : ∀ b : Book, (∀ i ∈ b.there, i ∈ b.ever) → b.accepts evs → b.bears evs := by
  induction evs with
  | nil => intro _ _ _; trivial
  | cons e evs ih =>
    intro b hs ha
    refine ⟨?_, ih _ ?_ ha.2⟩
    · cases e with
      | assign i v c => exact ⟨hs i ha.1.1, fun _ => ha.1.1, ha.1.2⟩
      | _ => exact ha.1
    · cases e with
      | create j =>
        intro i hi
        rcases List.mem_cons.1 hi with rfl | hi
        · exact List.mem_cons_self
        · exact List.mem_cons_of_mem _ (hs i hi)
      | unlink j => exact fun i hi => hs i (List.mem_of_mem_erase hi)
      | _ => exact hs

theorem Knows.sub_ever {b : Book} (k : Knows Z b s) (i : Nat) (hi : i ∈ b.there) : i ∈ b.ever := (k.ever i).2 (k.sub i hi)

theorem Knows.mono {Z' : Nat → Prop} {b : Book} (k : Knows Z b s) (h : ∀ i, Z i → Z' i) : Knows Z' b s :=
  ⟨k.there, k.nd, k.ever, k.sub, k.lt, k.op, fun e he hv => (k.val e he hv).imp_left (h _)⟩

theorem opens_cases (o : Op K V E) : (step cfg env s o).1.opens = s.opens ∨ (∃ t, (step cfg env s o).1.opens = s.opens.erase t) ∨
    (step cfg env s o).1.opens = s.opens ++ [s.nextId] ∨ (step cfg env s o).1.opens = (s.opens ++ [s.nextId]).erase s.nextId := by
  have hra : ∀ (s' : St K V E) (k : K) (b : Beh V E), s'.opens = s.opens → s'.nextId = s.nextId →
      (Hoard.resolveAsync cfg env s' k b).1.opens = s.opens ++ [s.nextId] ∨ (Hoard.resolveAsync cfg env s' k b).1.opens = (s.opens ++ [s.nextId]).erase s.nextId := by
    intro s' k b ho hx
    cases b with
    | later => simp [Hoard.resolveAsync, ho, hx]
    | now r => simp only [Hoard.resolveAsync, complete_opens]; right; simp [ho, hx]
    | drop => simp only [Hoard.resolveAsync, drop_opens]; right; simp [ho, hx]
  have hans : ∀ (s' : St K V E) (i u : Nat) (l : Look V E), (answer s' i u l).1.opens = s'.opens := by
    intro s' i u l; cases l <;> rfl
  cases o with
  | getIfExists k => exact .inl rfl
  | count => exact .inl rfl
  | get k r =>
    left
    show (get cfg env s k r).1.opens = s.opens
    simp only [get]
    split <;> simp [Hoard.resolveSync]
  | asyncGet k u b =>
    show (asyncGet cfg env s k u b).1.opens = _ ∨ (∃ t, (asyncGet cfg env s k u b).1.opens = _) ∨ (asyncGet cfg env s k u b).1.opens = _ ∨ (asyncGet cfg env s k u b).1.opens = _
    simp only [asyncGet]
    split
    · left; rw [hans]; simp
    · right; right; simp only [hans]; exact hra _ k b (by simp) (by simp)
  | emplace k v f =>
    left
    show (emplace cfg env s k v f).1.opens = s.opens
    simp only [emplace]; split <;> simp
  | getOrEmplace k v f =>
    left
    show (getOrEmplace cfg env s k v f).1.opens = s.opens
    simp only [getOrEmplace]; split
    · simp
    · split <;> simp
    · simp
  | erase k => left; simp [step, erase]
  | clear => left; simp [step]
  | complete t r => exact .inr (.inl ⟨t, by simp [step, complete_opens]⟩)
  | drop t => exact .inr (.inl ⟨t, by simp [step, drop_opens]⟩)
  | tick r b =>
    show (tick cfg env s r b).1.opens = _ ∨ (∃ t, (tick cfg env s r b).1.opens = _) ∨ (tick cfg env s r b).1.opens = _ ∨ (tick cfg env s r b).1.opens = _
    simp only [tick]
    split
    · exact .inl rfl
    · split
      · exact .inl rfl
      · split
        · rename_i i q _ _ e _ _
          simp only [Hoard.refresh]
          split
          · exact .inl rfl
          · have h3 : (if cfg.resolver = .async then Hoard.resolveAsync cfg env ({ s with delayQ := q } : St K V E) e.key b
                else Hoard.resolveSync cfg env ({ s with delayQ := q } : St K V E) e.key r).1.opens = s.opens ∨
                (if cfg.resolver = .async then Hoard.resolveAsync cfg env ({ s with delayQ := q } : St K V E) e.key b
                else Hoard.resolveSync cfg env ({ s with delayQ := q } : St K V E) e.key r).1.opens = s.opens ++ [s.nextId] ∨
                (if cfg.resolver = .async then Hoard.resolveAsync cfg env ({ s with delayQ := q } : St K V E) e.key b
                else Hoard.resolveSync cfg env ({ s with delayQ := q } : St K V E) e.key r).1.opens = (s.opens ++ [s.nextId]).erase s.nextId := by
              split
              · exact .inr (hra _ _ b rfl rfl)
              · left; simp [Hoard.resolveSync]
            have h4 : ∀ x : List Nat, x = s.opens ∨ x = s.opens ++ [s.nextId] ∨ x = (s.opens ++ [s.nextId]).erase s.nextId →
                x = s.opens ∨ (∃ t, x = s.opens.erase t) ∨ x = s.opens ++ [s.nextId] ∨ x = (s.opens ++ [s.nextId]).erase s.nextId :=
              fun x h => h.imp_right .inr
            split
            · split
              · exact h4 _ h3
              · exact h4 _ (by simpa using h3)
            · exact h4 _ h3
        · exact .inl rfl
  | destroy => left; simp [step, destroy]

theorem delivering_mem {n : Handlers.HSt K V E} {i : Nat} : i ∈ Handlers.delivering n ↔ ∃ f ∈ n.frames, Handlers.failed f.r = false ∧ f.tok = i := by
  simp [Handlers.delivering, and_assoc]

/-- The lookups of a cache whose handlers use it. -/
structure Open (n : Handlers.HSt K V E) : Prop where
  nd : n.s.opens.Nodup
  lt : ∀ t ∈ n.s.opens, t < n.s.nextId
  fr : ∀ f ∈ n.frames, f.tok ∈ n.s.opens

theorem Open.op {n : Handlers.HSt K V E} (h : Open n) {o : Op K V E} (he : (Handlers.Ev.op o).ok cfg n) : Open ({ n with s := (step cfg env n.s o).1 } : Handlers.HSt K V E) := by
  have hno : n.s.nextId ∉ n.s.opens := fun hm => Nat.lt_irrefl _ (h.lt _ hm)
  have hnd : (n.s.opens ++ [n.s.nextId]).Nodup := (List.perm_append_singleton _ _).nodup_iff.2 (List.nodup_cons.2 ⟨hno, h.nd⟩)
  obtain ⟨hle, htk, _⟩ := step_tokens cfg env n.s o
  refine ⟨?_, ?_, ?_⟩
  · show (step cfg env n.s o).1.opens.Nodup
    rcases opens_cases (cfg := cfg) (env := env) (s := n.s) o with q | ⟨t, q⟩ | q | q <;> rw [q]
    · exact h.nd
    · exact h.nd.erase t
    · exact hnd
    · exact hnd.erase _
  · intro t ht
    rcases htk t ht with q | ⟨rfl, q⟩
    · exact Nat.lt_of_lt_of_le (h.lt t q) hle
    · exact q
  · intro f hf
    by_cases hd : ∃ t, o = .drop t
    · obtain ⟨t, rfl⟩ := hd
      have hne : f.tok ≠ t := fun q => he.2.2.1 f hf (by rw [q])
      show f.tok ∈ (drop n.s t).1.opens
      rw [drop_opens]
      exact (List.mem_erase_of_ne hne).2 (h.fr f hf)
    · exact stays_open (h.fr f hf) hno o he.2.1 (fun t q => hd ⟨t, q⟩)

/-- The entries whose values are visible before they are announced. -/
def Soon (n : Handlers.HSt K V E) (i : Nat) : Prop := i ∈ Handlers.delivering n

theorem handled_knows_step (hc : cfg.Ok) {n n1 : Handlers.HSt K V E} {a : Handlers.Ans K V E} (I : Handlers.HInv cfg n) (O : Open n) (e : Handlers.Ev K V E)
    (he : e.ok cfg n) (hn : Handlers.next cfg env n e = .ok n1 a) (b : Book) (k : Knows (Soon n) b n.s) :
    b.bears (handled cfg env n e) ∧ Knows (Soon n1) (b.notes (handled cfg env n e)) n1.s ∧ Open n1 := by
  have hno : n.s.nextId ∉ n.s.opens := fun hm => Nat.lt_irrefl _ (O.lt _ hm)
  cases e with
  | op o =>
    simp only [Handlers.next] at hn
    split at hn
    · cases hn
    · simp only [Handlers.Outcome.ok.injEq] at hn
      obtain ⟨rfl, _⟩ := hn
      obtain ⟨h1, h2⟩ := step_seg' (Z := Soon n) (env := env) hc I.wf O.nd (fun _ => hno) o he.1 (fun t r q => absurd q (he.2.1 t r)) b k
      exact ⟨bears_of_accepts _ b k.sub_ever h1, h2, O.op he⟩
  | begin x r =>
    refine ⟨trivial, ?_⟩
    show Knows (Soon n1) b n1.s ∧ Open n1
    simp only [Handlers.next, Handlers.begin_] at hn
    split at hn
    · rename_i ho
      split at hn
      · cases hn
      · split at hn
        · rename_i p hp
          cases r with
          | ok v =>
            simp only [Handlers.Outcome.ok.injEq] at hn
            obtain ⟨rfl, _⟩ := hn
            refine ⟨?_, O.nd, O.lt, ?_⟩
            · refine ⟨by rw [ids_modify _ (IdKey.upd _)]; exact k.there, by rw [ids_modify _ (IdKey.upd _)]; exact k.nd, k.ever, k.sub, k.lt, k.op, ?_⟩
              intro y hy hv
              by_cases hx : y.id = x
              · left; subst hx; exact delivering_mem.2 ⟨_, List.mem_cons_self, rfl, rfl⟩
              · have hvs : Vals (fun i => i = x) n.s (n.s.modify x (·.upd (fun _ => .value v))) := .modify x (IdKey.upd _) (fun _ _ => .inl rfl)
                rcases hvs y hy hv with q | ⟨z, hz, hi, hvz⟩
                · exact absurd q hx
                · refine (hi ▸ k.val z hz hvz : Soon n y.id ∨ y.id ∈ b.valued).imp_left (fun q => ?_)
                  obtain ⟨f, hf, h1, h2⟩ := delivering_mem.1 q
                  exact delivering_mem.2 ⟨f, List.mem_cons_of_mem _ hf, h1, h2⟩
            · intro f hf
              rcases List.mem_cons.1 hf with rfl | hf
              · exact ho.1
              · exact O.fr f hf
          | err x' =>
            simp only [Handlers.Outcome.ok.injEq] at hn
            obtain ⟨rfl, _⟩ := hn
            refine ⟨k.mono (fun i q => ?_), O.nd, O.lt, ?_⟩
            · obtain ⟨f, hf, h1, h2⟩ := delivering_mem.1 q
              exact delivering_mem.2 ⟨f, List.mem_cons_of_mem _ hf, h1, h2⟩
            · intro f hf
              rcases List.mem_cons.1 hf with rfl | hf
              · exact ho.1
              · exact O.fr f hf
        · cases hn
    · rename_i ho
      simp only [Handlers.Outcome.ok.injEq] at hn
      obtain ⟨rfl, _⟩ := hn
      have hcp : (complete cfg env n.s x r).1 = n.s ∨ (n.s.destroyed = true ∧ x ∈ n.s.opens) := by
        by_cases hx : x ∈ n.s.opens
        · right
          refine ⟨?_, hx⟩
          cases hd : n.s.destroyed with
          | true => rfl
          | false => exact absurd ⟨hx, hd⟩ ho
        · left; simp [complete, hx]
      rcases hcp with q | ⟨hd, hx⟩
      · rw [q]; exact ⟨k, O⟩
      · have h1 := (complete_seg (Z := Soon n) (cfg := cfg) (env := env) x r O.nd (fun h _ => by rw [hd] at h; cases h) b k).2
        have h2 : completed n.s x r = [] := by simp [completed, hx, hd]
        rw [h2] at h1
        have hfr : n.frames = [] := by
          by_cases hf : n.frames = []
          · exact hf
          · have := I.des hf; rw [hd] at this; cases this
        refine ⟨h1, ?_, ?_, ?_⟩
        · show (complete cfg env n.s x r).1.opens.Nodup
          rw [complete_opens]; exact O.nd.erase x
        · intro t ht
          have ht' : t ∈ (complete cfg env n.s x r).1.opens := ht
          rw [complete_opens] at ht'
          exact Nat.lt_of_lt_of_le (O.lt t (List.mem_of_mem_erase ht')) (step_tokens cfg env n.s (.complete x r)).1
        · intro f hf
          have : f ∈ n.frames := hf
          rw [hfr] at this; cases this
  | next =>
    refine ⟨trivial, ?_⟩
    show Knows (Soon n1) b n1.s ∧ Open n1
    simp only [Handlers.next, Handlers.next_] at hn
    split at hn
    · simp only [Handlers.Outcome.ok.injEq] at hn; obtain ⟨rfl, _⟩ := hn; exact ⟨k, O⟩
    · rename_i f fs hf
      have hsoon : ∀ (s' : St K V E) (rn td : List Cb) (i : Nat), Soon n i → Soon ({ s := s', frames := { f with ran := rn, todo := td } :: fs } : Handlers.HSt K V E) i := by
        intro s' rn td i q
        obtain ⟨g, hg, h1, h2⟩ := delivering_mem.1 q
        rw [hf] at hg
        rcases List.mem_cons.1 hg with rfl | hg
        · exact delivering_mem.2 ⟨_, List.mem_cons_self, h1, h2⟩
        · exact delivering_mem.2 ⟨g, List.mem_cons_of_mem _ hg, h1, h2⟩
      have hfr : ∀ (rn td : List Cb), ∀ g ∈ ({ f with ran := rn, todo := td } :: fs : List (Handlers.Frame V E)), g.tok ∈ n.s.opens := by
        intro rn td g hg
        rcases List.mem_cons.1 hg with rfl | hg
        · exact O.fr f (by rw [hf]; exact List.mem_cons_self)
        · exact O.fr g (by rw [hf]; exact List.mem_cons_of_mem _ hg)
      split at hn
      · simp only [Handlers.Outcome.ok.injEq] at hn; obtain ⟨rfl, _⟩ := hn; exact ⟨k, O⟩
      · split at hn
        · cases hn
        · simp only [Handlers.Outcome.ok.injEq] at hn
          obtain ⟨rfl, _⟩ := hn
          exact ⟨k.mono (hsoon _ _ _), O.nd, O.lt, hfr _ _⟩
      · simp only [Handlers.Outcome.ok.injEq] at hn
        obtain ⟨rfl, _⟩ := hn
        rename_i old cbs _ _
        have h1 : Seg (Soon n) n.s (runCb n.s f.tok (.refresh old)) [] := .neutral (by rw [runCb_ids]) rfl (fun _ q => q) (runCb_vals _ _)
        exact ⟨(h1 b k).2.mono (hsoon _ _ _), O.nd, O.lt, hfr _ _⟩
  | finish =>
    obtain ⟨f, fs, hf, htd⟩ := he
    simp only [Handlers.next, Handlers.finish_, hf] at hn
    split at hn
    · cases hn
    · simp only [Handlers.Outcome.ok.injEq] at hn
      obtain ⟨rfl, _⟩ := hn
      have hfo : f.tok ∈ n.s.opens := O.fr f (by rw [hf]; exact List.mem_cons_self)
      have hnd := I.nd
      rw [hf] at hnd
      simp only [handled, hf]
      generalize hs1 : (if Handlers.failed f.r = true then n.s.modify f.tok (·.upd (Hoard.completed cfg f.r)) else n.s.modify f.tok (·.upd (Handlers.settled cfg f))) = s1
      have hi1 : ids s1 = ids n.s := by
        rw [← hs1]; split <;> exact ids_modify _ (IdKey.upd _)
      have hv1 : Vals (fun i => i = f.tok ∧ Handlers.failed f.r = false) n.s s1 := by
        rw [← hs1]; split
        · rename_i hfl
          refine .modify f.tok (IdKey.upd _) (fun x q => .inr ((completed_val x.mapped q).resolve_left (fun q => ?_)))
          revert hfl q
          cases f.r <;> simp [Handlers.failed, Res.isOk]
        · rename_i hfl
          exact .modify f.tok (IdKey.upd _) (fun _ _ => .inl ⟨rfl, by simpa using hfl⟩)
      have hval : ∀ j, j ∈ b.valued ∨ (j = f.tok ∧ Handlers.failed f.r = false) → j ∈ (b.notes [.assign f.tok (!Handlers.failed f.r) true]).valued := by
        intro j hj
        show j ∈ (if (!Handlers.failed f.r) = true then f.tok :: b.valued else b.valued)
        rcases hj with hj | ⟨rfl, hj⟩
        · split
          · exact List.mem_cons_of_mem _ hj
          · exact hj
        · simp [hj]
      have ho1 : s1.opens = n.s.opens ∧ s1.nextId = n.s.nextId := by
        rw [← hs1]; split <;> exact ⟨rfl, rfl⟩
      have hi2 : ids (onAssign cfg env s1 f.tok (!Handlers.failed f.r)) = ids n.s := by rw [onAssign_ids, hi1]
      have hv2 : Vals (fun i => i = f.tok ∧ Handlers.failed f.r = false) n.s (onAssign cfg env s1 f.tok (!Handlers.failed f.r)) := hv1.trans (onAssign_vals _ _)
      have hth : (!Handlers.failed f.r) = false → f.tok ∈ b.there := by
        intro q
        obtain ⟨e, he, hi, _⟩ := I.fl f (by rw [hf]; exact List.mem_cons_self) (by simpa using q)
        exact k.there.mem_iff.2 (List.mem_map.2 ⟨e, he, hi⟩)
      have hsm := onAssign_same cfg env s1 f.tok (!Handlers.failed f.r)
      have hop : (onAssign cfg env s1 f.tok (!Handlers.failed f.r)).opens = n.s.opens := hsm.opens.trans ho1.1
      have hnx : (onAssign cfg env s1 f.tok (!Handlers.failed f.r)).nextId = n.s.nextId := hsm.nextId.trans ho1.2
      refine ⟨⟨⟨(k.ever _).2 (O.lt _ hfo), hth, fun q => k.op _ q hfo, fun q => by cases q⟩, trivial⟩, ⟨?_, ?_, ?_, ?_, ?_, ?_, ?_⟩, ?_, ?_, ?_⟩
      · show b.there.Perm (ids (onAssign cfg env s1 f.tok (!Handlers.failed f.r)))
        rw [hi2]; exact k.there
      · show (ids (onAssign cfg env s1 f.tok (!Handlers.failed f.r))).Nodup
        rw [hi2]; exact k.nd
      · intro i
        show i ∈ b.ever ↔ i < (onAssign cfg env s1 f.tok (!Handlers.failed f.r)).nextId
        rw [hnx]; exact k.ever i
      · intro i
        show i ∈ b.there → i < (onAssign cfg env s1 f.tok (!Handlers.failed f.r)).nextId
        rw [hnx]; exact k.sub i
      · intro i hi
        show i < (onAssign cfg env s1 f.tok (!Handlers.failed f.r)).nextId
        rw [hnx]
        rcases List.mem_cons.1 hi with rfl | hi
        · exact O.lt _ hfo
        · exact k.lt i hi
      · intro i hi
        show i ∉ (onAssign cfg env s1 f.tok (!Handlers.failed f.r)).opens.erase f.tok
        rw [hop]
        intro hm
        rcases List.mem_cons.1 hi with rfl | hi
        · exact (O.nd.mem_erase_iff.1 hm).1 rfl
        · exact k.op i hi (List.mem_of_mem_erase hm)
      · intro y hy hv
        rcases hv2 y hy hv with q | ⟨z, hz, hi, hvz⟩
        · exact .inr (hval _ (.inr q))
        · rcases (hi ▸ k.val z hz hvz : Soon n y.id ∨ y.id ∈ b.valued) with q | q
          · obtain ⟨g, hg, h1, h2⟩ := delivering_mem.1 q
            rw [hf] at hg
            rcases List.mem_cons.1 hg with rfl | hg
            · exact .inr (hval _ (.inr ⟨h2.symm, h1⟩))
            · exact .inl (delivering_mem.2 ⟨g, hg, h1, h2⟩)
          · exact .inr (hval _ (.inl q))
      · show ((onAssign cfg env s1 f.tok (!Handlers.failed f.r)).opens.erase f.tok).Nodup
        rw [hop]; exact O.nd.erase _
      · intro t ht
        have ht' : t ∈ (onAssign cfg env s1 f.tok (!Handlers.failed f.r)).opens.erase f.tok := ht
        show t < (onAssign cfg env s1 f.tok (!Handlers.failed f.r)).nextId
        rw [hop] at ht'
        rw [hnx]; exact O.lt t (List.mem_of_mem_erase ht')
      · intro g hg
        show g.tok ∈ (onAssign cfg env s1 f.tok (!Handlers.failed f.r)).opens.erase f.tok
        rw [hop]
        have hne : g.tok ≠ f.tok := fun q => (List.nodup_cons.1 hnd).1 (List.mem_map.2 ⟨g, hg, q⟩)
        exact (List.mem_erase_of_ne hne).2 (O.fr g (by rw [hf]; exact List.mem_cons_of_mem _ hg))

theorem open_init : Open ({} : Handlers.HSt K V E) := ⟨List.nodup_nil, fun _ h => (by cases h), fun _ h => (by cases h)⟩

theorem knows_init' : Knows (Soon ({} : Handlers.HSt K V E)) {} ({} : Handlers.HSt K V E).s := (knows_init (Z := fun _ => False)).mono (fun _ h => h.elim)

theorem handled_knows_run (hc : cfg.Ok) (hr : cfg.refresh = none) (h : Handlers.HHist K V E) : ∀ {n n1 : Handlers.HSt K V E} {as : List (Handlers.Ans K V E)} {b : Book},
    Handlers.HInv cfg n → Open n → Handlers.HOk cfg n h → Handlers.runH cfg n h = some (n1, as) → Knows (Soon n) b n.s →
    b.bears (handledTrace cfg n h) ∧ Knows (Soon n1) (b.notes (handledTrace cfg n h)) n1.s := by
  induction h with
  | nil =>
    intro n n1 as b _ _ _ hh k
    simp only [Handlers.runH, Option.some.injEq, Prod.mk.injEq] at hh
    obtain ⟨rfl, _⟩ := hh
    exact ⟨trivial, k⟩
  | cons p h ih =>
    obtain ⟨env, e⟩ := p
    intro n n1 as b I O hok hh k
    obtain ⟨m, a, as1, h1, h2, _⟩ := Handlers.runH_cons hh
    obtain ⟨g1, g2, g3⟩ := handled_knows_step hc I O e hok.1 h1 b k
    simp only [handledTrace, h1]
    rw [bears_append, notes_append]
    obtain ⟨g4, g5⟩ := ih (I.next hc hr hok.1 h1).1 g3 (hok.2 m a h1) h2 g2
    exact ⟨⟨g1, g4⟩, g5⟩

/-! ## The recency queue -/

theorem step_bq (hm : cfg.maxSize.isSome = true) (o : Op K V E) : (step cfg env s o).1.bq = recency s.bq (events cfg env s o) := by
  rw [(step_fol o).bq hm, popped_bq]

theorem nested_bq (hm : cfg.maxSize.isSome = true) (n : Nested.NSt K V E) (e : Nested.Ev K V E) :
    (Nested.next cfg env n e).1.s.bq = recency n.s.bq (nested cfg env n e) := by
  cases e with
  | op o => exact step_bq hm o
  | get k =>
    have hs : (Nested.next cfg env n (.get k)).1.s = (get_ cfg env n.s k false).1 := by
      generalize hgg : get_ cfg env n.s k false = g
      obtain ⟨s1, l⟩ := g
      by_cases hl : l = .none
      · subst hl; rw [Nested.next_none hgg]
      · rw [Nested.next_some hgg hl]
    rw [hs]
    exact (lookup_fol k false).bq hm
  | ret r =>
    cases hst : n.stack with
    | nil => simp [Nested.next, nested, hst, recency]
    | cons k st =>
      have hs : (Nested.next cfg env n (.ret r)).1.s = (Hoard.resolveSync cfg env n.s k r).1 := by simp [Nested.next, hst]
      simp only [nested, hst]
      rw [hs]
      exact (link_fol _).bq hm

theorem nestedAsync_bq (hm : cfg.maxSize.isSome = true) (n : NestedAsync.NSt K V E) (e : NestedAsync.Ev K V E) :
    (NestedAsync.next cfg env n e).1.s.bq = recency n.s.bq (nestedAsync cfg env n e) := by
  cases e with
  | op o => exact step_bq hm o
  | get k u =>
    have h1 := (lookup_fol (cfg := cfg) (env := env) (s := n.s) k true).bq hm
    simp only [nestedAsync, NestedAsync.next, recency_append]
    cases (getWalk cfg env k true (n.s.bucket (n.s.bucketFor (cfg.hash k)))).hit with
    | some x =>
      obtain ⟨i, l⟩ := x
      exact (answer_queues i u l).1.trans h1
    | none =>
      simp only
      rw [← h1]
      exact (resolveAsync_fol (s := (get_ cfg env n.s k true).1) k .later).bq hm
  | ret =>
    simp only [nestedAsync, NestedAsync.next]
    cases hst : n.stack with
    | nil => rfl
    | cons p st => exact (answer_queues _ _ _).1
  | throw =>
    simp only [nestedAsync, NestedAsync.next]
    cases hst : n.stack with
    | nil => rfl
    | cons p st => rfl

theorem handled_bq (hm : cfg.maxSize.isSome = true) {n n1 : Handlers.HSt K V E} {a : Handlers.Ans K V E} (e : Handlers.Ev K V E)
    (hn : Handlers.next cfg env n e = .ok n1 a) : n1.s.bq = recency n.s.bq (handled cfg env n e) := by
  cases e with
  | op o =>
    simp only [Handlers.next] at hn
    split at hn
    · cases hn
    · simp only [Handlers.Outcome.ok.injEq] at hn
      obtain ⟨rfl, _⟩ := hn
      exact step_bq hm o
  | begin x r =>
    show n1.s.bq = n.s.bq
    simp only [Handlers.next, Handlers.begin_] at hn
    split at hn
    · split at hn
      · cases hn
      · split at hn
        · cases r <;> (simp only [Handlers.Outcome.ok.injEq] at hn; obtain ⟨rfl, _⟩ := hn; rfl)
        · cases hn
    · rename_i ho
      simp only [Handlers.Outcome.ok.injEq] at hn
      obtain ⟨rfl, _⟩ := hn
      have h1 := (complete_fol (cfg := cfg) (env := env) (s := n.s) x r).bq hm
      have h2 : completed n.s x r = [] := by
        unfold completed
        by_cases hx : x ∈ n.s.opens
        · rw [if_pos hx]
          cases hd : n.s.destroyed with
          | true => rfl
          | false => exact absurd ⟨hx, hd⟩ ho
        · rw [if_neg hx]
      rw [h2] at h1
      exact h1
  | next =>
    show n1.s.bq = n.s.bq
    simp only [Handlers.next, Handlers.next_] at hn
    split at hn
    · simp only [Handlers.Outcome.ok.injEq] at hn; obtain ⟨rfl, _⟩ := hn; rfl
    · split at hn
      · simp only [Handlers.Outcome.ok.injEq] at hn; obtain ⟨rfl, _⟩ := hn; rfl
      · split at hn
        · cases hn
        · simp only [Handlers.Outcome.ok.injEq] at hn; obtain ⟨rfl, _⟩ := hn; rfl
      · simp only [Handlers.Outcome.ok.injEq] at hn; obtain ⟨rfl, _⟩ := hn; exact (runCb_queues _ _).1
  | finish =>
    simp only [Handlers.next, Handlers.finish_] at hn
    simp only [handled]
    cases hf : n.frames with
    | nil =>
      rw [hf] at hn
      simp only [Handlers.Outcome.ok.injEq] at hn
      obtain ⟨rfl, _⟩ := hn; rfl
    | cons f fs =>
      rw [hf] at hn
      simp only at hn
      split at hn
      · cases hn
      · simp only [Handlers.Outcome.ok.injEq] at hn
        obtain ⟨rfl, _⟩ := hn
        have h1 := fun s1 : St K V E => (onAssign_fol (cfg := cfg) (env := env) (s := s1) f.tok (!Handlers.failed f.r) true).bq hm
        refine (h1 _).trans ?_
        split <;> rfl

theorem handledTrace_bq (hm : cfg.maxSize.isSome = true) (h : Handlers.HHist K V E) : ∀ {n n1 : Handlers.HSt K V E} {as : List (Handlers.Ans K V E)},
    Handlers.runH cfg n h = some (n1, as) → n1.s.bq = recency n.s.bq (handledTrace cfg n h) := by
  induction h with
  | nil =>
    intro n n1 as hh
    simp only [Handlers.runH, Option.some.injEq, Prod.mk.injEq] at hh
    obtain ⟨rfl, _⟩ := hh
    rfl
  | cons p h ih =>
    obtain ⟨env, e⟩ := p
    intro n n1 as hh
    obtain ⟨m, a, as1, h1, h2, _⟩ := Handlers.runH_cons hh
    simp only [handledTrace, h1]
    rw [recency_append, ← handled_bq hm e h1]
    exact ih h2

end Hoard.Events
