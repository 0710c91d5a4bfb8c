import Verif.VisitsLemmas
/-! # An operation and the entries it looks at -/
namespace Hoard.Visits
variable {K V E : Type} {cfg : Cfg K} {env : Env V} {s s' s'' : St K V E}
open Compare (bucketOf)

/-- The same entries, in the same number of buckets. -/
def KI (s s' : St K V E) : Prop := s'.ents.map (·.id) = s.ents.map (·.id) ∧ s'.tbl.length = s.tbl.length

theorem KI.refl (s : St K V E) : KI s s := ⟨rfl, rfl⟩
theorem KI.trans (h : KI s s') (h' : KI s' s'') : KI s s'' := ⟨h'.1.trans h.1, h'.2.trans h.2⟩

theorem modify_ki (s : St K V E) (i : Nat) (f : Entry K V E → Entry K V E) (hf : ∀ e, (f e).id = e.id) : KI s (s.modify i f) := by
  refine ⟨?_, modify_len s i f⟩
  rw [ents_modify, List.map_map]
  apply List.map_congr_left
  intro e _
  simp only [Function.comp, atId]
  split
  · exact hf e
  · rfl

theorem onHit_ki (i : Nat) : KI s (onHit cfg env s i) := by
  unfold onHit; simp only; repeat' split
  all_goals first
    | exact modify_ki _ _ _ (by intro e; first | rfl | (split <;> rfl))
    | exact .refl _
    | (refine KI.trans (s' := s.modify i (·.upd (.strengthen env))) (modify_ki _ _ _ ?_) (modify_ki _ _ _ ?_) <;> (intro e; first | rfl | (split <;> rfl)))

theorem onAssign_ki (i : Nat) (b : Bool) : KI s (onAssign cfg env s i b) := by
  have ha : ∀ v (e : Entry K V E), (assignTimes cfg env v e).id = e.id := by
    intro v e; unfold assignTimes; simp only; repeat' split
    all_goals rfl
  unfold onAssign; simp only; split
  · exact modify_ki _ _ _ (ha _)
  · exact modify_ki _ _ _ (ha _)

theorem maintenance_ki (h : WF1 cfg s) : KI s (maintenance cfg s) := by
  refine ⟨?_, maintenance_len⟩
  rw [maintenance_ents h, List.map_map]
  apply List.map_congr_left
  intro e _
  simp only [Function.comp]
  split <;> rfl

theorem runCb_ki (i : Nat) (cb : Cb) : KI s (runCb s i cb) := by
  cases cb
  · exact .refl _
  · refine KI.trans (modify_ki s _ _ ?_) (modify_ki _ _ _ ?_) <;> (intro e; rfl)

theorem runCbs_ki (i : Nat) (cbs : List Cb) : KI s (runCbs s i cbs) := by
  unfold runCbs
  induction cbs generalizing s with
  | nil => exact .refl _
  | cons c cbs ih => exact (runCb_ki i c).trans ih

theorem complete_ki (tok : Nat) (r : Res V E) : KI s (complete cfg env s tok r).1 := by
  unfold complete; simp only; repeat' split
  · exact KI.trans (s' := { s with opens := s.opens.erase tok }) ⟨rfl, rfl⟩ (modify_ki _ _ _ (by intro e; first | rfl | (split <;> rfl)))
  · refine KI.trans (s' := { s with opens := s.opens.erase tok }) ⟨rfl, rfl⟩ ?_
    refine KI.trans (KI.trans (runCbs_ki _ _) (modify_ki _ _ _ ?_)) (onAssign_ki _ _)
    intro e; rfl
  · exact .refl _

theorem drop_ki (tok : Nat) : KI s (drop s tok).1 := by
  unfold drop; simp only; split
  · exact KI.trans (s' := { s with opens := s.opens.erase tok }) ⟨rfl, rfl⟩ (modify_ki _ _ _ (by intro e; first | rfl | (split <;> rfl)))
  · exact .refl _

theorem answer_ki (i w : Nat) (l : Look V E) : KI s (answer s i w l).1 := by
  cases l <;> first | exact .refl _ | exact modify_ki _ _ _ (by intro e; first | rfl | (split <;> rfl))

theorem resolveAsync_ki (k : K) (b : Beh V E) : KI (link cfg env s (newEntry s k (.pending {}))) (resolveAsync cfg env s k b).1 := by
  cases b
  · exact ⟨rfl, rfl⟩
  · exact KI.trans (s' := { link cfg env s (newEntry s k (.pending {})) with opens := _ }) ⟨rfl, rfl⟩ (complete_ki _ _)
  · exact KI.trans (s' := { link cfg env s (newEntry s k (.pending {})) with opens := _ }) ⟨rfl, rfl⟩ (drop_ki _)

/-- If the table has room, nothing is removed and it stays as large as it is. -/
def Roomy (cfg : Cfg K) (s s' : St K V E) : Prop :=
  cfg.over (s.size + 1) s.tbl.length = false → (∀ i ∈ s.ents.map (·.id), i ∈ s'.ents.map (·.id)) ∧ (s.tbl.length ≠ 0 → s'.tbl.length = s.tbl.length)

theorem Roomy.ki (h : Roomy cfg s s') (h' : KI s' s'') : Roomy cfg s s'' := by
  intro hf
  obtain ⟨a, b⟩ := h hf
  exact ⟨fun i hi => h'.1 ▸ a i hi, fun h0 => h'.2.trans (b h0)⟩

theorem KI.roomy (h : KI s s') : Roomy cfg s s' := fun _ => ⟨fun i hi => h.1 ▸ hi, fun _ => h.2⟩

theorem link_roomy (h : WF1 cfg s) {e : Entry K V E} (he : e.id = s.nextId) : Roomy cfg s (link cfg env s e) := by
  intro hf
  obtain ⟨_, _, _, _, kept, o, ⟨rem, hr, _⟩, hp, _⟩ := link_spec (cfg := cfg) env h he
  have hl := link_shape (cfg := cfg) (env := env) (s := s) e
  have hb : beforeLink cfg env s = s := by unfold beforeLink; rw [if_neg (by rw [hf]; decide)]
  have hsz : (maybeRehash cfg env s).size = s.size := by
    obtain ⟨a, _⟩ := maybeRehash_shape (cfg := cfg) (env := env) s
    rcases a with a | a
    · rw [hf] at a; exact absurd a.2 (by decide)
    · exact a.1
  refine ⟨?_, ?_⟩
  · have h1 := hp.length_eq
    have h2 := hr.length_eq
    have h3 := hl.2
    simp only [List.length_append, List.length_map, List.length_cons, List.length_nil] at h1 h2
    simp only [St.size] at h3 hsz
    have hrem : rem = [] := List.eq_nil_of_length_eq_zero (by omega)
    intro i hi
    obtain ⟨x, hx, rfl⟩ := List.mem_map.1 hi
    rw [hrem, List.append_nil] at hr
    exact List.mem_map.2 ⟨creUpd o env x, hp.mem_iff.2 (List.mem_append_left _ (List.mem_map.2 ⟨x, hr.mem_iff.1 hx, rfl⟩)), (creUpd_idKey o env x).1⟩
  · intro h0
    rw [hl.1]
    unfold maybeRehash
    simp only
    rw [hb, if_neg]
    unfold mustGrow
    simp [h0, hf]

theorem tryLink_roomy (h : WF1 cfg s) {e : Entry K V E} (he : e.id = s.nextId) (f : Fail) : Roomy cfg s (tryLink cfg env s e f).1 := by
  rcases tryLink_cases cfg env s e f with q | q | q <;> rw [q]
  · exact link_roomy h he
  · exact (KI.refl s).roomy
  · intro hf
    have hb : beforeLink cfg env s = s := by unfold beforeLink; rw [if_neg (by rw [hf]; decide)]
    rw [hb]
    exact ⟨fun _ hi => hi, fun _ => rfl⟩

/-- What an operation does with the entries, and at which of them it looks. -/
def Looks (cfg : Cfg K) (env : Env V) (s s' : St K V E) (v : Seen) : Prop :=
  ∃ s1 : St K V E, (∀ e ∈ s.ents, e.id ∈ s1.ents.map (·.id) ∨ e.id ∈ v.bucket) ∧ s1.tbl.length = s.tbl.length ∧
    ((∀ i ∈ s1.ents.map (·.id), i ∈ s'.ents.map (·.id)) ∧ s'.tbl.length = s.tbl.length ∨ v.all = pass cfg env s1 ∧ Roomy cfg s1 s')

theorem Looks.removed {v : Seen} (h : Looks cfg env s s' v) {e : Entry K V E} (he : e ∈ s.ents) (hn : ∀ x ∈ s'.ents, x.id ≠ e.id) : e.id ∈ v.bucket ∨ e.id ∈ v.all := by
  obtain ⟨s1, h1, _, h3⟩ := h
  have hn' : e.id ∉ s'.ents.map (·.id) := by
    intro hm
    obtain ⟨x, hx, hi⟩ := List.mem_map.1 hm
    exact hn x hx hi
  rcases h1 e he with q | q
  · rcases h3 with ⟨r, _⟩ | ⟨r, r'⟩
    · exact absurd (r _ q) hn'
    · right
      rw [r, pass_eq]
      cases hf : cfg.over (s1.size + 1) s1.tbl.length with
      | false => exact absurd ((r' hf).1 _ q) hn'
      | true => simpa using q
  · exact .inl q

theorem Looks.grown {v : Seen} (h : Looks cfg env s s' v) (hb : s.tbl.length ≠ 0) (hg : s'.tbl.length ≠ s.tbl.length) {e : Entry K V E} (he : e ∈ s.ents) :
    e.id ∈ v.bucket ∨ e.id ∈ v.all := by
  obtain ⟨s1, h1, h2, h3⟩ := h
  rcases h1 e he with q | q
  · rcases h3 with ⟨_, r⟩ | ⟨r, r'⟩
    · exact absurd r hg
    · right
      rw [r, pass_eq]
      cases hf : cfg.over (s1.size + 1) s1.tbl.length with
      | false => exact absurd (((r' hf).2 (h2 ▸ hb)).trans h2) hg
      | true => simpa using q
  · exact .inl q

theorem getWalk_removed_seen (k : K) (incl : Bool) (es : List (Entry K V E)) : ∀ e ∈ (getWalk cfg env k incl es).1.removed, e.id ∈ (getWalk cfg env k incl es).2 := by
  induction es with
  | nil => intro e he; cases he
  | cons x es ih =>
    simp only [getWalk]
    repeat' split
    all_goals
      intro e he
      simp only [Walk.drop, Walk.keep] at he
      first
        | (cases he; done)
        | (rcases List.mem_cons.1 he with rfl | he
           · exact List.mem_cons_self ..
           · exact List.mem_cons_of_mem _ (ih e he))
        | exact List.mem_cons_of_mem _ (ih e he)

theorem walked_seen (s : St K V E) (k : K) (incl : Bool) : ∀ e ∈ s.ents, e.id ∈ (walked cfg env s k incl).ents.map (·.id) ∨ e.id ∈ (getWalk cfg env k incl (bucketOf cfg s k)).2 := by
  obtain ⟨oth, h1, h2, _⟩ := applyWalk_perm (cfg := cfg) (g := id) (getWalk_perm cfg env k incl (s.bucket (s.bucketFor (cfg.hash k)))) (by simp)
  intro e he
  rcases List.mem_append.1 (h1.mem_iff.1 he) with q | q
  · left
    refine List.mem_map.2 ⟨e, h2.mem_iff.2 ?_, rfl⟩
    simpa using q
  · right
    have : e ∈ (getWalk cfg env k incl (bucketOf cfg s k)).1.removed := by rw [getWalk_fst]; exact q
    exact getWalk_removed_seen k incl _ e this

theorem get_seen (s : St K V E) (k : K) (incl : Bool) :
    (∀ e ∈ s.ents, e.id ∈ (get_ cfg env s k incl).1.ents.map (·.id) ∨ e.id ∈ (getWalk cfg env k incl (bucketOf cfg s k)).2) ∧ (get_ cfg env s k incl).1.tbl.length = s.tbl.length := by
  refine ⟨?_, (get__le2 k incl).1⟩
  have : KI (walked cfg env s k incl) (get_ cfg env s k incl).1 := by
    unfold get_
    show KI _ (match (Hoard.getWalk cfg env k incl (s.bucket (s.bucketFor (cfg.hash k)))).hit with
      | none => _
      | some (id, l) => _ : St K V E × Look V E).1
    split
    · exact .refl _
    · exact onHit_ki _
  rw [this.1]
  exact walked_seen s k incl

theorem expire_seen (hc : cfg.Ok) (h : WF1 cfg s) (k : K) :
    (∀ e ∈ s.ents, e.id ∈ (expire_ cfg env s k).ents.map (·.id) ∨ e.id ∈ (expireWalk cfg env k (bucketOf cfg s k)).2) ∧ (expire_ cfg env s k).tbl.length = s.tbl.length := by
  refine ⟨?_, (expire__le2 hc h k).1⟩
  let p : Entry K V E → Bool := fun e => if cfg.eqv e.key k then e.isPending else !stale env e
  have hb : (s.bucket (s.bucketFor (cfg.hash k))).Perm
      ((s.bucket (s.bucketFor (cfg.hash k))).filter p ++ (Hoard.expireWalk cfg env k (s.bucket (s.bucketFor (cfg.hash k)))).removed) := by
    rw [(expireWalk_eq hc env k _).2]
    refine (filter_append_not _ p).trans ?_
    apply List.Perm.append_left
    rw [show (fun e : Entry K V E => !p e) = (fun e => if cfg.eqv e.key k then !e.isPending else stale env e) by
        funext e; simp only [p]; split <;> simp]
  obtain ⟨oth, h1, h2, _⟩ := applyWalk_perm (cfg := cfg) hb (expireWalk_eq hc env k _).1
  intro e he
  rcases List.mem_append.1 (h1.mem_iff.1 he) with q | q
  · left
    rcases List.mem_append.1 q with q | q
    · exact List.mem_map.2 ⟨e, h2.mem_iff.2 (List.mem_append_left _ q), rfl⟩
    · refine List.mem_map.2 ⟨_, h2.mem_iff.2 (List.mem_append_right _ (List.mem_map.2 ⟨e, q, rfl⟩)), ?_⟩
      split <;> rfl
  · right
    rw [expireWalk_snd]
    exact List.mem_map.2 ⟨e, hb.mem_iff.2 (List.mem_append_right _ q), rfl⟩

theorem step_looks (hc : cfg.Ok) (h : WF1 cfg s) (o : Op K V E) (ho : sweeps o = false) : Looks cfg env s (step cfg env s o).1 (seen cfg env s o) := by
  have same : ∀ {s' : St K V E} {v : Seen}, KI s s' → Looks cfg env s s' v := fun k =>
    ⟨s, fun e he => .inl (List.mem_map.2 ⟨e, he, rfl⟩), rfl, .inl ⟨fun i hi => k.1 ▸ hi, k.2⟩⟩
  have ins : ∀ (s1 : St K V E), WF1 cfg s1 → ∀ k v f, Roomy cfg s1 (if (tryLink cfg env s1 (newEntry s1 k (.value v)) f).2 then maintenance cfg (tryLink cfg env s1 (newEntry s1 k (.value v)) f).1
      else (tryLink cfg env s1 (newEntry s1 k (.value v)) f).1) := by
    intro s1 h1 k v f
    have hr := tryLink_roomy (env := env) h1 (e := newEntry s1 k (.value v)) rfl f
    split
    · refine hr.ki (maintenance_ki ?_)
      rcases tryLink_cases cfg env s1 (newEntry s1 k (.value v)) f with q | q | q <;> rw [q]
      · exact (link_spec env h1 (e := newEntry s1 k (.value v)) rfl).1
      · exact h1
      · exact beforeLink_wf1 h1 env
    · exact hr
  have noAll : ∀ (s1 : St K V E) k v f, (insertion cfg env s1 k v f).1 = pass cfg env s1 ∨ f = .alloc := by
    intro s1 k v f
    cases f
    · exact .inl rfl
    · exact .inr rfl
    · exact .inl rfl
  cases o with
  | getIfExists k => exact same (.refl _)
  | get k r =>
    obtain ⟨g1, g2⟩ := get_seen (cfg := cfg) (env := env) s k false
    refine ⟨(get_ cfg env s k false).1, g1, g2, ?_⟩
    cases hh : (getWalk cfg env k false (bucketOf cfg s k)).1.hit.isNone with
    | true =>
      simp only [step, get, seen, hh]
      have hm := miss_eq hh
      cases hr : cfg.resolver with
      | sync =>
        right
        rw [hm]
        exact ⟨by simp, link_roomy (walked_wf1 h env k false) rfl⟩
      | none => left; rw [hm] at g2 ⊢; exact ⟨fun i hi => hi, g2⟩
      | async => left; rw [hm] at g2 ⊢; exact ⟨fun i hi => hi, g2⟩
    | false =>
      left
      have hne : (get_ cfg env s k false).2 ≠ .none := by
        cases hw : (Hoard.getWalk cfg env k false (bucketOf cfg s k)).hit with
        | none => rw [getWalk_fst, hw] at hh; cases hh
        | some x => exact get__hit_ne hw
      have : (step cfg env s (.get k r)).1 = (get_ cfg env s k false).1 := by
        simp only [step, get]
        generalize get_ cfg env s k false = g at hne
        obtain ⟨s1, l⟩ := g
        cases hr : cfg.resolver <;> cases l <;> first | rfl | exact absurd rfl hne
      rw [this]
      exact ⟨fun i hi => hi, g2⟩
  | asyncGet k w b =>
    obtain ⟨g1, g2⟩ := get_seen (cfg := cfg) (env := env) s k true
    refine ⟨(get_ cfg env s k true).1, g1, g2, ?_⟩
    cases hh : (Hoard.getWalk cfg env k true (bucketOf cfg s k)).hit with
    | none =>
      right
      have hn : (getWalk cfg env k true (bucketOf cfg s k)).1.hit.isNone = true := by rw [getWalk_fst, hh]; rfl
      refine ⟨by simp only [seen, hn, if_true], ?_⟩
      simp only [step, asyncGet]
      have hh' : (Hoard.getWalk cfg env k true (s.bucket (s.bucketFor (cfg.hash k)))).hit = none := hh
      rw [hh', miss_eq hn]
      exact ((link_roomy (walked_wf1 h env k true) rfl).ki (resolveAsync_ki k b)).ki (answer_ki _ _ _)
    | some x =>
      left
      obtain ⟨i, l⟩ := x
      have hh' : (Hoard.getWalk cfg env k true (s.bucket (s.bucketFor (cfg.hash k)))).hit = some (i, l) := hh
      simp only [step, asyncGet]
      rw [hh']
      have := answer_ki (s := (get_ cfg env s k true).1) i w l
      exact ⟨fun j hj => this.1 ▸ hj, this.2.trans g2⟩
  | emplace k v f =>
    obtain ⟨g1, g2⟩ := expire_seen (env := env) hc h k
    refine ⟨expire_ cfg env s k, g1, g2, ?_⟩
    have hi := ins _ (expire_wf1 hc h env k) k v f
    rcases noAll (expire_ cfg env s k) k v f with q | rfl
    · right
      refine ⟨q, ?_⟩
      simp only [step, emplace]
      split <;> rename_i hb <;> simp only [hb] at hi
      · simpa using hi
      · simpa using hi
    · left
      exact ⟨fun i hi => hi, g2⟩
  | getOrEmplace k v f =>
    obtain ⟨g1, g2⟩ := get_seen (cfg := cfg) (env := env) s k true
    refine ⟨(get_ cfg env s k true).1, ?_, g2, ?_⟩
    · intro e he
      simp only [seen]
      split <;> exact g1 e he
    · cases hh : (getWalk cfg env k true (bucketOf cfg s k)).1.hit.isNone with
      | true =>
        have hm := miss_eq hh
        simp only [step, getOrEmplace, seen, hh, if_true]
        rw [hm] at g2 ⊢
        simp only at g2 ⊢
        have hi := ins _ (walked_wf1 h env k true) k v f
        rcases noAll (walked cfg env s k true) k v f with q | rfl
        · right
          refine ⟨q, ?_⟩
          split <;> rename_i hb <;> simp only [hb] at hi
          · simpa using hi
          · simpa using hi
        · left
          exact ⟨fun i hi => hi, g2⟩
      | false =>
        left
        have hne : (get_ cfg env s k true).2 ≠ .none := by
          cases hw : (Hoard.getWalk cfg env k true (bucketOf cfg s k)).hit with
          | none => rw [getWalk_fst, hw] at hh; cases hh
          | some x => exact get__hit_ne hw
        have : (step cfg env s (.getOrEmplace k v f)).1 = maintenance cfg (get_ cfg env s k true).1 := by
          simp only [step, getOrEmplace]
          cases hl : (get_ cfg env s k true).2 <;> first | rfl | exact absurd hl hne
        have hki := maintenance_ki (get__wf1 hc h env k true)
        rw [this]
        exact ⟨fun i hi => hki.1 ▸ hi, hki.2.trans g2⟩
  | tick r b =>
    simp only [step, tick, seen]
    cases hq : s.delayQ with
    | nil => exact same (.refl _)
    | cons i q =>
      simp only
      cases hf : s.find i with
      | none => exact same (.refl _)
      | some e =>
        simp only
        cases hr : reached env.now e.refTp with
        | false => exact same (.refl _)
        | true =>
          simp only [if_true, refresh]
          cases hx : (e.refreshing || e.expired env) with
          | true => exact same ⟨rfl, rfl⟩
          | false =>
            refine ⟨{ s with delayQ := q }, fun e he => .inl (List.mem_map.2 ⟨e, he, rfl⟩), rfl, .inr ⟨?_, ?_⟩⟩
            · have : (!e.refreshing && !e.expired env) = true := by
                rw [Bool.or_eq_false_iff] at hx; simp [hx.1, hx.2]
              simp only [Bool.true_and, this, if_true]
            · have hw : WF1 cfg { s with delayQ := q } := ⟨h.ids, h.lt, h.placed, h.sorted, h.bq, (List.nodup_cons.1 (hq ▸ h.dqN)).2, fun i hi => h.dqM i (hq ▸ List.mem_cons_of_mem _ hi)⟩
              have hl : Roomy cfg { s with delayQ := q } (if cfg.resolver = .async then resolveAsync cfg env { s with delayQ := q } e.key b else resolveSync cfg env { s with delayQ := q } e.key r).1 := by
                split
                · exact (link_roomy hw (e := newEntry { s with delayQ := q } e.key (.pending {})) rfl).ki (resolveAsync_ki e.key b)
                · exact link_roomy hw (e := newEntry { s with delayQ := q } e.key (syncMapped r)) rfl
              simp only [Bool.false_eq_true, if_false]
              generalize (if cfg.resolver = .async then resolveAsync cfg env { s with delayQ := q } e.key b else resolveSync cfg env { s with delayQ := q } e.key r) = P at hl
              obtain ⟨s2, tok⟩ := P
              have hr3 := hl.ki (modify_ki s2 e.id (fun x => { x with refreshing := true }) (fun _ => rfl))
              simp only
              split
              · split
                · exact hr3.ki (modify_ki _ _ _ (fun _ => rfl))
                · exact hr3.ki (runCb_ki _ _)
              · exact hr3
  | erase k =>
    obtain ⟨g1, g2⟩ := expire_seen (env := env) hc h k
    exact ⟨expire_ cfg env s k, g1, g2, .inl ⟨fun i hi => hi, g2⟩⟩
  | complete tok r => exact same (complete_ki tok r)
  | drop tok => exact same (drop_ki tok)
  | clear => cases ho
  | count => cases ho
  | destroy => cases ho

end Hoard.Visits
