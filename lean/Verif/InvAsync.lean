import Verif.InvOps
/-! Asynchronous lookups: what completing and starting them does to the state. -/
namespace Hoard
open Spec
variable {K V E : Type}
variable {cfg : Cfg K} {M : Md V} {F : Eff K V} {L L' : Ledger K V} {s s' : St K V E}

theorem find_mem (w : WF1 cfg s) {T : Entry K V E} (hT : T ∈ s.ents) : s.find T.id = some T := by
  unfold St.find
  cases hf : s.ents.find? (fun e => e.id == T.id) with
  | none => have := List.find?_eq_none.1 hf T hT; simp at this
  | some x =>
    have h1 := List.find?_some hf
    have h2 := List.mem_of_find?_eq_some hf
    rw [eq_of_id w h2 hT (by simpa using h1)]

theorem findAny_of (w : WF1 cfg s) {T : Entry K V E} (hT : T ∈ s.ents ++ s.limbo) : s.findAny T.id = some T := by
  unfold St.findAny
  cases hf : (s.ents ++ s.limbo).find? (fun e => e.id == T.id) with
  | none => have := List.find?_eq_none.1 hf T hT; simp at this
  | some x =>
    have h1 := List.find?_some hf
    have h2 := List.mem_of_find?_eq_some hf
    rw [eq_of_id_any w h2 hT (by simpa using h1)]

theorem findAny_mem (w : WF1 cfg s) {T : Entry K V E} (hT : T ∈ s.ents) : s.findAny T.id = some T :=
  findAny_of w (List.mem_append_left _ hT)

theorem tpMin_idem (a c : Option Int) : tpMin (tpMin a c) c = tpMin a c := by
  cases a <;> cases c <;> simp [tpMin]

/-- The deadline `c` after running the callbacks: the replaced entries' deadline
is taken over. -/
def CopyTp (s : St K V E) (cbs : List Cb) (a c : Option Int) : Prop :=
  ((∀ old, Cb.refresh old ∉ cbs) → c = a) ∧
  ∀ d, (∃ old, Cb.refresh old ∈ cbs) → (∀ old, Cb.refresh old ∈ cbs → ∃ o ∈ s.ents ++ s.limbo, o.id = old ∧ o.canTp = d) → c = tpMin a d

/-- Killing the replaced entries and copying their deadlines. -/
theorem runCbs_spc (env : Env V) {x : Nat} (cbs : List Cb) : ∀ {s : St K V E}, WF1 cfg s →
    ∀ {T : Entry K V E}, T ∈ s.ents → T.id = x → (∀ old, Cb.refresh old ∈ cbs → old ≠ x ∧ ∀ k v, F.die old k v) →
    let s' := runCbs s x cbs
    WF1 cfg s' ∧ Spc cfg env F x s s' ∧ s'.opens = s.opens ∧ s'.nextId = s.nextId ∧ s'.delayQ = s.delayQ ∧
    (∃ c, ({ T with canTp := c } : Entry K V E) ∈ s'.ents ∧ CopyTp s cbs T.canTp c) ∧
    (∀ e' ∈ s'.ents, Cb.refresh e'.id ∈ cbs → e'.mapped.val? = none) := by
  induction cbs with
  | nil =>
    intro s w T hT hid _
    exact ⟨w, (Shr.refl s).spc x, rfl, rfl, rfl, ⟨T.canTp, hT, fun _ => rfl, fun d h => by simp at h⟩, by simp⟩
  | cons c cbs ih =>
    intro s w T hT hid hne
    cases c with
    | user u =>
      have := ih w hT hid (fun old ho => hne old (List.mem_cons_of_mem _ ho))
      simp only at this ⊢
      have e1 : runCbs s x (.user u :: cbs) = runCbs s x cbs := rfl
      rw [e1]
      obtain ⟨a1, a2, a3, a4, a5, ⟨c, hc, ha, hb⟩, a7⟩ := this
      have hu : ∀ old, Cb.refresh old ∈ Cb.user u :: cbs → Cb.refresh old ∈ cbs := by
        intro old ho
        rcases List.mem_cons.1 ho with h | h
        · cases h
        · exact h
      refine ⟨a1, a2, a3, a4, a5, ⟨c, hc, ?_, ?_⟩, ?_⟩
      · intro hn; exact ha (fun old ho => hn old (List.mem_cons_of_mem _ ho))
      · intro d ⟨old, ho⟩ hall
        exact hb d ⟨old, hu old ho⟩ (fun old ho => hall old (List.mem_cons_of_mem _ ho))
      · intro e' he' hm
        exact a7 e' he' (hu _ hm)
    | refresh old =>
      obtain ⟨hox, hdie⟩ := hne old (List.mem_cons_self ..)
      let tp : Option Int := match s.findAny old with
        | some o => o.canTp
        | none => none
      let s1 := s.modify x (fun e => { e with canTp := tpMin e.canTp tp })
      let s2 := s1.modify old (·.upd .markExpired)
      have e1 : runCbs s x (.refresh old :: cbs) = runCbs s2 x cbs := rfl
      have w1 : WF1 cfg s1 := w.modify x (fun _ => ⟨rfl, rfl⟩)
      have w2 : WF1 cfg s2 := w1.modify old (IdKey.upd _)
      have r1 : Spc cfg env F x s s1 := Spc.modify s (fun _ => ⟨rfl, rfl⟩) (fun e _ => .inr (fun h => h))
      have r2 : Spc cfg env F x s1 s2 := (Shr.modify s1 old _ (fun e _ _ => ShrE.markExpired e)
        (fun e _ hi w => absurd (hi ▸ hdie _ _) w.die)
        (fun e _ _ => ⟨(ShrE.markExpired (cfg := cfg) (env := env) e).lim, (ShrE.markExpired (cfg := cfg) (env := env) (F := F) e).cbs⟩)).spc x
      have hT2 : ({ T with canTp := tpMin T.canTp tp } : Entry K V E) ∈ s2.ents := by
        rw [show s2.ents = s1.ents.map _ from ents_modify _ _ _, show s1.ents = s.ents.map _ from ents_modify _ _ _]
        refine List.mem_map.2 ⟨_, List.mem_map.2 ⟨T, hT, rfl⟩, ?_⟩
        simp [atId, hid, Ne.symm hox]
      have hold : ∀ e' ∈ s2.ents, e'.id = old → e'.mapped.val? = none := by
        intro e' he' h0
        rw [show s2.ents = s1.ents.map _ from ents_modify _ _ _] at he'
        obtain ⟨e, he, rfl⟩ := List.mem_map.1 he'
        have hh : e.id = old := by
          have := ((IdKey.upd (K := K) (Mapped.markExpired (V := V) (E := E))).atId old e).1
          exact this.symm.trans h0
        simp only [atId, hh, if_true, Entry.upd]
        cases e.mapped <;> rfl
      have hany : ∀ o ∈ s.ents ++ s.limbo, o.id ≠ x → ∃ o' ∈ s2.ents ++ s2.limbo, o'.id = o.id ∧ o'.canTp = o.canTp := by
        intro o ho hx
        have hm : atId old (·.upd .markExpired) (atId x (fun e => { e with canTp := tpMin e.canTp tp }) o) ∈ s2.ents ++ s2.limbo := by
          rw [show s2.ents = s1.ents.map _ from ents_modify _ _ _, show s1.ents = s.ents.map _ from ents_modify _ _ _,
            show s2.limbo = s1.limbo.map _ from limbo_modify _ _ _, show s1.limbo = s.limbo.map _ from limbo_modify _ _ _,
            ← List.map_append, ← List.map_append]
          exact List.mem_map.2 ⟨_, List.mem_map.2 ⟨o, ho, rfl⟩, rfl⟩
        refine ⟨_, hm, ?_⟩
        by_cases h0 : o.id = old <;> simp [atId, h0, hx, hox, Entry.upd]
      have := ih w2 hT2 hid (fun o ho => hne o (List.mem_cons_of_mem _ ho))
      simp only at this ⊢
      rw [e1]
      obtain ⟨a1, a2, a3, a4, a5, ⟨c, hc, ha, hb⟩, a7⟩ := this
      refine ⟨a1, (r1.trans r2).trans a2, a3, a4, a5, ⟨c, hc, ?_, ?_⟩, ?_⟩
      · intro hn; exact absurd (List.mem_cons_self ..) (hn old)
      · intro d _ hall
        obtain ⟨o, hom, hoi, hoc⟩ := hall old (List.mem_cons_self ..)
        have htp : tp = d := by
          have := findAny_of w hom
          rw [hoi] at this
          simp only [tp, this]; exact hoc
        rw [htp] at ha hb
        by_cases hmore : ∃ o', Cb.refresh o' ∈ cbs
        · rw [hb d hmore ?_, tpMin_idem]
          intro o' ho'
          obtain ⟨p, hp, hpi, hpc⟩ := hall o' (List.mem_cons_of_mem _ ho')
          obtain ⟨p', hp', hi', hc'⟩ := hany p hp (by rw [hpi]; exact (hne o' (List.mem_cons_of_mem _ ho')).1)
          exact ⟨p', hp', hi'.trans hpi, hc'.trans hpc⟩
        · exact ha (fun o' ho' => hmore ⟨o', ho'⟩)
      · intro e' he' hm
        rcases List.mem_cons.1 hm with h | h
        · cases h
          obtain ⟨e, he, sh⟩ := a2.bwd e' he' hox
          cases hv : e'.mapped.val? with
          | none => rfl
          | some v =>
            have := sh.val v hv
            rw [hold e he sh.id.symm] at this; cases this
        · exact a7 e' he' h

theorem completed_notPending (cfg : Cfg K) (r : Res V E) (m : Mapped V E) : (completed cfg r m).isPending = false := by
  cases m <;> try rfl
  cases r <;> simp only [completed, Mapped.assigned, Mapped.assignedError] <;> (split <;> (try split) <;> (try split) <;> rfl)

/-- Completion of an open lookup. -/
theorem complete_spc (env : Env V) (w : WF1 cfg s) {x : Nat} {T : Entry K V E} (hT : T ∈ s.ents)
    (hid : T.id = x) (hcb : ∀ old, Cb.refresh old ∈ T.mapped.cbs → old < x ∧ ∀ k v, F.die old k v) (hdq : x ∉ s.delayQ) (ho : x ∈ s.opens)
    (hd : s.destroyed = false) (r : Res V E) :
    let g := complete cfg env s x r
    WF1 cfg g.1 ∧ Spc cfg env F x s g.1 ∧ g.1.opens = s.opens.erase x ∧ g.1.nextId = s.nextId ∧
    (x ∈ g.1.delayQ ↔ (cfg.refresh.isSome && r.isOk) = true) ∧
    (∃ c, assignTimes cfg env r.isOk { T with mapped := completed cfg r T.mapped, canTp := c } ∈ g.1.ents ∧ CopyTp s T.mapped.cbs T.canTp c) ∧
    (∀ e' ∈ g.1.ents, e'.id ≠ x → Cb.refresh e'.id ∈ T.mapped.cbs → e'.mapped.val? = none) ∧
    g.2 = { ret := .bool true, fired := (users T.mapped.cbs).map (fun u => (u, r)) } := by
  let s0 : St K V E := { s with opens := s.opens.erase x }
  have w0 : WF1 cfg s0 := ⟨w.ids, w.lt, w.placed, w.sorted, w.bq, w.dqN, w.dqM⟩
  have r0 : Spc cfg env F x s s0 := Spc.opens s _ (fun t ht => List.mem_erase_of_ne ht)
  have hfa : ((s0.findAny x).map (·.mapped.cbs)).getD [] = T.mapped.cbs := by
    have := findAny_mem w0 (T := T) hT
    rw [hid] at this; rw [this]; rfl
  obtain ⟨w1, r1, o1, n1, d1, ⟨c, hT1, hcopy⟩, kill1⟩ :=
    runCbs_spc (F := F) env (x := x) T.mapped.cbs w0 hT hid (fun old h => ⟨Nat.ne_of_lt (hcb old h).1, (hcb old h).2⟩)
  let s1 := runCbs s0 x T.mapped.cbs
  let s2 := s1.modify x (·.upd (completed cfg r))
  have w2 : WF1 cfg s2 := w1.modify x (IdKey.upd _)
  have hcm : ∀ m : Mapped V E, m.cbs = [] → (completed cfg r m).cbs = [] := fun m _ => Mapped.cbs_nil (completed_notPending cfg r m)
  have r2 : Spc cfg env F x s1 s2 := Spc.modify s1 (IdKey.upd _) (fun e _ => .inr (fun h => hcm _ h))
  have hT2 : ({ T with mapped := completed cfg r T.mapped, canTp := c } : Entry K V E) ∈ s2.ents := by
    rw [show s2.ents = s1.ents.map _ from ents_modify _ _ _]
    exact List.mem_map.2 ⟨_, hT1, by simp [atId, hid, Entry.upd]⟩
  have hd2 : x ∉ s2.delayQ := by show x ∉ s1.delayQ; rw [show s1.delayQ = s0.delayQ from d1]; exact hdq
  let s3 := onAssign cfg env s2 x r.isOk
  have w3 : WF1 cfg s3 := onAssign_wf1 env w2 _ (List.mem_map.2 ⟨_, hT2, hid⟩) hd2
  have r3 : Spc cfg env F x s2 s3 := onAssign_spc env s2 x _
  have hT3 : assignTimes cfg env r.isOk { T with mapped := completed cfg r T.mapped, canTp := c } ∈ s3.ents := by
    rw [show s3.ents = _ from onAssign_ents _ _ _ _ _]
    exact List.mem_map.2 ⟨_, hT2, by simp [atId, hid]⟩
  have e3 : complete cfg env s x r = (s3, { ret := .bool true, fired := (users T.mapped.cbs).map (fun u => (u, r)) }) := by
    have hd0 : s0.destroyed = false := hd
    have : complete cfg env s x r = (if s0.destroyed then
        (s0.modify x (·.upd .cancel), { ret := .bool false, broken := users (((s0.findAny x).map (·.mapped.cbs)).getD []) })
      else (onAssign cfg env ((runCbs s0 x (((s0.findAny x).map (·.mapped.cbs)).getD [])).modify x (·.upd (completed cfg r))) x r.isOk,
        { ret := .bool true, fired := (users (((s0.findAny x).map (·.mapped.cbs)).getD [])).map (fun u => (u, r)) })) := by
      unfold complete; rw [if_pos ho]
    rw [this, hd0, hfa]; rfl
  rw [e3]
  have os : s3.opens = s2.opens := (onAssign_same cfg env s2 x r.isOk).opens
  have ns : s3.nextId = s2.nextId := (onAssign_same cfg env s2 x r.isOk).nextId
  refine ⟨w3, ((r0.trans r1).trans r2).trans r3, os.trans o1, ns.trans n1, ?_, ⟨c, hT3, hcopy⟩, ?_, rfl⟩
  · show x ∈ (onAssign cfg env s2 x r.isOk).delayQ ↔ _
    unfold onAssign
    simp only
    cases hb : (cfg.refresh.isSome && r.isOk)
    · simp only [Bool.false_eq_true, if_false, iff_false]; exact hd2
    · simp
  · intro e' he' hx hm
    obtain ⟨e, he, sh⟩ := (r2.trans r3).bwd e' he' hx
    have := kill1 e he (by rw [← sh.id]; exact hm)
    cases hv : e'.mapped.val? with
    | none => rfl
    | some v => rw [sh.val v hv] at this; cases this

theorem completed_val {r : Res V E} {m : Mapped V E} (hm : m.isPending = true) {v : V}
    (h : (completed cfg r m).val? = some v) : m.live = true ∧ r = .ok v := by
  cases m with
  | pending p =>
    cases r with
    | ok u =>
      simp only [completed, Mapped.assigned] at h
      cases he : p.expired
      · simp only [he] at h
        refine ⟨by simp [Mapped.live, he], ?_⟩
        split at h
        · rename_i hh; cases hh
        · split at h
          · split at h
            · simp only [Mapped.val?, Option.some.injEq] at h; rw [h]
            · simp [Mapped.val?] at h
          · simp only [Mapped.val?, Option.some.injEq] at h; rw [h]
      · simp [he, Mapped.val?] at h
    | err e =>
      simp only [completed, Mapped.assignedError] at h
      split at h <;> simp [Mapped.val?] at h
  | _ => cases hm

/-- A lookup that still counts and may be stored delivers its value. -/
theorem completed_live {r : Res V E} {m : Mapped V E} (hl : m.live = true) (hs : m.strong = true ∨ cfg.ptr = true) :
    (completed cfg r m).val? = value? r := by
  cases m with
  | pending p =>
    have he : p.expired = false := by simpa [Mapped.live] using hl
    cases r with
    | ok u =>
      simp only [completed, Mapped.assigned, he]
      cases hw : p.weakened
      · simp [Mapped.val?, value?]
      · have : cfg.ptr = true := by
          rcases hs with hs | hs
          · simp [Mapped.strong, hw] at hs
          · exact hs
        simp [Mapped.val?, value?, this]
    | err e => simp only [completed, Mapped.assignedError, value?]; split <;> rfl
  | _ => cases hl

theorem completed_strong {r : Res V E} {m : Mapped V E} (hs : m.strong = true) : (completed cfg r m).strong = true := by
  cases m with
  | pending p =>
    have hw : p.weakened = false := by simpa [Mapped.strong] using hs
    cases r with
    | ok u => simp only [completed, Mapped.assigned, hw]; cases p.expired <;> simp [Mapped.strong]
    | err e => simp only [completed, Mapped.assignedError]; split <;> rfl
  | _ => exact hs

/-- What becomes of the new lookup inside `resolveAsync`. -/
def behMapped : Beh V E → Mapped V E
  | .later => .pending {}
  | .now (.ok v) => .value v
  | .now (.err e) => .error e
  | .drop => .pending { expired := true }

theorem behMapped_void (b : Beh V E) : (behMapped b).isVoid = false := by
  cases b with
  | now r => cases r <;> rfl
  | _ => rfl

theorem completed_void (cfg : Cfg K) (r : Res V E) {m : Mapped V E} (hp : m.isPending = true) : (completed cfg r m).isVoid = false := by
  cases m <;> cases hp
  cases r <;> simp only [completed, Mapped.assigned, Mapped.assignedError]
  · split <;> first | rfl | (split <;> first | rfl | (split <;> rfl))
  · split <;> rfl

theorem isVoid_of_pending {m : Mapped V E} (hp : m.isPending = true) : m.isVoid = false := by
  cases m <;> first | rfl | cases hp

/-- Whether the resolver keeps the callback. -/
def Beh.opens : Beh V E → Nat → List Nat
  | .later, x => [x]
  | _, _ => []

/-- The resolver delivers a value at once. -/
def Beh.isOk : Beh V E → Bool
  | .now r => r.isOk
  | _ => false

/-- The entry of a lookup right after it was started. -/
def behEntry (cfg : Cfg K) (env : Env V) (s : St K V E) (k : K) : Beh V E → Entry K V E
  | .later => newEntry s k (.pending {})
  | .now r => assignTimes cfg env r.isOk (newEntry s k (syncMapped r))
  | .drop => newEntry s k (.pending { expired := true })

theorem behEntry_facts (cfg : Cfg K) (env : Env V) (s : St K V E) (k : K) (b : Beh V E) :
    (behEntry cfg env s k b).id = s.nextId ∧ (behEntry cfg env s k b).key = k ∧ (behEntry cfg env s k b).mapped = behMapped b ∧
    (behEntry cfg env s k b).refreshing = false := by
  cases b with
  | later => exact ⟨rfl, rfl, rfl, rfl⟩
  | drop => exact ⟨rfl, rfl, rfl, rfl⟩
  | now r =>
    have h1 := assignTimes_idKey cfg env r.isOk (newEntry s k (syncMapped r))
    have h2 := assignTimes_mapped cfg env r.isOk (newEntry s k (syncMapped r))
    exact ⟨h1.1, h1.2, h2.1.trans (by cases r <;> rfl), h2.2⟩

theorem opens_nodup {l : List Nat} (h : l.Nodup) {x : Nat} (hx : x ∉ l) (b : Beh V E) : (l ++ b.opens x).Nodup := by
  cases b <;> simp only [Beh.opens, List.append_nil] <;> try exact h
  rw [List.nodup_append]
  refine ⟨h, by simp, ?_⟩
  intro a ha c hcc
  simp at hcc; subst hcc
  intro e; exact hx (e ▸ ha)

theorem users_append (a b : List Cb) : users (a ++ b) = users a ++ users b := by simp [users]

theorem next_not_open (w : WF1 cfg s) (w2 : WF2 cfg s) (hd : s.destroyed = false) : s.nextId ∉ s.opens := by
  intro ho
  obtain ⟨e, he, hid, _⟩ := w2.opE hd _ ho
  exact id_ne_next w he hid

theorem next_not_queued (w : WF1 cfg s) : s.nextId ∉ s.delayQ := by
  intro hm
  obtain ⟨x, hx, hxe⟩ := List.mem_map.1 (w.dqM _ hm)
  exact id_ne_next w hx hxe

theorem resolveAsync_spc (env : Env V) (h1 : WF1 cfg s) (h2 : WF2 cfg s) (hd : s.destroyed = false) (k : K) (b : Beh V E) :
    let g := resolveAsync cfg env s k b
    g.2 = s.nextId ∧ WF1 cfg g.1 ∧ Spc cfg env F s.nextId s g.1 ∧ g.1.nextId = s.nextId + 1 ∧ g.1.opens = s.opens ++ b.opens s.nextId ∧
    behEntry cfg env s k b ∈ g.1.ents ∧ (s.nextId ∈ g.1.delayQ ↔ (cfg.refresh.isSome && b.isOk) = true) := by
  obtain ⟨w1, r1, hin, hop, hnx, hdes, hdq⟩ := link_spc (F := F) env h1 (e := newEntry s k (.pending {})) rfl
  have hlu : linkUpd cfg env (newEntry s k (.pending {} : Mapped V E)) = newEntry s k (.pending {}) :=
    (linkUpd_facts cfg env _).2.2.2.2 rfl
  rw [hlu] at hin
  have hxs := next_not_open h1 h2 hd
  have hdq : s.nextId ∉ (link cfg env s (newEntry s k (.pending {}))).delayQ := by
    intro hm
    have := hdq.1 hm
    simp [newEntry, Entry.isPending, Mapped.isPending] at this
  let s1 := link cfg env s (newEntry s k (.pending {}))
  let s2 : St K V E := { s1 with opens := s1.opens ++ [s.nextId] }
  have w2 : WF1 cfg s2 := ⟨w1.ids, w1.lt, w1.placed, w1.sorted, w1.bq, w1.dqN, w1.dqM⟩
  have r2 : Spc cfg env F s.nextId s s2 := Spc.trans r1 (Spc.opens s1 _ (by intro t ht; simp [ht]))
  have ho2 : s2.opens = s.opens ++ [s.nextId] := by show s1.opens ++ _ = _; rw [show s1.opens = s.opens from hop]
  have her : s2.opens.erase s.nextId = s.opens := by
    rw [ho2, List.erase_append_right _ hxs]; simp
  cases b with
  | later =>
    exact ⟨rfl, w2, r2, hnx, ho2, hin, by simp [Beh.isOk]; exact hdq⟩
  | now r =>
    have := complete_spc (F := F) env w2 (T := newEntry s k (.pending {})) hin rfl (by intro old ho; simp [newEntry, Mapped.cbs] at ho) hdq
      (show s.nextId ∈ s2.opens by rw [ho2]; simp) (show s2.destroyed = false from r2.des.trans hd) r
    obtain ⟨a1, a2, a3, a4, a5, ⟨c, hn, hcp, _⟩, _, _⟩ := this
    have hcn : c = none := hcp (by intro old ho; simp [newEntry, Mapped.cbs] at ho)
    subst hcn
    have hb : completed cfg r (newEntry s k (.pending {} : Mapped V E)).mapped = syncMapped r := by
      cases r <;> simp [completed, newEntry, Mapped.assigned, Mapped.assignedError, syncMapped]
    rw [hb] at hn
    refine ⟨rfl, a1, r2.trans a2, a4.trans hnx, ?_, hn, a5⟩
    show (complete cfg env s2 s.nextId r).1.opens = _
    rw [show (complete cfg env s2 s.nextId r).1.opens = _ from a3]; exact her.trans (by simp [Beh.opens])
  | drop =>
    have he : (drop s2 s.nextId).1 = ({ s2 with opens := s2.opens.erase s.nextId } : St K V E).modify s.nextId (·.upd .cancel) := by
      unfold drop; rw [if_pos (by rw [ho2]; simp)]
    have hg : resolveAsync cfg env s k .drop = ((drop s2 s.nextId).1, s.nextId) := rfl
    rw [hg]
    simp only [he]
    let s3 : St K V E := { s2 with opens := s2.opens.erase s.nextId }
    have w3 : WF1 cfg s3 := ⟨w1.ids, w1.lt, w1.placed, w1.sorted, w1.bq, w1.dqN, w1.dqM⟩
    have r3 : Spc cfg env F s.nextId s2 s3 := Spc.opens s2 _ (fun t ht => List.mem_erase_of_ne ht)
    have r4 : Spc cfg env F s.nextId s3 (s3.modify s.nextId (·.upd .cancel)) :=
      Spc.modify s3 (IdKey.upd _) (fun e _ => .inr (fun h => by
        show (Mapped.cancel e.mapped).cbs = []
        cases hm : e.mapped <;> simp [Mapped.cancel, Mapped.cbs]))
    refine ⟨trivial, w3.modify _ (IdKey.upd _), (r2.trans r3).trans r4, hnx, ?_, ?_, by simp [Beh.isOk]; exact hdq⟩
    · show s2.opens.erase s.nextId = _; rw [her]; simp [Beh.opens]
    · rw [ents_modify]
      exact List.mem_map.2 ⟨_, hin, by simp [atId, newEntry, behEntry, Entry.upd, Mapped.cancel]⟩

/-- A waiter joins the lookup `x`. -/
theorem addUser_ok (hc : cfg.Ok) {X} (h : Good cfg M X s L) (hd : s.destroyed = false)
    {T : Entry K V E} (hT : T ∈ s.ents) (hp : T.isPending = true) (w : Nat) :
    Good cfg M X (s.modify T.id (·.upd (.addCb (.user w)))) (L.join T.id w) := by
  have w1 : WF1 cfg (s.modify T.id (·.upd (.addCb (.user w)))) := h.wf1.modify _ (IdKey.upd _)
  have hent := ents_modify s T.id (·.upd (.addCb (.user w)))
  have hlimx : ∀ e ∈ s.limbo, e.id ≠ T.id := fun e he => Ne.symm (not_limbo_of_ents h.wf1 hT he)
  have r : Spc cfg M.env ({} : Eff K V) T.id s (s.modify T.id (·.upd (.addCb (.user w)))) :=
    Spc.modify s (IdKey.upd _) (fun e he => .inl (hlimx e he))
  obtain ⟨p, hpm⟩ : ∃ p, T.mapped = .pending p := by
    cases hm : T.mapped <;> simp_all [Entry.isPending, Mapped.isPending]
  have hn : T.upd (.addCb (.user w)) ∈ (s.modify T.id (·.upd (.addCb (.user w)))).ents := by
    rw [hent]; exact List.mem_map.2 ⟨T, hT, by simp [atId]⟩
  have hnm : (T.upd (.addCb (.user w))).mapped = .pending { p with cbs := p.cbs ++ [.user w] } := by
    simp [Entry.upd, hpm, Mapped.addCb]
  have hlive : (T.upd (.addCb (.user w))).mapped.live = T.mapped.live := by rw [hnm, hpm]; rfl
  have hstr : (T.upd (.addCb (.user w))).mapped.strong = T.mapped.strong := by rw [hnm, hpm]; rfl
  have hval : (T.upd (.addCb (.user w))).mapped.val? = none := by rw [hnm]; rfl
  have hval0 : T.mapped.val? = none := by rw [hpm]; rfl
  have hcbs : (T.upd (.addCb (.user w))).mapped.cbs = T.mapped.cbs ++ [.user w] := by rw [hnm, hpm]; rfl
  have hpen := h.wf2.pen T hT hp
  have hcbm : ∀ old, Cb.refresh old ∈ T.mapped.cbs ++ [Cb.user w] → Cb.refresh old ∈ T.mapped.cbs := by
    intro old ho
    rcases List.mem_append.1 ho with h | h
    · exact h
    · simp at h
  have hbwd : ∀ e' ∈ (s.modify T.id (·.upd (.addCb (.user w)))).ents, e'.id ≠ T.id → e' ∈ s.ents := by
    intro e' he' hx
    rw [hent] at he'
    obtain ⟨e, he, rfl⟩ := List.mem_map.1 he'
    by_cases hh : e.id = T.id
    · exfalso; apply hx
      exact ((IdKey.upd _).atId _ e).1.trans hh
    · simpa [atId, hh] using he
  have hfwd : ∀ e ∈ s.ents, e.id ≠ T.id → e ∈ (s.modify T.id (·.upd (.addCb (.user w)))).ents := by
    intro e he hx
    rw [hent]; exact List.mem_map.2 ⟨e, he, by simp [atId, hx]⟩
  have huniq : ∀ e' ∈ (s.modify T.id (·.upd (.addCb (.user w)))).ents, e'.id = T.id → e' = T.upd (.addCb (.user w)) :=
    fun e' he' hh => eq_of_id w1 he' hn hh
  have hspc : SpcN cfg s (s.modify T.id (·.upd (.addCb (.user w)))) T.id (T.upd (.addCb (.user w))) := by
    refine ⟨hn, rfl, h.wf2.opN, fun _ => by rw [Entry.isPending, hnm]; rfl, ?_, ?_, ?_, ?_, ?_, ?_, ?_, ?_⟩
    · intro _
      refine ⟨hpen.1, hpen.2.1, hpen.2.2.1, hpen.2.2.2.1, ?_, hpen.2.2.2.2.2⟩
      rw [hlive]; exact hpen.2.2.2.2.1
    · intro ha; have := (h.wf2.noA ha).2 T hT; rw [hp] at this; cases this
    · intro old ho; rw [hcbs] at ho
      obtain ⟨g1, g2⟩ := h.wf2.cb T hT old (hcbm old ho)
      refine ⟨g1, fun a ha hi => ?_⟩
      exact g2 a (hbwd a ha (by omega)) hi
    · intro a b ha hb; rw [hcbs] at ha hb; exact h.wf2.one T hT a b (hcbm a ha) (hcbm b hb)
    · intro e he _ hcb
      have := ((h.wf2.cb e he T.id hcb).2 T hT rfl).1
      rw [hp] at this; cases this
    · intro e' he' hx hk hor
      have hlv : T.mapped.live = true := by
        rcases hor with h | h
        · rw [hlive] at h; exact h
        · exact absurd hval h
      cases he : e'.mapped.live
      · rfl
      · exact absurd (h.wf2.vb e' (hbwd e' he' hx) T hT he hlv hk) hx
    · intro e' he' hx hk hv; exact absurd hval hv
    · intro e' he' hx hk hlv hv
      rw [hlive] at hlv
      obtain ⟨v, hv⟩ := Option.ne_none_iff_exists'.1 hv
      rw [hcbs]
      obtain ⟨g1, g2⟩ := h.wf2.vc e' (hbwd e' he' hx) T hT v hv hlv hk
      exact ⟨List.mem_append_left _ g1, g2⟩
  have hw2 := h.wf2.special hc w1 r hd hspc
  refine ⟨w1, hw2, ?_, ?_, ?_, ?_⟩
  · refine h.dq.special w1 r hn rfl hpen.2.2.2.1 (fun _ _ h => h.elim) (fun _ _ _ hx _ _ => hx) ?_ ?_ (fun hv => absurd hv (by rw [hnm]; simp [Mapped.isVoid]))
    · intro d i _ hq; exact absurd hq hpen.2.2.2.1
    · intro _ hv; exact absurd hval hv
  · refine h.g.spc r h.g.rsp (fun t ht => by simp [Ledger.join, ht]) (fun _ _ => rfl) (Nat.le_refl _) ?_ ?_ (fun _ _ _ => .inr (fun h => h))
    · intro hh
      have : s.nextId ≤ T.id := hh
      have := h.wf1.lt T (List.mem_append_left _ hT); omega
    · intro n hn' hid
      rw [huniq n hn' hid]
      refine ⟨fun ho => ⟨?_, ?_⟩, fun hex hcnd => by rw [hstr]; exact h.g.st hex hcnd T hT⟩
      · rw [hcbs, users_append, h.g.wt T hT ho]; simp [Ledger.join, users]
      · rw [hcbs]
        show L.refr T.id = true ↔ _
        rw [h.g.rfw T hT ho]
        exact ⟨fun ⟨old, ho⟩ => ⟨old, List.mem_append_left _ ho⟩, fun ⟨old, ho⟩ => ⟨old, hcbm old ho⟩⟩
  · intro k
    exact (h.v k).frame h.g.st r ⟨rfl, rfl, rfl, rfl, fun h => h⟩ (fun e he hid _ => by rw [eq_of_id h.wf1 he hT hid]; exact hval0)
      (fun e he hid _ => by rw [huniq e he hid]; exact hval) (fun _ _ _ _ h => h) (fun _ _ _ _ h => h.elim) (fun _ _ _ _ _ _ _ h => h.elim)
  · intro k
    constructor
    case c2 =>
      intro e' he' hk hlv
      by_cases hx : e'.id = T.id
      · rw [huniq e' he' hx] at hlv hk ⊢
        exact (h.p k).c2 T hT hk (hlive ▸ hlv)
      · exact (h.p k).c2 e' (hbwd e' he' hx) hk hlv
    case c3 =>
      intro _ t hv
      obtain ⟨ho, T0, hT0, h1, h2, h3, h4, h5⟩ := (h.p k).c3 hd t hv
      refine ⟨ho, ?_⟩
      have hno : ∀ {a : Entry K V E}, a ∈ (s.modify T.id (·.upd (.addCb (.user w)))).ents → a.mapped.val? ≠ none → a ∈ s.ents := by
        intro a ha hav
        exact hbwd a ha (fun hh => hav (by rw [huniq a ha hh]; exact hval))
      by_cases hx : T0.id = T.id
      · have : T0 = T := eq_of_id h.wf1 hT0 hT hx
        subst this
        exact ⟨_, hn, h1, by rw [Entry.isPending, hnm]; rfl, h3, fun hex => by rw [hlive]; exact h4 hex,
          fun a ha hav hak => by rw [hcbs]; exact List.mem_append_left _ (h5 a (hno ha hav) hav hak)⟩
      · exact ⟨T0, hfwd T0 hT0 hx, h1, h2, h3, h4, fun a ha hav hak => h5 a (hno ha hav) hav hak⟩
    case t4 =>
      have key : ∀ T0 ∈ s.ents, cfg.eqv T0.key k = true → T0.mapped.live = true → ∀ old, Cb.refresh old ∈ T0.mapped.cbs →
          ∃ o ∈ (s.modify T.id (·.upd (.addCb (.user w)))).ents ++ (s.modify T.id (·.upd (.addCb (.user w)))).limbo,
            o.id = old ∧ cfg.eqv o.key k = true ∧ o.canTp = L.idleLimit cfg.refresh k := by
        intro T0 hT0 hk hlv old ho
        obtain ⟨o, hom, hoi, hok, hoc⟩ := (h.p k).t4 T0 hT0 hk hlv old ho
        have hox : o.id ≠ T.id := by
          intro hh
          have := ((h.wf2.cb T0 hT0 old ho).2 T hT (by rw [← hh]; exact hoi)).1
          rw [hp] at this; cases this
        obtain ⟨o', ho', le⟩ := r.any o hom hox
        exact ⟨o', ho', le.id.trans hoi, by rw [le.key]; exact hok, (le.can (fun h => h)).trans hoc⟩
      intro T' hT' hk hlv old ho
      by_cases hx : T'.id = T.id
      · rw [huniq T' hT' hx] at hlv hk ho
        exact key T hT hk (hlive ▸ hlv) old (hcbm old (hcbs ▸ ho))
      · exact key T' (hbwd T' hT' hx) hk hlv old ho
    case x3 =>
      intro hex e' he' hk hv T' hT' hcb hop
      have hex' : e' ∈ s.ents := hbwd e' he' (fun hh => hv (by rw [huniq e' he' hh]; exact hval))
      by_cases hx : T'.id = T.id
      · rw [huniq T' hT' hx] at hcb hop ⊢
        rw [hlive]
        exact (h.p k).x3 hex e' hex' hk hv T hT (hcbm _ (hcbs ▸ hcb)) hop
      · exact (h.p k).x3 hex e' hex' hk hv T' (hbwd T' hT' hx) hcb hop
    case fr => exact (h.p k).fr

end Hoard
