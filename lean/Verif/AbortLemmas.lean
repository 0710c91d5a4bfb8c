import Verif.Spec.Abort
import Verif.AnswerLemmas
import Verif.StorageLemmas
import Verif.ThrowLemmas
/-! Walks that are left in the middle: the first part of a bucket was walked, the rest is untouched. -/
namespace Hoard.Abort
open Spec
variable {K V E : Type} {cfg : Cfg K} {M : Md V} {s : St K V E} {L : Ledger K V}

/-- Only stale entries are removed. -/
structure Cut (env : Env V) (es : List (Entry K V E)) (w : Walk K V E) : Prop where
  perm : es.Perm (w.kept ++ w.removed)
  sub : w.kept.Sublist es
  st : ∀ e ∈ w.removed, stale env e = true

theorem lookStop_cut (cfg : Cfg K) (env : Env V) (k : K) (incl : Bool) : ∀ (es : List (Entry K V E)) (n : Nat) (w : Walk K V E),
    lookStop cfg env k incl n es = some w → Cut env es w
  | [], n, w, h => by cases n <;> simp [lookStop] at h
  | e :: es, n, w, h => by
    have keep : ∀ n, (lookStop cfg env k incl n es).map (·.keep e) = some w → Cut env (e :: es) w := fun n h => by
      obtain ⟨w', h1, rfl⟩ := Option.map_eq_some_iff.1 h
      obtain ⟨q3, q4, q5⟩ := lookStop_cut cfg env k incl es n w' h1
      exact ⟨q3.cons e, q4.cons_cons e, q5⟩
    have drop : ∀ n, stale env e = true → (lookStop cfg env k incl n es).map (·.drop e) = some w → Cut env (e :: es) w := fun n hs h => by
      obtain ⟨w', h1, rfl⟩ := Option.map_eq_some_iff.1 h
      obtain ⟨q3, q4, q5⟩ := lookStop_cut cfg env k incl es n w' h1
      refine ⟨(q3.cons e).trans List.perm_middle.symm, q4.cons e, ?_⟩
      intro x hx
      rcases List.mem_cons.1 hx with rfl | hx
      · exact hs
      · exact q5 x hx
    unfold lookStop at h
    split at h
    · split at h
      · exact drop n ‹_› h
      · exact keep n h
    · split at h
      · cases h
        exact ⟨by simp, by simp, by simp⟩
      · rename_i n
        split at h
        · rename_i hx
          split at h
          · exact keep n h
          · rename_i hp
            exact drop n (by simp [stale, hx, hp]) h
        · split at h
          · exact keep n h
          · cases h

/-- The walk of `expire_` left in the middle: `pre` was walked, `rest` is untouched. -/
def Half (cfg : Cfg K) (env : Env V) (k : K) (es : List (Entry K V E)) (w : Walk K V E) : Prop :=
  ∃ pre rest, es = pre ++ rest ∧ w.kept = (expireWalk cfg env k pre).kept ++ rest ∧ w.removed = (expireWalk cfg env k pre).removed

theorem removeStop_cut (env : Env V) (k : K) : ∀ (es : List (Entry K V E)) (n : Nat) (w : Walk K V E),
    removeStop cfg env k n es = some w →
    Half cfg env k es w
  | [], n, w, h => by cases n <;> simp [removeStop] at h
  | e :: es, n, w, h => by
    have rec_ : ∀ n (f : Walk K V E → Walk K V E),
        (removeStop cfg env k n es).map f = some w →
        (∀ w0 : Walk K V E, ∀ w1 rest, w1.kept = w0.kept ++ rest → w1.removed = w0.removed → (f w1).kept = (f w0).kept ++ rest ∧ (f w1).removed = (f w0).removed) →
        (∀ pre, expireWalk cfg env k (e :: pre) = f (expireWalk cfg env k pre)) → Half cfg env k (e :: es) w := fun n f h hf he => by
      obtain ⟨w', h1, rfl⟩ := Option.map_eq_some_iff.1 h
      obtain ⟨pre, rest, q1, q2, q3⟩ := removeStop_cut env k es n w' h1
      obtain ⟨q4, q5⟩ := hf _ _ _ q2 q3
      exact ⟨e :: pre, rest, by simp [q1], by rw [he, q4], by rw [he, q5]⟩
    have hkeep : ∀ e : Entry K V E, ∀ w0 : Walk K V E, ∀ (w1 : Walk K V E) rest, w1.kept = w0.kept ++ rest → w1.removed = w0.removed →
        (w1.keep e).kept = (w0.keep e).kept ++ rest ∧ (w1.keep e).removed = (w0.keep e).removed := by
      intro e w0 w1 rest h1 h2; simp [Walk.keep, h1, h2]
    have hdrop : ∀ e : Entry K V E, ∀ w0 : Walk K V E, ∀ (w1 : Walk K V E) rest, w1.kept = w0.kept ++ rest → w1.removed = w0.removed →
        (w1.drop e).kept = (w0.drop e).kept ++ rest ∧ (w1.drop e).removed = (w0.drop e).removed := by
      intro e w0 w1 rest h1 h2; simp [Walk.drop, h1, h2]
    unfold removeStop at h
    split at h
    · rename_i hh
      split at h
      · cases h
        exact ⟨[], e :: es, rfl, by simp [expireWalk], by simp [expireWalk]⟩
      · rename_i n
        split at h
        · rename_i he
          split at h
          · rename_i hp
            exact rec_ n _ h (hkeep _) (fun pre => by simp [expireWalk, hh, he, hp])
          · rename_i hp
            exact rec_ n _ h (hdrop _) (fun pre => by simp [expireWalk, hh, he, hp])
        · rename_i he
          split at h
          · rename_i hs
            exact rec_ n _ h (hdrop _) (fun pre => by simp [expireWalk, he, hs])
          · rename_i hs
            exact rec_ n _ h (hkeep _) (fun pre => by simp [expireWalk, he, hs])
    · rename_i hh
      split at h
      · rename_i hs
        exact rec_ n _ h (hdrop _) (fun pre => by simp [expireWalk, hh, hs])
      · rename_i hs
        exact rec_ n _ h (hkeep _) (fun pre => by simp [expireWalk, hh, hs])

/-- A lookup that is left only removes stale entries. -/
theorem look_facts (h : WF1 cfg s) {env : Env V} {k : K} {incl : Bool} {n i : Nat} {w : Walk K V E} {F : Eff K V}
    (hw : stopWalk cfg env s (.look k incl n) = some (i, w)) :
    WF1 cfg (applyWalk cfg s i w) ∧ Shr cfg env F s (applyWalk cfg s i w) ∧
    (∀ e ∈ (applyWalk cfg s i w).ents, e ∈ s.ents) ∧ (∀ e ∈ s.ents, e ∈ (applyWalk cfg s i w).ents ∨ stale env e = true) := by
  simp only [stopWalk, Option.map_eq_some_iff, Prod.mk.injEq] at hw
  obtain ⟨w', hw, rfl, rfl⟩ := hw
  obtain ⟨q3, q4, q5⟩ := lookStop_cut cfg env k incl _ n w' hw
  have hwf : WF1 cfg (applyWalk cfg s (s.bucketFor (cfg.hash k)) w') := by
    apply h.applyWalk
    · exact q4.map _
    · have := q3.map ik
      rwa [List.map_append] at this
  obtain ⟨oth, h2, h3, _⟩ := applyWalk_perm (cfg := cfg) (g := id) q3 (by simp)
  have h3' : (applyWalk cfg s (s.bucketFor (cfg.hash k)) w').ents.Perm ((oth ++ w'.kept).map id) := by simpa using h3
  refine ⟨hwf, ?_, ?_, ?_⟩
  · have h4 := h3'
    unfold applyWalk at h4
    rw [dispose_ents] at h4
    refine Shr.removal (g := id) hwf h2 h4 (fun e _ => .refl _) (fun e _ w => ⟨rfl, rfl, w.exp⟩) ?_
    intro e he
    exact ⟨stale_not_pending (q5 e he), not_wanted_of_stale (q5 e he)⟩
  · intro e he
    have := h3'.mem_iff.1 he
    rw [List.map_id] at this
    exact h2.mem_iff.2 (List.mem_append_left _ this)
  · intro e he
    rcases List.mem_append.1 (h2.mem_iff.1 he) with h5 | h5
    · exact .inl (h3'.mem_iff.2 (by rw [List.map_id]; exact h5))
    · exact .inr (q5 e h5)

theorem look_ok (hc : cfg.Ok) {X} (h : Good cfg M X s L) {k : K} {incl : Bool} {n i : Nat} {w : Walk K V E}
    (hw : stopWalk cfg M.env s (.look k incl n) = some (i, w)) : Good cfg M X (applyWalk cfg s i w) L := by
  obtain ⟨h1, h2, _⟩ := look_facts (F := {}) h.wf1 hw
  exact h.shr hc h1 h2 .idle (fun _ h => h) (fun _ _ h => h.elim)

theorem Walk_ids {es pre rest : List (Entry K V E)} (hn : (es.map (·.id)).Nodup) (h : es = pre ++ rest) : ∀ e ∈ rest, e.id ∉ pre.map (·.id) := by
  subst h
  rw [List.map_append, List.nodup_append] at hn
  intro e he hm
  exact hn.2.2 _ hm _ (List.mem_map.2 ⟨e, he, rfl⟩) rfl

theorem bucket_sublist (s : St K V E) (i : Nat) : (s.bucket i).Sublist s.ents := by
  by_cases hi : i < s.tbl.length
  · have := bucket_some hi
    have hm : s.bucket i ∈ s.tbl := List.mem_of_getElem? this
    unfold St.ents
    exact List.sublist_flatten_of_mem hm
  · rw [bucket_empty (by omega)]; simp

/-- What an `emplace` that is left in the middle did: `R` are the entries that its walk reached. -/
structure Reached (cfg : Cfg K) (env : Env V) (s s' : St K V E) (k : K) (R : List Nat) : Prop where
  wf : WF1 cfg s'
  shr : Shr cfg env { die := fun i k' _ => cfg.eqv k' k = true ∧ i ∈ R } s s'
  kept : ∀ e' ∈ s'.ents, cfg.eqv e'.key k = true → (e'.mapped.val? ≠ none ∨ e'.mapped.live = true) → e' ∈ s.ents ∧ e'.id ∉ R
  ord : ∀ e ∈ s.ents, ∀ T ∈ s.ents, cfg.eqv e.key k = true → cfg.eqv T.key k = true → e.id < T.id → T.id ∈ R → e.id ∈ R
  stay : ∀ e ∈ s.ents, e.id ∉ R → e ∈ s'.ents
  sub : ∀ e' ∈ s'.ents, cfg.eqv e'.key k = false → e' ∈ s.ents
  oth : ∀ e ∈ s.ents, cfg.eqv e.key k = false → e ∈ s'.ents ∨ stale env e = true

theorem emplace_reached (hc : cfg.Ok) (h : WF1 cfg s) {env : Env V} {k : K} {n i : Nat} {w : Walk K V E}
    (hw : stopWalk cfg env s (.emplace k n) = some (i, w)) : ∃ R, Reached cfg env s (applyWalk cfg s i w) k R := by
  simp only [stopWalk, Option.map_eq_some_iff, Prod.mk.injEq] at hw
  obtain ⟨w', hw, rfl, rfl⟩ := hw
  obtain ⟨pre, rest, q1, q2, q3⟩ := removeStop_cut env k _ n w' hw
  have hsub := bucket_sublist s (s.bucketFor (cfg.hash k))
  have hnb : ((s.bucket (s.bucketFor (cfg.hash k))).map (·.id)).Nodup := (nodup_ents h).sublist (hsub.map _)
  have hrest := Walk_ids hnb q1
  let p : Entry K V E → Bool := fun e => if cfg.eqv e.key k then e.isPending else !stale env e
  let R := pre.map (·.id)
  let g : Entry K V E → Entry K V E := fun e => if e.id ∈ R then expUpd cfg k e else e
  have hgid : ∀ e : Entry K V E, (g e).id = e.id ∧ (g e).key = e.key := by
    intro e; simp only [g]; split
    · exact expUpd_idKey cfg k e
    · exact ⟨rfl, rfl⟩
  have hk : w'.kept = (pre.filter p ++ rest).map g := by
    rw [q2, (expireWalk_eq hc env k _).1, List.map_append]
    congr 1
    · apply List.map_congr_left
      intro e he
      have : e.id ∈ R := List.mem_map.2 ⟨e, (List.mem_filter.1 he).1, rfl⟩
      simp [g, this, expUpd]
    · conv => lhs; rw [← List.map_id rest]
      apply List.map_congr_left
      intro e he
      simp only [g, id]; rw [if_neg (hrest e he)]
  have hrem : w'.removed = pre.filter (fun e => !p e) := by
    rw [q3, (expireWalk_eq hc env k _).2]
    congr 1
    funext e; simp only [p]; split <;> simp
  have hb : (s.bucket (s.bucketFor (cfg.hash k))).Perm ((pre.filter p ++ rest) ++ w'.removed) := by
    rw [q1, hrem]
    have := filter_append_not pre p
    refine (this.append_right rest).trans ?_
    rw [List.append_assoc, List.append_assoc]
    exact List.Perm.append_left _ List.perm_append_comm
  have hik : w'.kept.map ik = (pre.filter p ++ rest).map ik := by
    rw [hk, List.map_map]
    apply List.map_congr_left
    intro e _; simp [ik, (hgid e).1, (hgid e).2]
  have hwf : WF1 cfg (applyWalk cfg s (s.bucketFor (cfg.hash k)) w') := by
    apply h.applyWalk
    · rw [hik, q1]
      exact (List.filter_sublist.append (List.Sublist.refl _)).map _
    · rw [hik, ← List.map_append]; exact hb.map ik
  obtain ⟨oth, h1, h2, h3⟩ := applyWalk_perm (cfg := cfg) hb hk
  have hoth : ∀ e ∈ oth, cfg.eqv e.key k = false := by
    intro e he
    cases hek : cfg.eqv e.key k
    · rfl
    · exact absurd (hc.hash _ _ hek) (h3 e he _ h.placed rfl)
  have hpre : ∀ e ∈ pre, e ∈ s.ents := by
    intro e he; exact hsub.subset (by rw [q1]; exact List.mem_append_left _ he)
  have hmo : ∀ e ∈ oth, e ∈ s.ents := fun e he => h1.mem_iff.2 (by simp [he])
  have hgo : ∀ e ∈ oth, g e = e := by
    intro e he
    simp only [g]; split
    · simp [expUpd, hoth e he]
    · rfl
  have h2' : (applyWalk cfg s (s.bucketFor (cfg.hash k)) w').ents.Perm ((oth ++ (pre.filter p ++ rest)).map g) := by
    rw [List.map_append]
    refine h2.trans (List.Perm.append_right _ ?_)
    have : oth.map g = oth := by
      conv => rhs; rw [← List.map_id oth]
      exact List.map_congr_left hgo
    rw [this]
  have hin : ∀ e ∈ s.ents, cfg.eqv e.key k = true → e ∈ pre ∨ e ∈ rest := by
    intro e he hek
    rcases List.mem_append.1 (h1.mem_iff.1 he) with h5 | h5
    · rcases List.mem_append.1 h5 with h6 | h6
      · rw [hoth e h6] at hek; cases hek
      · rcases List.mem_append.1 h6 with h7 | h7
        · exact .inl (List.mem_filter.1 h7).1
        · exact .inr h7
    · rw [hrem] at h5; exact .inl (List.mem_filter.1 h5).1
  have hRpre : ∀ e ∈ s.ents, e.id ∈ R → e ∈ pre := by
    intro e he hR
    obtain ⟨e0, h0, hid⟩ := List.mem_map.1 hR
    rw [← eq_of_id h (hpre e0 h0) he hid]; exact h0
  refine ⟨R, hwf, ?_, ?_, ?_, ?_, ?_, ?_⟩
  · have h4 := h2'
    unfold applyWalk at h4
    rw [dispose_ents] at h4
    refine Shr.removal (g := g) hwf h1 h4 ?_ ?_ ?_
    · intro e _; simp only [g]; split
      · exact .expUpd k e
      · exact .refl _
    · intro e he wd
      simp only [g]; split
      · rename_i hR
        unfold expUpd; split
        · rename_i hek; exact absurd ⟨hek, hR⟩ wd.die
        · exact ⟨rfl, rfl, wd.exp⟩
      · exact ⟨rfl, rfl, wd.exp⟩
    · intro e he
      rw [hrem] at he
      obtain ⟨hep, hpp⟩ := List.mem_filter.1 he
      have hR : e.id ∈ R := List.mem_map.2 ⟨e, hep, rfl⟩
      by_cases hek : cfg.eqv e.key k = true
      · simp only [p, hek, if_true] at hpp
        exact ⟨by simpa using hpp, fun wd => wd.die ⟨hek, hR⟩⟩
      · have hst : stale env e = true := by simpa [p, hek] using hpp
        exact ⟨stale_not_pending hst, not_wanted_of_stale hst⟩
  · intro e' he' hek hv
    obtain ⟨e, he, rfl⟩ := List.mem_map.1 (h2'.mem_iff.1 he')
    have hes : e ∈ s.ents := h1.mem_iff.2 (List.mem_append_left _ he)
    rw [(hgid e).2] at hek
    by_cases hR : e.id ∈ R
    · exfalso
      have hep := hRpre e hes hR
      have hnr : e ∉ rest := fun hh => hrest e hh hR
      have hf : e ∈ pre.filter p := by
        rcases List.mem_append.1 he with h5 | h5
        · rw [hoth e h5] at hek; cases hek
        · rcases List.mem_append.1 h5 with h6 | h6
          · exact h6
          · exact absurd h6 hnr
      have hpp := (List.mem_filter.1 hf).2
      simp only [p, hek, if_true] at hpp
      simp only [g, hR, if_true, expUpd, hek] at hv
      cases hm : e.mapped <;> simp_all [Entry.isPending, Mapped.isPending, Entry.upd, Mapped.markExpired, Mapped.val?, Mapped.live]
    · have hge : g e = e := by simp only [g]; rw [if_neg hR]
      rw [hge]; exact ⟨hes, hR⟩
  · intro e he T hT hek hTk hlt hTR
    have hTp := hRpre T hT hTR
    rcases hin e he hek with h5 | h5
    · exact List.mem_map.2 ⟨e, h5, rfl⟩
    · exfalso
      have hs := (h.sorted (cfg.hash k))
      have hs' : (((pre ++ rest).filter (fun e => cfg.hash e.key == cfg.hash k)).map (·.id)).Pairwise (· < ·) := by
        rw [← q1]; exact hs.sublist ((hsub.filter _).map _)
      rw [List.filter_append, List.map_append, List.pairwise_append] at hs'
      have := hs'.2.2 T.id (List.mem_map.2 ⟨T, List.mem_filter.2 ⟨hTp, by simp [hc.hash _ _ hTk]⟩, rfl⟩) e.id
        (List.mem_map.2 ⟨e, List.mem_filter.2 ⟨h5, by simp [hc.hash _ _ hek]⟩, rfl⟩)
      omega
  · intro e he hR
    have hne : e ∉ w'.removed := by
      rw [hrem]; intro hh; exact hR (List.mem_map.2 ⟨e, (List.mem_filter.1 hh).1, rfl⟩)
    rcases List.mem_append.1 (h1.mem_iff.1 he) with h5 | h5
    · refine h2'.mem_iff.2 (List.mem_map.2 ⟨e, h5, ?_⟩)
      simp only [g]; rw [if_neg hR]
    · exact absurd h5 hne
  · intro e' he' hek
    obtain ⟨e, he, rfl⟩ := List.mem_map.1 (h2'.mem_iff.1 he')
    have hes : e ∈ s.ents := h1.mem_iff.2 (List.mem_append_left _ he)
    rw [(hgid e).2] at hek
    have hge : g e = e := by
      simp only [g]; split
      · simp [expUpd, hek]
      · rfl
    rw [hge]; exact hes
  · intro e he hek
    rcases List.mem_append.1 (h1.mem_iff.1 he) with h5 | h5
    · refine .inl (h2'.mem_iff.2 (List.mem_map.2 ⟨e, h5, ?_⟩))
      simp only [g]; split
      · simp [expUpd, hek]
      · rfl
    · rw [hrem] at h5
      have := (List.mem_filter.1 h5).2
      simp only [p, hek] at this
      exact .inr (by simpa using this)

theorem Rsp.unvalue (hc : cfg.Ok) (h : Rsp cfg L) (k : K) : Rsp cfg (unvalue cfg.eqv L k) := by
  intro a b hab
  obtain ⟨h1, h2⟩ := h a b hab
  refine ⟨?_, h2⟩
  simp only [Abort.unvalue]
  rw [eqv_congr hc hab k, h1]

/-- Without the claim that nothing is lost the ledger can stay as it is. -/
theorem emplace_any (hc : cfg.Ok) {X} (h : Good cfg M X s L) (hex : ¬ M.ex) {k : K} {n i : Nat} {w : Walk K V E}
    (hw : stopWalk cfg M.env s (.emplace k n) = some (i, w)) : Good cfg M X (applyWalk cfg s i w) L := by
  obtain ⟨R, r⟩ := emplace_reached hc h.wf1 hw
  exact h.shr hc r.wf r.shr ⟨fun _ h => h, fun _ h => h, fun h => absurd h hex, fun h => absurd h hex, fun h => absurd h hex⟩ (fun _ h => h) (fun _ _ h => h.elim)

/-- The value is removed, the lookup in flight is left. -/
theorem Good.unvalued (hc : cfg.Ok) {X} {s' : St K V E} {k : K} {R : List Nat} (h : Good cfg M X s L) (r : Reached cfg M.env s s' k R)
    (hcl : ∀ e ∈ s'.ents, cfg.eqv e.key k = true → e.mapped.val? = none)
    (hl : ∀ T ∈ s.ents, cfg.eqv T.key k = true → T.mapped.live = true → T.id ∉ R) : Good cfg M X s' (unvalue cfg.eqv L k) := by
  have w2 := h.wf2.shr r.shr
  have hn' : ∀ e ∈ s'.ents, e.id ≠ s.nextId := by
    intro e he; rw [← r.shr.same.nextId]; exact id_ne_next r.wf he
  have hkk : ∀ {a b : K}, cfg.eqv a b = true → cfg.eqv a k = true → cfg.eqv b k = true := fun h1 h2 => hc.trans _ _ _ (hc.symm _ _ h1) h2
  refine ⟨r.wf, w2, h.dq.shr r.shr (fun _ h => h) (fun i _ hh => hh.elim), ?_, ?_, ?_⟩
  · exact h.g.spc (r.shr.spc s.nextId) (Rsp.unvalue hc h.g.rsp _) (fun _ _ => rfl) (fun _ _ => rfl) (by rw [r.shr.same.nextId]; exact Nat.le_refl _)
      (fun _ => h.g.wf _ (Nat.le_refl _)) (fun n hn hid => absurd hid (hn' n hn)) (fun _ _ _ => .inr (fun h => h))
  · intro a
    by_cases hak : cfg.eqv a k = true
    · exact LedV.removed (fun e he hea => hcl e he (hc.trans _ _ _ hea hak)) (by simp [unvalue, hak])
    · have hak : cfg.eqv a k = false := by simpa using hak
      refine (h.v a).frame h.g.st (r.shr.spc s.nextId) ⟨by simp [unvalue, hak], rfl, rfl, rfl, fun h => h⟩ (fun e he hh => absurd hh (id_ne_next h.wf1 he)) (fun e he hh => absurd hh (hn' e he))
        (fun e _ _ _ h => h) (fun e he hea _ hf => hf.elim) ?_
      intro _ e he hea v hv _ hdi
      rw [hkk hea hdi.1] at hak; cases hak
  · intro a
    refine (h.p a).frame h.wf2 r.wf w2 (r.shr.spc s.nextId) rfl rfl (by rw [r.shr.same.nextId]; exact Nat.le_refl _)
      (fun e he hh => absurd hh (hn' e he)) (h.fresh a) (fun e he _ => cb_ne_next h.wf1 h.wf2 he)
      (fun n hn hid => absurd hid (hn' n hn)) hc (fun o _ _ h => h) ?_
    intro _ T hT hTa hlv hdi
    exact hl T hT hdi.1 hlv hdi.2

/-- What an `emplace` left in the middle has done is one of three things. -/
theorem emplace_exact (hc : cfg.Ok) {X} (h : Good cfg M X s L) {k : K} {n i : Nat} {w : Walk K V E}
    (hw : stopWalk cfg M.env s (.emplace k n) = some (i, w)) :
    ∃ c, Good cfg M X (applyWalk cfg s i w) (aafter cfg.eqv cfg.resolver M.env.now c L (.emplace k n : AOp K V E) { ret := .throws }) := by
  obtain ⟨R, r⟩ := emplace_reached hc h.wf1 hw
  generalize applyWalk cfg s i w = s' at r
  have hkk : ∀ {e e' : Entry K V E}, cfg.eqv e.key k = true → cfg.eqv e'.key k = true → cfg.eqv e.key e'.key = true :=
    fun h1 h2 => hc.trans _ _ _ h1 (hc.symm _ _ h2)
  by_cases hL : ∃ T ∈ s.ents, cfg.eqv T.key k = true ∧ T.mapped.live = true ∧ T.id ∈ R
  · obtain ⟨T, hT, hTk, hTl, hTR⟩ := hL
    refine ⟨.all, h.erased hc r.wf r.shr ⟨fun _ h => h, fun _ _ h => h.elim, fun _ _ h => h.1, fun _ _ _ => .inr (fun h => h)⟩ (fun _ h => h) ?_⟩
    intro e he hek
    constructor
    · refine Classical.byContradiction fun hv => ?_
      obtain ⟨hes, heR⟩ := r.kept e he hek (.inl hv)
      obtain ⟨v, hv⟩ := Option.ne_none_iff_exists'.1 hv
      have hcb := (h.wf2.vc e hes T hT v hv hTl (hkk hek hTk)).1
      exact heR (r.ord e hes T hT hek hTk (h.wf2.cb T hT _ hcb).1 hTR)
    · cases hl : e.mapped.live with
      | false => rfl
      | true =>
        obtain ⟨hes, heR⟩ := r.kept e he hek (.inr hl)
        rw [h.wf2.vb e hes T hT hl hTl (hkk hek hTk)] at heR
        exact absurd hTR heR
  · have hL' : ∀ T ∈ s.ents, cfg.eqv T.key k = true → T.mapped.live = true → T.id ∉ R := fun T hT h1 h2 h3 => hL ⟨T, hT, h1, h2, h3⟩
    by_cases hV : ∃ e ∈ s.ents, cfg.eqv e.key k = true ∧ e.mapped.val? ≠ none ∧ e.id ∈ R
    · obtain ⟨e0, he0, hk0, hv0, hR0⟩ := hV
      refine ⟨.value, Good.unvalued hc h r ?_ hL'⟩
      intro e he hek
      refine Classical.byContradiction fun hv => ?_
      obtain ⟨hes, heR⟩ := r.kept e he hek (.inl hv)
      obtain ⟨v, hv⟩ := Option.ne_none_iff_exists'.1 hv
      obtain ⟨v0, hv0⟩ := Option.ne_none_iff_exists'.1 hv0
      rw [h.wf2.va e hes e0 he0 v v0 hv hv0 (hkk hek hk0)] at heR
      exact heR hR0
    · refine ⟨.nothing, h.shr hc r.wf r.shr ⟨fun _ h => h, fun _ h => h, ?_, ?_, fun _ _ _ => .inr (fun h => h)⟩ (fun _ h => h) (fun _ _ h => h.elim)⟩
      · intro _ e he v hv _ hdi
        exact absurd ⟨e, he, hdi.1, by simp [hv], hdi.2⟩ hV
      · intro _ e he hl hdi
        exact hL' e he hdi.1 hl hdi.2

/-! ### Histories -/

theorem arun_append (cfg : Cfg K) : ∀ (h h' : AHist K V E) (s : St K V E),
    arun cfg s (h ++ h') = ((arun cfg (arun cfg s h).1 h').1, (arun cfg s h).2 ++ (arun cfg (arun cfg s h).1 h').2)
  | [], h', s => by simp [arun]
  | (env, o) :: h, h', s => by simp [arun, arun_append cfg h h']

theorem arun_len (cfg : Cfg K) : ∀ (h : AHist K V E) (s : St K V E), (arun cfg s h).2.length = h.length
  | [], s => rfl
  | (env, o) :: h, s => by simp [arun, arun_len cfg h]

theorem astateAfter_snoc (cfg : Cfg K) (h : AHist K V E) (env : Env V) (o : AOp K V E) :
    astateAfter cfg (h ++ [(env, o)]) = (astep cfg env (astateAfter cfg h) o).1 := by
  simp [astateAfter, arun_append, arun]

theorem aouts_snoc (cfg : Cfg K) (h : AHist K V E) (env : Env V) (o : AOp K V E) :
    aouts cfg (h ++ [(env, o)]) = aouts cfg h ++ [aoutAt cfg h env o] := by
  simp [aouts, arun_append, arun, aoutAt, astateAfter]

theorem AHistOk_append : ∀ {h h' : AHist K V E} {s : St K V E},
    AHistOk cfg s (h ++ h') ↔ AHistOk cfg s h ∧ AHistOk cfg (arun cfg s h).1 h'
  | [], h', s => by simp [AHistOk, arun]
  | (env, o) :: h, h', s => by simp [AHistOk, arun, AHistOk_append (h := h), and_assoc]

theorem ahistory_snoc (eqv : K → K → Bool) (kind : Kind) (c : Nat → Left) (env : Env V) (o : AOp K V E) (out : Out K V E) :
    ∀ (h : AHist K V E) (outs : List (Out K V E)) (i : Nat) (L : Ledger K V), outs.length = h.length →
    ahistory eqv kind c i L (h ++ [(env, o)]) (outs ++ [out]) = aafter eqv kind env.now (c (i + h.length)) (ahistory eqv kind c i L h outs) o out
  | [], [], i, L, _ => by simp [ahistory]
  | (e, p) :: h, q :: outs, i, L, hl => by
    have := ahistory_snoc eqv kind c env o out h outs (i + 1) (aafter eqv kind e.now (c i) L p q) (by simpa using hl)
    simp only [List.cons_append, ahistory, this, List.length_cons]
    rw [show i + 1 + h.length = i + (h.length + 1) by omega]

theorem aledgerAfter_snoc (cfg : Cfg K) (c : Nat → Left) (h : AHist K V E) (env : Env V) (o : AOp K V E) :
    aledgerAfter cfg c (h ++ [(env, o)]) = aafter cfg.eqv cfg.resolver env.now (c h.length) (aledgerAfter cfg c h) o (aoutAt cfg h env o) := by
  unfold aledgerAfter
  have hl : (aouts cfg h).length = h.length := arun_len cfg h _
  rw [aouts_snoc, ahistory_snoc _ _ _ _ _ _ _ _ _ _ hl]
  simp

theorem ahistory_congr (eqv : K → K → Bool) (kind : Kind) (c c' : Nat → Left) : ∀ (h : AHist K V E) (outs : List (Out K V E)) (i : Nat) (L : Ledger K V),
    (∀ j, j < i + h.length → c j = c' j) → ahistory eqv kind c i L h outs = ahistory eqv kind c' i L h outs
  | [], outs, i, L, _ => by simp [ahistory]
  | (e, p) :: h, [], i, L, _ => by simp [ahistory]
  | (e, p) :: h, q :: outs, i, L, hj => by
    simp only [ahistory]
    rw [hj i (by simp), ahistory_congr eqv kind c c' h outs (i + 1) _ (fun j h => hj j (by simp at h ⊢; omega))]

theorem astep_stop {env : Env V} {o : AOp K V E} (ho : o.ok cfg env s) (hp : ∀ p, o ≠ .plain p) :
    ∃ i w, stopWalk cfg env s o = some (i, w) ∧ astep cfg env s o = (applyWalk cfg s i w, { ret := .throws }) := by
  cases o with
  | plain p => exact absurd rfl (hp p)
  | look k incl n =>
    obtain ⟨⟨i, w⟩, h⟩ := Option.isSome_iff_exists.1 ho.2
    exact ⟨i, w, h, by simp only [astep, h]⟩
  | emplace k n =>
    obtain ⟨⟨i, w⟩, h⟩ := Option.isSome_iff_exists.1 ho.2
    exact ⟨i, w, h, by simp only [astep, h]⟩

/-- The invariant along a history with calls that are left. -/
theorem agood (hc : cfg.Ok) (mo ex : Prop) (hem : ex → mo ∨ cfg.Untimed) (h : AHist K V E) : ∀ (env : Env V), AHistOk cfg St.init h →
    (mo → Mono (h.map (·.1) ++ [env])) → (ex → ANoEvict cfg h) →
    ∃ c, (¬ ex → ∀ j, c j = .nothing) ∧ Good cfg ⟨mo, ex, env, True⟩ (fun _ => False) (astateAfter cfg h) (aledgerAfter cfg c h) := by
  induction h using snoc_ind with
  | h0 => intro env _ _ _; exact ⟨fun _ => .nothing, fun _ _ => rfl, good_init ..⟩
  | h1 h p ih =>
    obtain ⟨e, o⟩ := p
    intro env hok hm hn
    rw [AHistOk_append] at hok
    obtain ⟨c, hc0, g⟩ := ih e hok.1 (fun q => (Throw.Mono_last (by simpa using hm q)).1) (fun q h1 h2 hh => hn q h1 (h2 ++ [(e, o)]) (by rw [hh]; simp))
    have ho : o.ok cfg e (astateAfter cfg h) := hok.2.1
    have hadv := fun (q : mo) => (Throw.Mono_last (l := h.map (·.1)) (by simpa using hm q)).2
    have key : ∃ c1, (¬ ex → c1 = .nothing) ∧ Good cfg ⟨mo, ex, e, True⟩ (fun _ => False) (astep cfg e (astateAfter cfg h) o).1
        (aafter cfg.eqv cfg.resolver e.now c1 (aledgerAfter cfg c h) o (aoutAt cfg h e o)) := by
      cases o with
      | plain p =>
        refine ⟨.nothing, fun _ => rfl, step_ok hc g p ho (fun q => ?_)⟩
        have := hn q (h ++ [(e, .plain p)]) [] (by simp)
        rw [astateAfter_snoc] at this
        exact this
      | look k incl n =>
        obtain ⟨i, w, h1, h2⟩ := astep_stop ho (by intro p hp; cases hp)
        refine ⟨.nothing, fun _ => rfl, ?_⟩
        rw [h2]; exact look_ok hc g h1
      | emplace k n =>
        obtain ⟨i, w, h1, h2⟩ := astep_stop ho (by intro p hp; cases hp)
        by_cases hex : ex
        · obtain ⟨c1, g1⟩ := emplace_exact hc g h1
          refine ⟨c1, fun q => absurd hex q, ?_⟩
          rw [h2]; exact g1
        · refine ⟨.nothing, fun _ => rfl, ?_⟩
          rw [h2]; exact emplace_any hc g hex h1
    obtain ⟨c1, hc1, g1⟩ := key
    refine ⟨fun j => if j < h.length then c j else c1, ?_, ?_⟩
    · intro hex j; simp only; split
      · exact hc0 hex j
      · exact hc1 hex
    · rw [astateAfter_snoc, aledgerAfter_snoc]
      simp only [Nat.lt_irrefl, if_false]
      have : aledgerAfter cfg (fun j => if j < h.length then c j else c1) h = aledgerAfter cfg c h := by
        unfold aledgerAfter
        exact ahistory_congr _ _ _ _ _ _ _ _ (fun j hj => by rw [if_pos (by omega)])
      rw [this]
      exact g1.advance hem hadv

end Hoard.Abort
