import Verif.HandlersFull
import Verif.Settle
import Verif.AsyncLemmas
/-! A run with handlers and the plain run it counts as: whole runs. -/
namespace Hoard.Handlers
open Spec
variable {K V E : Type} {cfg : Cfg K} {env : Env V} {n n1 : HSt K V E} {F : Hist K V E} {as : List (Ans K V E)} {t : Time}

/-- A success ends. -/
theorem Sim.finishOk (hc : cfg.Ok) (hr : cfg.refresh = none) (h : Sim cfg env.now n F as) {f : Frame V E} {fs : List (Frame V E)} (hf : n.frames = f :: fs) (htd : f.todo = [])
    (hfe : failed f.r = false) :
    Sim cfg env.now {
      s := withOpens (n.s.opens.erase f.tok) (onAssign cfg env (n.s.modify f.tok (·.upd (settled cfg f))) f.tok true)
      frames := fs } F (as ++ [.finished]) := by
  have hin : f ∈ n.frames := by rw [hf]; exact List.mem_cons_self ..
  have hin' : ∀ g ∈ fs, g ∈ n.frames := by rw [hf]; exact fun g hg => List.mem_cons_of_mem _ hg
  have hne : n.frames ≠ [] := by rw [hf]; simp
  obtain ⟨q1, q2⟩ := h.flg f hin hfe
  obtain ⟨s, frames⟩ := n
  simp only at hf
  subst hf
  have hdl : delivering ({ s := s, frames := f :: fs } : HSt K V E) = f.tok :: delivering ({ s := s, frames := fs } : HSt K V E) := delivering_ok _ _ _ hfe
  have hds : ∀ s' : St K V E, delivering ({ s := s', frames := fs } : HSt K V E) = delivering ({ s := s, frames := fs } : HSt K V E) := fun _ => rfl
  have hnd : f.tok ∉ delivering ({ s := s, frames := fs } : HSt K V E) := by
    intro hh
    obtain ⟨g, hg, _, hgt⟩ := delivering_mem.1 hh
    have := h.frN
    simp only [List.map_cons, List.nodup_cons, List.mem_map, not_exists, not_and] at this
    exact this.1 g hg hgt
  have hst := h.st
  have hop := h.op
  have hdue := h.dl
  have hval := h.val
  rw [hdl] at hst hop hdue hval
  have hset : ∀ m : Mapped V E, settled cfg f m = m := by intro m; simp [settled, q1, q2]
  have hops : (onAssign cfg env (s.modify f.tok (·.upd (settled cfg f))) f.tok true).opens = s.opens := by rw [onAssign_plain hr]; rfl
  constructor
  case ok => exact h.ok
  case st =>
    rw [hds]
    show withOpens (s.opens.erase f.tok) _ = tw _ (s.opens.erase f.tok) _
    rw [onAssign_plain hr]
    simp only at hst
    generalize delivering ({ s := s, frames := fs } : HSt K V E) = T at hst hdue hnd ⊢
    generalize s.opens.erase f.tok = l
    rw [hst, tw_mapE, tw_mapE, modify_mapE, modify_mapE, mapE_withOpens, mapE_withOpens, mapE_mapE, mapE_mapE]
    show withOpens l (mapE _ _) = withOpens l (mapE _ _)
    congr 1
    apply mapE_congr
    intro a ha
    by_cases hax : a.id = f.tok
    · have h1 : a.id ∈ f.tok :: T := by rw [hax]; exact List.mem_cons_self ..
      have h2 := hdue a ha h1
      have h3 : strip (f.tok :: T) a = { a with expTp := none } := by simp only [strip, h1, if_true]
      rw [strip_out (T := T) (by rw [hax]; exact hnd), h3]
      have e1 : ({ a with expTp := none } : Entry K V E).upd (settled cfg f) = { a with expTp := none } := by simp only [Entry.upd, hset]
      simp only [onId, hax, if_true, e1, ageTp]
      obtain ⟨_, _, _, _, _, _, _⟩ := a
      simp only at h2 ⊢
      rw [h2]
      cases cfg.maxAge <;> simp [Entry.upd, hset, deadMin]
      all_goals exact hax.symm
    · rw [strip_cons_ne hax]
      have : (strip T a).id ≠ f.tok := by rw [strip_id]; exact hax
      simp only [onId, this, if_false]
  case op =>
    rw [hds, hop]
    show _ = (s.opens.erase f.tok).filter _
    have hnd' : s.opens.Nodup := h.nd
    rw [hnd'.erase_eq_filter f.tok, List.filter_filter]
    apply List.filter_congr
    intro y _
    simp only [List.contains_cons, Bool.not_or, bne]
    rw [Bool.and_comm]
  case nd =>
    show (s.opens.erase f.tok).Nodup
    have hnd' : s.opens.Nodup := h.nd
    exact hnd'.erase _
  case lt => exact fun g hg => h.lt g (hin' g hg)
  case fr =>
    intro g hg
    show g.tok ∈ s.opens.erase f.tok
    have hnd' : s.opens.Nodup := h.nd
    have := h.frN
    simp only [List.map_cons, List.nodup_cons, List.mem_map, not_exists, not_and] at this
    exact hnd'.mem_erase_iff.2 ⟨this.1 g hg, h.fr g (hin' g hg)⟩
  case frN =>
    have := h.frN
    simp only [List.map_cons, List.nodup_cons] at this
    exact this.2
  case des =>
    intro _
    rw [onAssign_plain hr]
    exact h.des hne
  case asy => intro _; exact h.asy hne
  case flg => exact fun g hg => h.flg g (hin' g hg)
  case dl =>
    rw [hds]
    exact fun a ha hT => hdue a ha (List.mem_cons_of_mem _ hT)
  case val =>
    rw [hds]
    exact fun a ha hT => hval a ha (List.mem_cons_of_mem _ hT)
  case usr => exact fun g hg => h.usr g (hin' g hg)
  case wt => exact fun g hg => h.wt g (hin' g hg)
  case per =>
    have := h.per
    rw [answeredH_snoc]
    simpa [owed, early, hfe, htd, users, answeredH] using this

/-- A failure ends. -/
theorem Sim.finishErr (hc : cfg.Ok) (hr : cfg.refresh = none) (h : Sim cfg t n F as) {f : Frame V E} {fs : List (Frame V E)} (hf : n.frames = f :: fs) (htd : f.todo = [])
    (hfe : failed f.r = true) :
    Sim cfg t {
      s := withOpens (n.s.opens.erase f.tok) (onAssign cfg env (n.s.modify f.tok (·.upd (completed cfg f.r))) f.tok false)
      frames := fs } (F ++ [(env, .complete f.tok f.r)]) (as ++ [.finished]) := by
  have hin : f ∈ n.frames := by rw [hf]; exact List.mem_cons_self ..
  have hin' : ∀ g ∈ fs, g ∈ n.frames := by rw [hf]; exact fun g hg => List.mem_cons_of_mem _ hg
  have hne : n.frames ≠ [] := by rw [hf]; simp
  have hd := h.des hne
  have hd' : (stateAfter cfg F).destroyed = false := by rw [h.destroyed]; exact hd
  have ho' := h.failing_open hin hfe
  have ho := h.fr f hin
  have hro : f.r.isOk = false := by cases hh : f.r <;> simp [hh, failed, Res.isOk] at hfe ⊢
  obtain ⟨e', p', h1, h2, h3, h4, h5, h6, h7⟩ := open_entry hc hr h.ok hd' ho'
  have hcb : cbsOf (stateAfter cfg F) f.tok = p'.cbs := by simp [cbsOf, h5, h3, Mapped.cbs]
  have hcbn : cbsOf n.s f.tok = p'.cbs := by
    have : n.s.findAny f.tok = (some (strip (delivering n) e')) := by
      rw [h.st, tw_findAny, h5]; rfl
    simp [cbsOf, this, h3, Mapped.cbs]
  have hnd : f.tok ∉ delivering n := by
    intro hh
    have := h.op ▸ ho'
    rw [List.mem_filter] at this
    simp [hh] at this
  -- the real state is that after the completion
  have hreal : withOpens (n.s.opens.erase f.tok) (onAssign cfg env (n.s.modify f.tok (·.upd (completed cfg f.r))) f.tok false) = (complete cfg env n.s f.tok f.r).1 := by
    rw [complete_pos ho hd, hcbn, runCbs_users _ _ _ h6, hro]
  have htw : complete cfg env n.s f.tok f.r = (tw (delivering n) (n.s.opens.erase f.tok) (complete cfg env (stateAfter cfg F) f.tok f.r).1, (complete cfg env (stateAfter cfg F) f.tok f.r).2) := by
    have := h.st
    generalize n.s.opens = l at this ho ⊢
    rw [this]
    exact tw_complete hnd ⟨fun _ => ho', fun _ => ho⟩ f.r
  have hs1 : stateAfter cfg (F ++ [(env, .complete f.tok f.r)]) = (complete cfg env (stateAfter cfg F) f.tok f.r).1 := by rw [stateAfter_snoc]; rfl
  have hC := complete_pos (cfg := cfg) (env := env) ho' hd' f.r
  rw [hcb, runCbs_users _ _ _ h6, hro] at hC
  have hL : ∀ y, (ledgerAfter cfg (F ++ [(env, .complete f.tok f.r)])).wait y = (ledgerAfter cfg F).wait y := by
    intro y
    rw [ledgerAfter_snoc]
    simp only [outAt, Hoard.step, hC, Ledger.after, Ledger.finish]
  have hnx : (complete cfg env (stateAfter cfg F) f.tok f.r).1.nextId = (stateAfter cfg F).nextId := by rw [hC, onAssign_plain hr]; rfl
  have hopn : (complete cfg env (stateAfter cfg F) f.tok f.r).1.opens = (stateAfter cfg F).opens.erase f.tok := by rw [hC]; rfl
  have g := good_any hc F h.ok env
  rw [hreal]
  obtain ⟨s, frames⟩ := n
  simp only at hf
  subst hf
  have hdl : delivering ({ s := s, frames := f :: fs } : HSt K V E) = delivering ({ s := s, frames := fs } : HSt K V E) := delivering_err _ _ _ hfe
  have hds : ∀ s' : St K V E, delivering ({ s := s', frames := fs } : HSt K V E) = delivering ({ s := s, frames := fs } : HSt K V E) := fun _ => rfl
  have hop := h.op
  have hdue := h.dl
  have hval := h.val
  rw [hdl] at hop hdue hval hnd htw
  have hnO : s.opens.Nodup := h.nd
  have hrl : (complete cfg env s f.tok f.r).1.opens = s.opens.erase f.tok := by rw [htw]; rfl
  constructor
  case ok => exact histOk_snoc h.ok trivial
  case st =>
    rw [hds, hs1]
    show (complete cfg env s f.tok f.r).1 = tw _ (complete cfg env s f.tok f.r).1.opens _
    rw [hrl]
    exact congrArg Prod.fst htw
  case op =>
    rw [hds, hs1, hopn]
    show _ = (complete cfg env s f.tok f.r).1.opens.filter _
    rw [hrl, g.wf2.opN.erase_eq_filter, hop, hnO.erase_eq_filter, List.filter_filter, List.filter_filter]
    apply List.filter_congr
    intro y _
    rw [Bool.and_comm]
  case nd =>
    show (complete cfg env s f.tok f.r).1.opens.Nodup
    rw [hrl]; exact hnO.erase _
  case lt => rw [hs1, hnx]; exact fun g hg => h.lt g (hin' g hg)
  case fr =>
    intro g hg
    show g.tok ∈ (complete cfg env s f.tok f.r).1.opens
    rw [hrl]
    have := h.frN
    simp only [List.map_cons, List.nodup_cons, List.mem_map, not_exists, not_and] at this
    exact hnO.mem_erase_iff.2 ⟨this.1 g hg, h.fr g (hin' g hg)⟩
  case frN =>
    have := h.frN
    simp only [List.map_cons, List.nodup_cons] at this
    exact this.2
  case des =>
    intro _
    show (complete cfg env s f.tok f.r).1.destroyed = false
    rw [htw, hC, onAssign_plain hr]
    exact hd'
  case asy => intro _; exact h.asy hne
  case flg => exact fun g hg => h.flg g (hin' g hg)
  case dl =>
    rw [hds, hs1]
    exact AllE.complete (env := env) due_cl hdue hnd (by rw [hcb]; exact h6) f.r
  case val =>
    rw [hds, hs1]
    exact AllE.complete (env := env) hasVal_cl hval hnd (by rw [hcb]; exact h6) f.r
  case usr => exact fun g hg => h.usr g (hin' g hg)
  case wt =>
    intro g hg hge
    rw [hL]; exact h.wt g (hin' g hg) hge
  case per =>
    classical
    have h8 := h.wt f hin hfe
    rw [htd, List.append_nil, ← h7] at h8
    have := h.per
    rw [per_iff] at this ⊢
    intro y
    have := this y
    rw [answeredH_snoc, run_snoc_out]
    simp only [Hoard.step, hC, answeredH, owed, early, hfe, h8, List.flatMap_cons, List.flatMap_nil, List.append_nil, List.nil_append, List.count_append, if_true] at this ⊢
    omega

/-- One step. -/
theorem sim_next (hc : cfg.Ok) (hr : cfg.refresh = none) (hA : ∀ A, cfg.maxAge = some A → 0 < A) (h : Sim cfg t n F as) {e : Ev K V E} (he : e.ok cfg n)
    (ht : cfg.maxAge ≠ none → n.frames ≠ [] → env.now = t) (hm : Mono (F.map (·.1) ++ [env])) (hw : ∀ N, cfg.maxSize = some N → WithinH cfg N (F ++ linOf env n e))
    (hcur : ∀ tok v, e = .begin tok (.ok v) → tok ∈ n.s.opens → n.s.destroyed = false → ∃ k, (ledgerAfter cfg F).valid k = some tok)
    {a : Ans K V E} (hn : next cfg env n e = .ok n1 a) : Sim cfg env.now n1 (F ++ linOf env n e) (as ++ [a]) := by
  have hT : Sim cfg env.now n F as := h.time ht
  cases e with
  | op o =>
    simp only [next] at hn
    split at hn
    · cases hn
    · rename_i hj
      cases hn
      exact hT.opStep hc hr hA he (fun _ _ => rfl) (by simpa using hj) hw
  | begin x r =>
    simp only [next, begin_] at hn
    by_cases hx : x ∈ n.s.opens ∧ n.s.destroyed = false
    · rw [if_pos hx] at hn
      cases hfi : n.s.findAny x with
      | none => simp [hfi] at hn
      | some en =>
        cases hmp : en.mapped with
        | pending p =>
          cases r with
          | ok v =>
            simp only [hfi, hmp] at hn
            cases hn
            obtain ⟨k, hk⟩ := hcur x v rfl hx.1 hx.2
            exact hT.beginOk hc hr he hx.1 hx.2 hfi hmp hm (fun N hN => (hw N hN).prefix) hk
          | err q =>
            simp only [hfi, hmp] at hn
            cases hn
            simp only [linOf, hx, and_self, if_true, List.append_nil]
            exact hT.beginErr hc hr he rfl hx.1 hx.2 hfi hmp
        | _ => simp [hfi, hmp] at hn
    · rw [if_neg hx] at hn
      cases hn
      cases r with
      | ok v => exact hT.late hc he (.ok v) hx
      | err q =>
        simp only [linOf, hx, if_false]
        exact hT.late hc he (.err q) hx
  | next =>
    obtain ⟨f, fs, hf, htd⟩ := he
    simp only [next, next_, hf] at hn
    simp only [linOf, List.append_nil]
    cases hl : f.todo with
    | nil => exact absurd hl htd
    | cons cb cbs =>
      obtain ⟨w, rfl⟩ := hT.usr f (by rw [hf]; exact List.mem_cons_self ..) cb (by rw [hl]; simp)
      simp only [hl] at hn
      split at hn
      · cases hn
      · cases hn
        exact hT.nextStep hf hl
  | finish =>
    obtain ⟨f, fs, hf, htd⟩ := he
    simp only [next, finish_, hf] at hn
    split at hn
    · cases hn
    · cases hn
      cases hfe : failed f.r with
      | false =>
        have : linOf env n (.finish : Ev K V E) = [] := by
          obtain ⟨x, r, _, _, _, _⟩ := f
          cases r with
          | ok v => simp only [linOf, hf]
          | err q => cases hfe
        rw [this, List.append_nil]
        simp only [Bool.false_eq_true, if_false, Bool.not_false]
        have hq := hT.finishOk hc hr hf htd hfe
        have hops : (onAssign cfg env (n.s.modify f.tok (·.upd (settled cfg f))) f.tok true).opens = n.s.opens := by rw [onAssign_plain hr]; rfl
        rw [hops]
        exact hq
      | true =>
        have : linOf env n (.finish : Ev K V E) = [(env, .complete f.tok f.r)] := by
          obtain ⟨x, r, _, _, _, _⟩ := f
          cases r with
          | ok v => cases hfe
          | err q => simp only [linOf, hf]
        rw [this]
        simp only [if_true, Bool.not_true]
        have hq := hT.finishErr (env := env) hc hr hf htd hfe
        have hops : (onAssign cfg env (n.s.modify f.tok (·.upd (completed cfg f.r))) f.tok false).opens = n.s.opens := by rw [onAssign_plain hr]; rfl
        rw [hops]
        exact hq

/-- The entry found while something is being delivered. -/
theorem hit_entry (hc : cfg.Ok) (hr : cfg.refresh = none) (hA : ∀ A, cfg.maxAge = some A → 0 < A) (h : Sim cfg env.now n F as) (hne : n.frames ≠ []) {k : K} {id : Nat}
    (hh : (getWalk cfg env k true (n.s.bucket (n.s.bucketFor (cfg.hash k)))).hit = some (id, .pend)) :
    ∃ e ∈ (stateAfter cfg F).ents, cfg.eqv e.key k = true ∧ e.mapped.live = true ∧ e.id = id := by
  have g := good_any hc F h.ok env
  have hE : AllE (Early env (delivering n)) (stateAfter cfg F) := by
    intro e he hT
    rw [h.dl e he hT]
    cases hmA : cfg.maxAge with
    | none => rfl
    | some A =>
      have h6 := hA A hmA
      rw [Option.map_some, Bool.eq_false_iff, ne_eq, not_past]
      exact ⟨by omega, fun _ => by omega⟩
  rw [h.st, tw_bucketFor, tw_bucket, getWalk_strip k true _ (hE.agree.bucket _)] at hh
  have hh : (getWalk cfg env k true ((stateAfter cfg F).bucket ((stateAfter cfg F).bucketFor (cfg.hash k)))).hit = some (id, .pend) := hh
  rw [getWalk_hit hc, find_ents_bucket hc g.wf1.placed] at hh
  cases hf : (stateAfter cfg F).ents.find? (isHit cfg env k true) with
  | none => rw [hf] at hh; cases hh
  | some e =>
    rw [hf] at hh
    simp only [Option.map_some, Option.some.injEq, Prod.mk.injEq] at hh
    obtain ⟨he, hk, hex, ⟨v, _, h3⟩ | h1⟩ := hit_facts hf
    · rw [h3] at hh; cases hh.2
    · exact ⟨e, he, hk, h1.2.1, hh.1⟩

/-- What keeps the next step from being undefined or from ending the program. -/
theorem sim_defined (hc : cfg.Ok) (hr : cfg.refresh = none) (hA : ∀ A, cfg.maxAge = some A → 0 < A) (h : Sim cfg t n F as) {e : Ev K V E} (he : e.ok cfg n)
    (ht : cfg.maxAge ≠ none → n.frames ≠ [] → env.now = t)
    (hp : ∀ k w b u, e = .op (.asyncGet k w b) → (ledgerAfter cfg F).valid k = some u → u ∉ failing n) :
    ∃ n1 a, next cfg env n e = .ok n1 a := by
  have hT : Sim cfg env.now n F as := h.time ht
  cases e with
  | op o =>
    refine ⟨_, _, if_neg ?_⟩
    intro hj
    cases o with
    | asyncGet k w b =>
      simp only [joinsFailing] at hj
      split at hj
      · rename_i id hh
        have hne : n.frames ≠ [] := by
          intro h0
          simp [failing, h0] at hj
        have g := good_any hc F h.ok env
        obtain ⟨e0, q1, q2, q3, q4⟩ := hit_entry hc hr hA hT hne hh
        refine hp k w b id rfl (q4 ▸ (g.p k).c2 e0 q1 q2 q3) ?_
        simpa using hj
      · cases hj
    | _ => simp [joinsFailing] at hj
  | begin x r =>
    simp only [next, begin_]
    by_cases hx : x ∈ n.s.opens ∧ n.s.destroyed = false
    · rw [if_pos hx]
      have ho' := (h.open_iff he).1 hx.1
      have hd' : (stateAfter cfg F).destroyed = false := by rw [h.destroyed]; exact hx.2
      obtain ⟨e', p', h1, h2, h3, h4, h5, h6, h7⟩ := open_entry hc hr h.ok hd' ho'
      have hfi : n.s.findAny x = some (strip (delivering n) e') := by
        rw [h.st, tw_findAny, h5]; rfl
      have hmp : (strip (delivering n) e').mapped = .pending p' := by rw [strip_mapped, h3]
      cases r with
      | ok v => simp only [hfi, hmp]; exact ⟨_, _, rfl⟩
      | err q => simp only [hfi, hmp]; exact ⟨_, _, rfl⟩
    · rw [if_neg hx]; exact ⟨_, _, rfl⟩
  | next =>
    obtain ⟨f, fs, hf, htd⟩ := he
    simp only [next, next_, hf]
    cases hl : f.todo with
    | nil => exact absurd hl htd
    | cons cb cbs =>
      obtain ⟨w, rfl⟩ := hT.usr f (by rw [hf]; exact List.mem_cons_self ..) cb (by rw [hl]; simp)
      have : (!failed f.r && !cfg.ptr && !holdsStrong n.s f.tok) = false := by
        cases hfe : failed f.r with
        | true => rfl
        | false =>
          have hin : f ∈ n.frames := by rw [hf]; exact List.mem_cons_self ..
          obtain ⟨e0, he0, hi0⟩ := full_hist hc hr F h.ok f.tok (h.lt f hin)
          have hfi := findAny_of (good_any hc F h.ok env).wf1 he0
          obtain ⟨v, hv⟩ := h.val e0 he0 (by rw [hi0]; exact delivering_mem.2 ⟨f, hin, hfe, rfl⟩)
          have : n.s.findAny f.tok = some (strip (delivering n) e0) := by
            rw [h.st, tw_findAny, ← hi0, hfi]; rfl
          have : holdsStrong n.s f.tok = true := by simp only [holdsStrong, this, strip_mapped, hv]
          simp [this]
      simp only [this]
      exact ⟨_, _, rfl⟩
  | finish =>
    obtain ⟨f, fs, hf, htd⟩ := he
    simp only [next, finish_, hf]
    have : (!failed f.r && !f.expired && f.weakened && cfg.ptr && !holdsStrong n.s f.tok) = false := by
      cases hfe : failed f.r with
      | true => rfl
      | false =>
        obtain ⟨q1, q2⟩ := h.flg f (by rw [hf]; exact List.mem_cons_self ..) hfe
        simp [q1, q2]
    simp only [this]
    exact ⟨_, _, rfl⟩

/-! ### Whole runs -/

theorem runH_cons {env : Env V} {e : Ev K V E} {h : HHist K V E} {n2 : HSt K V E} {as2 : List (Ans K V E)} (hh : runH cfg n ((env, e) :: h) = some (n2, as2)) :
    ∃ n1 a as1, next cfg env n e = .ok n1 a ∧ runH cfg n1 h = some (n2, as1) ∧ as2 = a :: as1 := by
  simp only [runH] at hh
  cases hn : next cfg env n e with
  | ok n1 a =>
    rw [hn] at hh
    simp only at hh
    cases hr : runH cfg n1 h with
    | none => rw [hr] at hh; cases hh
    | some q =>
      obtain ⟨n3, as3⟩ := q
      rw [hr] at hh
      simp only [Option.some.injEq, Prod.mk.injEq] at hh
      exact ⟨n1, a, as3, rfl, by rw [hr, hh.1], hh.2.symm⟩
  | ub => rw [hn] at hh; cases hh
  | crash => rw [hn] at hh; cases hh

theorem linOf_envs (env : Env V) (n : HSt K V E) (e : Ev K V E) : ((linOf env n e).map (·.1)).Sublist [env] := by
  cases e with
  | op o => exact .refl _
  | begin x r =>
    cases r with
    | ok v => exact .refl _
    | err q => simp only [linOf]; split <;> simp
  | next => simp [linOf]
  | finish => simp only [linOf]; split <;> simp

theorem lin_cons {env : Env V} {e : Ev K V E} {h : HHist K V E} {a : Ans K V E} (hn : next cfg env n e = .ok n1 a) :
    lin cfg n ((env, e) :: h) = linOf env n e ++ lin cfg n1 h := by
  simp only [lin, hn]

/-- What a run needs, from a state in the middle. -/
structure Needs (cfg : Cfg K) (n : HSt K V E) (F : Hist K V E) (t : Time) (h : HHist K V E) : Prop where
  ok : HOk cfg n h
  cur : Current cfg n F h
  mono : Mono (F.map (·.1) ++ h.map (·.1))
  within : ∀ N, cfg.maxSize = some N → WithinH cfg N (F ++ lin cfg n h)
  inst : cfg.maxAge ≠ none → Instant cfg n t h

theorem Orderly.needs {h : HHist K V E} (ho : Orderly cfg h) : Needs cfg {} [] ⟨0, 0⟩ h :=
  ⟨ho.ok, ho.cur, by simpa using ho.mono, fun N hN => by simpa using ho.within N hN, ho.inst⟩

theorem Needs.cons {env : Env V} {e : Ev K V E} {h : HHist K V E} {a : Ans K V E} (w : Needs cfg n F t ((env, e) :: h)) (hn : next cfg env n e = .ok n1 a) :
    Needs cfg n1 (F ++ linOf env n e) env.now h where
  ok := w.ok.2 n1 a hn
  cur := w.cur.2 n1 a hn
  mono := by
    have := w.mono
    refine List.Pairwise.sublist ?_ this
    rw [List.map_append, List.append_assoc]
    refine List.Sublist.append (.refl _) ?_
    rw [List.map_cons]
    exact List.Sublist.append (linOf_envs env n e) (.refl (h.map (·.1)))
  within := by
    intro N hN
    have := w.within N hN
    rw [lin_cons hn] at this
    rwa [List.append_assoc]
  inst := fun hA => (w.inst hA).2 n1 a hn

theorem Needs.sim (hc : cfg.Ok) (hr : cfg.refresh = none) (hA : ∀ A, cfg.maxAge = some A → 0 < A) {env : Env V} {e : Ev K V E} {h : HHist K V E} {a : Ans K V E}
    (w : Needs cfg n F t ((env, e) :: h)) (hs : Sim cfg t n F as) (hn : next cfg env n e = .ok n1 a) : Sim cfg env.now n1 (F ++ linOf env n e) (as ++ [a]) := by
  refine sim_next hc hr hA hs w.ok.1 (fun h1 => (w.inst h1).1) ?_ ?_ w.cur.1 hn
  · refine List.Pairwise.sublist ?_ w.mono
    exact List.Sublist.append (.refl _) (by simp)
  · intro N hN
    have := w.within N hN
    rw [lin_cons hn, ← List.append_assoc] at this
    exact this.prefix

theorem sim_runH (hc : cfg.Ok) (hr : cfg.refresh = none) (hA : ∀ A, cfg.maxAge = some A → 0 < A) : ∀ (h : HHist K V E) {n n' : HSt K V E} {F : Hist K V E} {t : Time}
    {as as' : List (Ans K V E)}, Needs cfg n F t h → Sim cfg t n F as → runH cfg n h = some (n', as') →
    ∃ t', Sim cfg t' n' (F ++ lin cfg n h) (as ++ as')
  | [], n, n', F, t, as, as', _, hs, hh => by
    simp only [runH, Option.some.injEq, Prod.mk.injEq] at hh
    obtain ⟨rfl, rfl⟩ := hh
    exact ⟨t, by simpa [lin] using hs⟩
  | (env, e) :: h, n, n', F, t, as, as', w, hs, hh => by
    obtain ⟨n1, a, as1, h1, h2, rfl⟩ := runH_cons hh
    obtain ⟨t', q⟩ := sim_runH hc hr hA h (w.cons h1) (w.sim hc hr hA hs h1) h2
    refine ⟨t', ?_⟩
    rw [lin_cons h1, ← List.append_assoc]
    simpa using q

/-- Nothing undefined happens. -/
theorem sim_runs (hc : cfg.Ok) (hr : cfg.refresh = none) (hA : ∀ A, cfg.maxAge = some A → 0 < A) : ∀ (h : HHist K V E) {n : HSt K V E} {F : Hist K V E} {t : Time}
    {as : List (Ans K V E)}, Needs cfg n F t h → Patient cfg n F h → Sim cfg t n F as → ∃ n' as', runH cfg n h = some (n', as')
  | [], n, F, t, as, _, _, hs => ⟨n, [], rfl⟩
  | (env, e) :: h, n, F, t, as, w, hp, hs => by
    obtain ⟨n1, a, h1⟩ := sim_defined (env := env) hc hr hA hs w.ok.1 (fun h1 => (w.inst h1).1) hp.1
    obtain ⟨n2, as2, h2⟩ := sim_runs hc hr hA h (w.cons h1) (hp.2 n1 a h1) (w.sim hc hr hA hs h1)
    exact ⟨n2, a :: as2, by simp only [runH, h1, h2]⟩

/-! ### Parts of a run -/

theorem HOk_append : ∀ (h1 : HHist K V E) {n n1 : HSt K V E} {as1 : List (Ans K V E)} {h2 : HHist K V E}, HOk cfg n (h1 ++ h2) → runH cfg n h1 = some (n1, as1) →
    HOk cfg n1 h2
  | [], n, n1, as1, h2, ho, hh => by
    simp only [runH, Option.some.injEq, Prod.mk.injEq] at hh
    rw [← hh.1]; exact ho
  | (env, e) :: h1, n, n1, as1, h2, ho, hh => by
    obtain ⟨m, a, as2, q1, q2, rfl⟩ := runH_cons hh
    exact HOk_append h1 (ho.2 m a q1) q2

theorem lin_append : ∀ (h1 : HHist K V E) {n n1 : HSt K V E} {as1 : List (Ans K V E)} (h2 : HHist K V E), runH cfg n h1 = some (n1, as1) →
    lin cfg n (h1 ++ h2) = lin cfg n h1 ++ lin cfg n1 h2
  | [], n, n1, as1, h2, hh => by
    simp only [runH, Option.some.injEq, Prod.mk.injEq] at hh
    rw [← hh.1]; rfl
  | (env, e) :: h1, n, n1, as1, h2, hh => by
    obtain ⟨m, a, as2, q1, q2, rfl⟩ := runH_cons hh
    have := lin_append h1 h2 q2
    rw [List.cons_append, lin_cons q1, lin_cons q1, this, List.append_assoc]

/-- The first part of a run. -/
theorem Needs.prefix : ∀ (h1 : HHist K V E) {h2 : HHist K V E} {n : HSt K V E} {F : Hist K V E} {t : Time}, Needs cfg n F t (h1 ++ h2) →
    (∃ n1 as1, runH cfg n h1 = some (n1, as1)) → Needs cfg n F t h1
  | [], h2, n, F, t, w, _ => ⟨trivial, trivial, by
      have := w.mono; exact List.Pairwise.sublist (by simp) this, fun N hN => (w.within N hN).prefix |> (by simpa [lin] using ·), fun _ => trivial⟩
  | (env, e) :: h1, h2, n, F, t, w, ⟨n1, as1, hh⟩ => by
    obtain ⟨m, a, as2, q1, q2, rfl⟩ := runH_cons hh
    have ih := Needs.prefix h1 (w.cons q1) ⟨n1, as2, q2⟩
    have det : ∀ n1 a1, next cfg env n e = .ok n1 a1 → n1 = m ∧ a1 = a := by
      intro n1 a1 hn; rw [q1] at hn; cases hn; exact ⟨rfl, rfl⟩
    refine ⟨⟨w.ok.1, fun n1 a1 hn => ?_⟩, ⟨w.cur.1, fun n1 a1 hn => ?_⟩, ?_, ?_, fun h1 => ⟨(w.inst h1).1, fun n1 a1 hn => ?_⟩⟩
    · rw [(det _ _ hn).1]; exact ih.ok
    · rw [(det _ _ hn).1]; exact ih.cur
    · exact List.Pairwise.sublist (List.Sublist.append (.refl _) (by simp)) w.mono
    · intro N hN
      have := ih.within N hN
      rw [lin_cons q1, ← List.append_assoc]; exact this
    · rw [(det _ _ hn).1]; exact ih.inst h1

/-- The state after the first part of a run. -/
theorem sim_split (hc : cfg.Ok) (hr : cfg.refresh = none) (hA : ∀ A, cfg.maxAge = some A → 0 < A) : ∀ (h1 : HHist K V E) {h2 : HHist K V E} {n n1 : HSt K V E}
    {F : Hist K V E} {t : Time} {as as1 : List (Ans K V E)}, Needs cfg n F t (h1 ++ h2) → Sim cfg t n F as → runH cfg n h1 = some (n1, as1) →
    ∃ t', Sim cfg t' n1 (F ++ lin cfg n h1) (as ++ as1) ∧ Needs cfg n1 (F ++ lin cfg n h1) t' h2
  | [], h2, n, n1, F, t, as, as1, w, hs, hh => by
    simp only [runH, Option.some.injEq, Prod.mk.injEq] at hh
    obtain ⟨rfl, rfl⟩ := hh
    exact ⟨t, by simpa [lin] using hs, by simpa [lin] using w⟩
  | (env, e) :: h1, h2, n, n1, F, t, as, as1, w, hs, hh => by
    obtain ⟨m, a, as2, q1, q2, rfl⟩ := runH_cons hh
    obtain ⟨t', q3, q4⟩ := sim_split hc hr hA h1 (w.cons q1) (w.sim hc hr hA hs q1) q2
    refine ⟨t', ?_, ?_⟩
    · rw [lin_cons q1, ← List.append_assoc]; simpa using q3
    · rw [lin_cons q1, ← List.append_assoc]; exact q4

/-! ### Waiters -/

theorem frames_le {w : Nat} : ∀ (fs : List (Frame V E)) (l : List (Entry K V E)), (fs.map (·.tok)).Nodup → (l.map (·.id)).Nodup →
    (∀ f ∈ fs, ∃ e ∈ l, e.id = f.tok ∧ (users f.ran).count w ≤ wt w e) → (fs.map (fun f => (users f.ran).count w)).sum ≤ Wl w l
  | [], l, _, _, _ => Nat.zero_le _
  | f :: fs, l, hn, hl, h => by
    obtain ⟨e, he, h1, h2⟩ := h f (List.mem_cons_self ..)
    obtain ⟨l1, l2, rfl⟩ := List.append_of_mem he
    have hp : (l1 ++ e :: l2).Perm (e :: (l1 ++ l2)) := List.perm_middle
    have hl' : ((e :: (l1 ++ l2)).map (·.id)).Nodup := (hp.map _).nodup_iff.1 hl
    simp only [List.map_cons, List.nodup_cons, List.mem_map, not_exists, not_and] at hn hl'
    have := frames_le fs (l1 ++ l2) hn.2 hl'.2 (fun g hg => by
      obtain ⟨e', he', h3, h4⟩ := h g (List.mem_cons_of_mem _ hg)
      rcases List.mem_cons.1 (hp.mem_iff.1 he') with rfl | he'
      · exact absurd (h3.symm.trans h1) (hn.1 g hg)
      · exact ⟨e', he', h3, h4⟩)
    rw [Wl_perm hp]
    simp only [List.map_cons, List.sum_cons, Wl] at this ⊢
    omega

/-- Those answered early wait in the plain run. -/
theorem Sim.early_le (hc : cfg.Ok) (hr : cfg.refresh = none) (h : Sim cfg t n F as) (w : Nat) :
    ((early n).map (·.1)).count w ≤ Wt w (stateAfter cfg F) := by
  have g := good_any hc F h.ok (⟨⟨0, 0⟩, fun _ => true⟩ : Env V)
  have h1 : ((early n).map (·.1)).count w = ((n.frames.filter (fun f => failed f.r)).map (fun f => (users f.ran).count w)).sum := by
    simp only [early]
    generalize n.frames = fs
    induction fs with
    | nil => rfl
    | cons f fs ih =>
      simp only [List.flatMap_cons, List.map_append, List.count_append, ih]
      cases hf : failed f.r <;> simp [hf, Function.comp_def]
  rw [h1]
  refine Nat.le_trans (frames_le _ (stateAfter cfg F).ents ?_ ?_ ?_) (Nat.le_add_right _ _)
  · exact List.Nodup.sublist (List.filter_sublist.map _) h.frN
  · have := g.wf1.ids
    rw [List.map_append] at this
    exact (List.nodup_append.1 this).1
  · intro f hf
    obtain ⟨hf, hfe⟩ := List.mem_filter.1 hf
    have hd' : (stateAfter cfg F).destroyed = false := by
      rw [h.destroyed]; exact h.des (by intro h0; rw [h0] at hf; cases hf)
    have ho' := h.failing_open hf hfe
    obtain ⟨e', p', h1, h2, h3, h4, h5, h6, h7⟩ := open_entry hc hr h.ok hd' ho'
    refine ⟨e', h1, h2, ?_⟩
    have : Hoard.wt w e' = (users p'.cbs).count w := by simp [Hoard.wt, h3, Mapped.cbs]
    rw [this, h7, ← h.wt f hf hfe, users_app, List.count_append]
    exact Nat.le_add_right _ _

/-- Dropped waiters are the same. -/
theorem sim_broken (hc : cfg.Ok) (hr : cfg.refresh = none) (hA : ∀ A, cfg.maxAge = some A → 0 < A) (h : Sim cfg t n F as) {e : Ev K V E} (he : e.ok cfg n)
    (ht : cfg.maxAge ≠ none → n.frames ≠ [] → env.now = t) {a : Ans K V E} (hn : next cfg env n e = .ok n1 a) (hb : brokenH as = brokenW (outsOf cfg F)) :
    brokenH (as ++ [a]) = brokenW (outsOf cfg (F ++ linOf env n e)) := by
  have snoc : ∀ o : Op K V E, brokenW (outsOf cfg (F ++ [(env, o)])) = brokenW (outsOf cfg F) ++ (step cfg env (stateAfter cfg F) o).2.broken := by
    intro o
    simp only [outsOf]
    rw [run_append]
    simp [brokenW, run, stateAfter]
  have snocH : brokenH (as ++ [a]) = brokenH as ++ brokenH [a] := by simp [brokenH]
  have none_ : ∀ (x : Nat) (r : Res V E), x ∈ (stateAfter cfg F).opens → (stateAfter cfg F).destroyed = false →
      (step cfg env (stateAfter cfg F) (.complete x r)).2.broken = [] := by
    intro x r h1 h2
    simp only [step, complete_pos h1 h2]
  rw [snocH, hb]
  cases e with
  | op o =>
    simp only [next] at hn
    split at hn
    · cases hn
    · cases hn
      obtain ⟨l', e1, _⟩ := h.step hc hr hA he ht
      simp only [linOf, snoc]
      rw [e1]; simp [brokenH]
  | begin x r =>
    simp only [next, begin_] at hn
    by_cases hx : x ∈ n.s.opens ∧ n.s.destroyed = false
    · rw [if_pos hx] at hn
      have ho' := (h.open_iff he).1 hx.1
      have hd' : (stateAfter cfg F).destroyed = false := by rw [h.destroyed]; exact hx.2
      have ha : a = .begun := by
        cases hfi : n.s.findAny x with
        | none => simp [hfi] at hn
        | some en =>
          cases hmp : en.mapped with
          | pending p => cases r <;> (simp only [hfi, hmp] at hn; cases hn; rfl)
          | _ => simp [hfi, hmp] at hn
      subst ha
      cases r with
      | ok v => simp only [linOf, snoc, none_ x _ ho' hd']; rfl
      | err q => simp only [linOf, hx, and_self, if_true, List.append_nil]; simp [brokenH]
    · rw [if_neg hx] at hn
      cases hn
      have hl : linOf env n (.begin x r) = [(env, .complete x r)] := by
        cases r with
        | ok v => rfl
        | err q => simp only [linOf, hx, if_false]
      rw [hl, snoc]
      have : (complete cfg env n.s x r).2 = (complete cfg env (stateAfter cfg F) x r).2 := by
        by_cases hf : n.frames = []
        · rw [h.eq hf]
        · have hd := h.des hf
          have h1 : x ∉ n.s.opens := fun hh => hx ⟨hh, hd⟩
          have h2 : x ∉ (stateAfter cfg F).opens := fun hh => h1 ((h.open_iff he).2 hh)
          rw [complete_neg h1, complete_neg h2]
      simp [brokenH, step, this]
  | next =>
    obtain ⟨f, fs, hf, htd⟩ := he
    simp only [next, next_, hf] at hn
    simp only [linOf, List.append_nil]
    cases hl : f.todo with
    | nil => exact absurd hl htd
    | cons cb cbs =>
      obtain ⟨w, rfl⟩ := h.usr f (by rw [hf]; exact List.mem_cons_self ..) cb (by rw [hl]; simp)
      simp only [hl] at hn
      split at hn
      · cases hn
      · cases hn; simp [brokenH]
  | finish =>
    obtain ⟨f, fs, hf, htd⟩ := he
    simp only [next, finish_, hf] at hn
    split at hn
    · cases hn
    · cases hn
      have hin : f ∈ n.frames := by rw [hf]; exact List.mem_cons_self ..
      cases hfe : failed f.r with
      | false =>
        have : linOf env n (.finish : Ev K V E) = [] := by
          obtain ⟨x, r, _, _, _, _⟩ := f
          cases r with
          | ok v => simp only [linOf, hf]
          | err q => cases hfe
        rw [this, List.append_nil]; simp [brokenH]
      | true =>
        have : linOf env n (.finish : Ev K V E) = [(env, .complete f.tok f.r)] := by
          obtain ⟨x, r, _, _, _, _⟩ := f
          cases r with
          | ok v => cases hfe
          | err q => simp only [linOf, hf]
        have hd' : (stateAfter cfg F).destroyed = false := by rw [h.destroyed]; exact h.des (by rw [hf]; simp)
        rw [this, snoc, none_ _ _ (h.failing_open hin hfe) hd']; rfl

theorem broken_runH (hc : cfg.Ok) (hr : cfg.refresh = none) (hA : ∀ A, cfg.maxAge = some A → 0 < A) : ∀ (h : HHist K V E) {n n' : HSt K V E} {F : Hist K V E} {t : Time}
    {as as' : List (Ans K V E)}, Needs cfg n F t h → Sim cfg t n F as → brokenH as = brokenW (outsOf cfg F) → runH cfg n h = some (n', as') →
    brokenH (as ++ as') = brokenW (outsOf cfg (F ++ lin cfg n h))
  | [], n, n', F, t, as, as', _, hs, hb, hh => by
    simp only [runH, Option.some.injEq, Prod.mk.injEq] at hh
    obtain ⟨rfl, rfl⟩ := hh
    simpa [lin] using hb
  | (env, e) :: h, n, n', F, t, as, as', w, hs, hb, hh => by
    obtain ⟨n1, a, as1, h1, h2, rfl⟩ := runH_cons hh
    have := broken_runH hc hr hA h (w.cons h1) (w.sim hc hr hA hs h1)
      (sim_broken hc hr hA hs w.ok.1 (fun h1 => (w.inst h1).1) h1 hb) h2
    rw [lin_cons h1, ← List.append_assoc]
    simpa using this

theorem asked_lin : ∀ (h : HHist K V E) {n n' : HSt K V E} {as : List (Ans K V E)}, runH cfg n h = some (n', as) → asked (lin cfg n h) = askedH h
  | [], _, _, _, _ => rfl
  | (env, e) :: h, n, n', as, hh => by
    obtain ⟨n1, a, as1, h1, h2, rfl⟩ := runH_cons hh
    rw [lin_cons h1, asked_append, asked_lin h h2]
    have : askedH ((env, e) :: h) = askedH [(env, e)] ++ askedH h := by simp [askedH]
    rw [this]
    congr 1
    cases e with
    | op o => cases o <;> rfl
    | begin x r =>
      cases r with
      | ok v => rfl
      | err q => simp only [linOf]; split <;> rfl
    | next => rfl
    | finish => simp only [linOf]; split <;> rfl

end Hoard.Handlers
