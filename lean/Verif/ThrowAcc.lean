import Verif.ThrowLemmas
import Verif.AsyncAcc
import Verif.StorageLemmas
import Verif.FillLemmas
/-! Histories with failing calls: who is answered, what stays, and when the program ends. -/
namespace Hoard.Throw
open Hoard Spec
variable {K V E : Type} {cfg : Cfg K} {M : Md V} {L L' : Ledger K V} {s s' : St K V E} {nx : Bool} {x : XSt K V E}

/-! ## Accounting of waiters -/

/-- A step that answers nobody; the callbacks `br` of one lookup may be dropped. -/
theorem Acc.quiet {W F B : List Nat} {wait wait' : Nat → List Nat} {opens opens' : List Nat} {n n' : Nat} {des : Bool} {Lo Lo' : Nat → Prop}
    (A : Acc W F B wait opens n des Lo) {br : List Nat} (hle : n ≤ n') (hop : ∀ t ∈ opens', t ∈ opens ∨ (t = n ∧ n < n'))
    (hlo : ∀ w, Lo w → Lo' w) (hw : ∀ t, wait' t = wait t ∨ wait' t = [])
    (hc : (br = [] ∧ ∀ t ∈ opens, t ∈ opens' ∧ wait' t = wait t) ∨
      (des = false ∧ ∃ tok ∈ opens, br = wait tok ∧ wait' tok = [] ∧ ∀ t ∈ opens, t ≠ tok → t ∈ opens' ∧ wait' t = wait t)) :
    Acc W F (B ++ br) wait' opens' n' des Lo' := by
  have wn := A.wl n (Nat.le_refl _)
  obtain ⟨fw, tw, fN, tN, td, tf, bw, bN, bf, tb, all, lt, wl⟩ := A
  have hsub : ∀ t, ∀ w ∈ wait' t, w ∈ wait t := by
    intro t w h
    rcases hw t with e | e
    · rw [e] at h; exact h
    · rw [e] at h; cases h
  have hopn : ∀ t ∈ opens', ∀ w ∈ wait' t, t ∈ opens := by
    intro t ht w h
    rcases hop t ht with h1 | ⟨h1, _⟩
    · exact h1
    · have := hsub t w h; rw [h1, wn] at this; cases this
  constructor
  · exact fw
  · exact fun t w h => tw t w (hsub t w h)
  · exact fN
  · intro t
    rcases hw t with e | e
    · rw [e]; exact tN t
    · rw [e]; simp
  · exact fun t u w h1 h2 => td t u w (hsub t w h1) (hsub u w h2)
  · exact fun t ht w h => tf t (hopn t ht w h) w (hsub t w h)
  · intro hd w h
    rcases List.mem_append.1 h with h | h
    · exact bw hd w h
    · rcases hc with ⟨e, _⟩ | ⟨_, tok, _, e, _⟩
      · rw [e] at h; cases h
      · rw [e] at h; exact tw tok w h
  · intro hd
    rcases hc with ⟨e, _⟩ | ⟨_, tok, ho, e, _⟩
    · rw [e, List.append_nil]; exact bN hd
    · rw [e]
      exact nodup_app (bN hd) (tN tok) (fun a ha hb => tb hd tok ho a hb ha)
  · intro hd w h
    rcases List.mem_append.1 h with h | h
    · exact bf hd w h
    · rcases hc with ⟨e, _⟩ | ⟨_, tok, ho, e, _⟩
      · rw [e] at h; cases h
      · rw [e] at h; exact tf tok ho w h
  · intro hd t ht w h hh
    have ho := hopn t ht w h
    rcases List.mem_append.1 hh with hh | hh
    · exact tb hd t ho w (hsub t w h) hh
    · rcases hc with ⟨e, _⟩ | ⟨_, tok, _, e, e2, _⟩
      · rw [e] at hh; cases hh
      · rw [e] at hh
        have := td t tok w (hsub t w h) hh
        rw [this, e2] at h; cases h
  · intro w h
    rcases all w h with q | q | q | ⟨hd, t, ht, q⟩
    · exact .inl q
    · exact .inr (.inl (List.mem_append_left _ q))
    · exact .inr (.inr (.inl (hlo w q)))
    · rcases hc with ⟨e, h1⟩ | ⟨_, tok, _, e, _, h1⟩
      · exact .inr (.inr (.inr ⟨hd, t, (h1 t ht).1, by rw [(h1 t ht).2]; exact q⟩))
      · by_cases hh : t = tok
        · subst hh; exact .inr (.inl (List.mem_append_right _ (by rw [e]; exact q)))
        · exact .inr (.inr (.inr ⟨hd, t, (h1 t ht hh).1, by rw [(h1 t ht hh).2]; exact q⟩))
  · intro t ht
    rcases hop t ht with h1 | ⟨h1, h2⟩
    · exact Nat.lt_of_lt_of_le (lt t h1) hle
    · omega
  · intro t ht
    rcases hw t with e | e
    · rw [e]; exact wl t (Nat.le_trans hle ht)
    · exact e

theorem resolveAsync_opens_mono (cfg : Cfg K) (env : Env V) (s : St K V E) (k : K) (b : Beh V E) (hn : s.nextId ∉ s.opens) {t : Nat} (h : t ∈ s.opens) :
    t ∈ (resolveAsync cfg env s k b).1.opens := by
  rw [resolveAsync_opens_eq cfg env s k b hn]; split <;> simp [h]

/-- A failing asynchronous get is one that does not get to the failure, or it throws without calling or dropping a callback. -/
theorem asyncFail_cases (env : Env V) (k : K) (w : Nat) (b : Beh V E) (f : AsyncFail) (hn : s.nextId ∉ s.opens) :
    asyncFail cfg env s k w b f = asyncGet cfg env s k w b ∨
    (asyncFail cfg env s k w b f).2.ret = .throws ∧ (asyncFail cfg env s k w b f).2.fired = [] ∧ (asyncFail cfg env s k w b f).2.broken = [] ∧
      (∀ t ∈ s.opens, t ∈ (asyncFail cfg env s k w b f).1.opens) ∧ (asyncFail cfg env s k w b f).1.destroyed = s.destroyed := by
  have hr : ∀ b : Beh V E, ∀ t ∈ s.opens, t ∈ (resolveAsync cfg env (get_ cfg env s k true).1 k b).1.opens :=
    fun b t ht => resolveAsync_opens_mono _ _ _ _ _ (by simpa using hn) (by simpa using ht)
  cases hh : (getWalk cfg env k true (s.bucket (s.bucketFor (cfg.hash k)))).hit with
  | some p =>
    obtain ⟨id, l⟩ := p
    have h1 : asyncGet cfg env s k w b = answer (get_ cfg env s k true).1 id w l := by unfold asyncGet; simp only [hh]
    rw [h1]
    unfold asyncFail
    simp only [hh]
    split
    · right; simp
    · left; rfl
  | none =>
    unfold asyncFail
    simp only [hh]
    split
    · right; simp
    · split
      · right; simp
      · left; rfl
    · right; exact ⟨rfl, rfl, rfl, hr b, by simp⟩
    · split
      · left; rfl
      · right; exact ⟨rfl, rfl, rfl, hr _, by simp⟩

/-- A failing synchronous get is one that does not get to the failure, or it throws. -/
theorem getFail_cases (hr : cfg.resolver = .sync) (env : Env V) (k : K) (r : Res V E) (f : SyncFail) :
    (getFail cfg env nx x k r f).2 = (Hoard.get cfg env x.s k r).2 ∧ (getFail cfg env nx x k r f).1 = { x with s := (Hoard.get cfg env x.s k r).1 } ∨
    (getFail cfg env nx x k r f).2.ret = .throws ∧ (getFail cfg env nx x k r f).2.fired = [] ∧ (getFail cfg env nx x k r f).2.broken = [] ∧
      (getFail cfg env nx x k r f).1.s.opens = x.s.opens ∧ (getFail cfg env nx x k r f).1.s.nextId = x.s.nextId ∧
      (getFail cfg env nx x k r f).1.s.destroyed = x.s.destroyed ∧ (getFail cfg env nx x k r f).1.dead = x.dead := by
  have ho := get__opens cfg env x.s k false
  have hnn := get__nextId cfg env x.s k false
  have hd : (get_ cfg env x.s k false).1.destroyed = x.s.destroyed := by simp
  unfold getFail Hoard.get
  simp only [hr]
  generalize get_ cfg env x.s k false = g at *
  obtain ⟨s1, l⟩ := g
  simp only at *
  cases l with
  | none =>
    cases f with
    | alloc => right; exact ⟨rfl, rfl, rfl, ho, hnn, hd, rfl⟩
    | build => right; exact ⟨rfl, rfl, rfl, ho, hnn, hd, rfl⟩
    | assign => right; exact ⟨rfl, rfl, rfl, ho, hnn, hd, rfl⟩
    | grow =>
      simp only
      split
      · right; exact ⟨rfl, rfl, rfl, by simpa using ho, by simpa using hnn, by simpa using hd, rfl⟩
      · left; exact ⟨rfl, rfl⟩
  | _ => left; exact ⟨rfl, rfl⟩

theorem xasked_snoc (h : XHist K V E) : ∀ (outs : List (Out K V E)) (_ : outs.length = h.length) (p : Env V × XOp K V E) (out : Out K V E),
    xasked (h ++ [p]) (outs ++ [out]) = xasked h outs ++ xasked [p] [out] := by
  induction h with
  | nil => intro outs hl p out; cases outs with
    | nil => rfl
    | cons => cases hl
  | cons q h ih =>
    intro outs hl p out
    cases outs with
    | nil => cases hl
    | cons a outs =>
      have := ih outs (by simpa using hl) p out
      obtain ⟨e, o⟩ := q
      cases o with
      | plain o => cases o <;> simp only [List.cons_append, xasked, this]
      | getFail => simp only [List.cons_append, xasked, this]
      | asyncFail k w b f =>
        simp only [List.cons_append, xasked, this]
        split <;> simp
      | assignFail => simp only [List.cons_append, xasked, this]

/-- The accounts after a history with failing calls. -/
def AccX (cfg : Cfg K) (nx : Bool) (h : XHist K V E) : Prop :=
  Acc (xasked h (xouts cfg nx h)) (answeredW (xouts cfg nx h)) (brokenW (xouts cfg nx h)) (xledgerAfter cfg nx h).wait (xstateAfter cfg nx h).s.opens
    (xstateAfter cfg nx h).s.nextId (xstateAfter cfg nx h).s.destroyed (XLost cfg nx h)

theorem XLost.snoc {h : XHist K V E} {w : Nat} (hl : XLost cfg nx h w) (p : Env V × XOp K V E) : XLost cfg nx (h ++ [p]) w := by
  obtain ⟨h1, e1, k, o, h2, rfl, hc⟩ := hl
  exact ⟨h1, e1, k, o, h2 ++ [p], by simp, hc⟩

theorem plain_asked (e : Env V) (o : Op K V E) (out : Out K V E) : xasked [(e, .plain o)] [out] = asked [(e, o)] := by
  cases o <;> rfl

theorem lookup_wait (eqv : K → K → Bool) (now : Time) (k : K) (tok : Nat) (b : Beh V E) : (L.lookup eqv now false k tok b).wait = L.wait := by
  cases b <;> rfl

theorem unheard_wait (tok t : Nat) : (unheard L tok).wait t = L.wait t ∨ (unheard L tok).wait t = [] := by
  simp only [unheard]; split
  · exact .inr rfl
  · exact .inl rfl

theorem xacc (hc : cfg.Ok) (h : XHist K V E) (hok : XHistOk cfg nx {} h) (hl : NoLostRefresh cfg nx h) (hN : (xasked h (xouts cfg nx h)).Nodup) :
    AccX cfg nx h := by
  induction h using snoc_ind with
  | h0 => constructor <;> simp [xouts, xrun, answeredW, brokenW, xasked, xledgerAfter, xhistory, xstateAfter, St.init]
  | h1 h p ih =>
    obtain ⟨e, o⟩ := p
    rw [XHistOk_append] at hok
    have hlen : (xouts cfg nx h).length = h.length := xrun_length cfg nx h {}
    rw [xouts_snoc, xasked_snoc h _ hlen] at hN
    have A := ih hok.1 hl.left (List.nodup_append.1 hN).1
    have X := xgood (nx := nx) hc False False (fun q => q.elim) h e hok.1 hl.left (fun q => q.elim) (fun q => q.elim)
    have g := X.good
    have hnop : (xstateAfter cfg nx h).s.nextId ∉ (xstateAfter cfg nx h).s.opens := fun q => Nat.lt_irrefl _ (A.lt _ q)
    have hwl := (xgood (nx := nx) hc False False (fun q => q.elim) (h ++ [(e, o)]) e (XHistOk_append.2 hok) hl (fun q => q.elim) (fun q => q.elim)).good.g.wf
    rw [xstateAfter_snoc, xledgerAfter_snoc] at hwl
    unfold AccX at A ⊢
    rw [xouts_snoc, xasked_snoc h _ hlen, answeredW_snoc, brokenW_snoc, xstateAfter_snoc, xledgerAfter_snoc]
    have hok1 := hok.2.1
    change o.ok cfg (xstateAfter cfg nx h) at hok1
    -- steps that are steps of the cache without failures
    have plainly : ∀ o' : Op K V E, o'.ok cfg (xstateAfter cfg nx h).s →
        (xstep cfg nx e (xstateAfter cfg nx h) o).1.s = (step cfg e (xstateAfter cfg nx h).s o').1 →
        xoutAt cfg nx h e o = (step cfg e (xstateAfter cfg nx h).s o').2 →
        xafter cfg.eqv cfg.resolver e.now (xledgerAfter cfg nx h) o (xoutAt cfg nx h e o) =
          (xledgerAfter cfg nx h).after cfg.eqv cfg.resolver e.now o' (step cfg e (xstateAfter cfg nx h).s o').2 →
        xasked [(e, o)] [xoutAt cfg nx h e o] = asked [(e, o')] →
        (∀ k w, o' = .asyncGet k w .drop → (xoutAt cfg nx h e o).ret ≠ .throws ∧ (o = .plain (.asyncGet k w .drop) ∨ ∃ f, o = .asyncFail k w .drop f)) →
        Acc (xasked h (xouts cfg nx h) ++ xasked [(e, o)] [xoutAt cfg nx h e o]) (answeredW (xouts cfg nx h) ++ (xoutAt cfg nx h e o).fired.map (·.1))
          (brokenW (xouts cfg nx h) ++ (xoutAt cfg nx h e o).broken)
          (xafter cfg.eqv cfg.resolver e.now (xledgerAfter cfg nx h) o (xoutAt cfg nx h e o)).wait
          (xstep cfg nx e (xstateAfter cfg nx h) o).1.s.opens (xstep cfg nx e (xstateAfter cfg nx h) o).1.s.nextId
          (xstep cfg nx e (xstateAfter cfg nx h) o).1.s.destroyed (XLost cfg nx (h ++ [(e, o)])) := by
      intro o' ho' e1 e2 e3 e4 hlo
      have W := wstep hc g o' ho'
      have T := step_tokens cfg e (xstateAfter cfg nx h).s o'
      rw [e4] at hN
      have hN' : (xasked h (xouts cfg nx h) ++ asked [(e, o')]).Nodup := hN
      have hwl' := hwl
      rw [e1, e3] at hwl'
      rw [e1, e3, e4, e2]
      refine Acc.step A W hN' T.1 T.2.1 (fun w hw => hw.snoc _) (fun k w ho hcc => ?_) (step_des cfg e _ o') (step_destroyed cfg e _ o') hwl'
        (fun k w b ho => by rw [ho] at ho'; exact ho'.2)
      obtain ⟨q1, q2⟩ := hlo k w ho
      exact ⟨h, e, k, o, [], rfl, q2, q1, by rw [e2]; exact hcc⟩
    have quietly : (xoutAt cfg nx h e o).fired = [] → xasked [(e, o)] [xoutAt cfg nx h e o] = [] →
        (xstateAfter cfg nx h).s.nextId ≤ (xstep cfg nx e (xstateAfter cfg nx h) o).1.s.nextId →
        (∀ t ∈ (xstep cfg nx e (xstateAfter cfg nx h) o).1.s.opens, t ∈ (xstateAfter cfg nx h).s.opens ∨
          (t = (xstateAfter cfg nx h).s.nextId ∧ (xstateAfter cfg nx h).s.nextId < (xstep cfg nx e (xstateAfter cfg nx h) o).1.s.nextId)) →
        (xstep cfg nx e (xstateAfter cfg nx h) o).1.s.destroyed = (xstateAfter cfg nx h).s.destroyed →
        (∀ t, (xafter cfg.eqv cfg.resolver e.now (xledgerAfter cfg nx h) o (xoutAt cfg nx h e o)).wait t = (xledgerAfter cfg nx h).wait t ∨
          (xafter cfg.eqv cfg.resolver e.now (xledgerAfter cfg nx h) o (xoutAt cfg nx h e o)).wait t = []) →
        (((xoutAt cfg nx h e o).broken = [] ∧ ∀ t ∈ (xstateAfter cfg nx h).s.opens, t ∈ (xstep cfg nx e (xstateAfter cfg nx h) o).1.s.opens ∧
            (xafter cfg.eqv cfg.resolver e.now (xledgerAfter cfg nx h) o (xoutAt cfg nx h e o)).wait t = (xledgerAfter cfg nx h).wait t) ∨
          ((xstateAfter cfg nx h).s.destroyed = false ∧ ∃ tok ∈ (xstateAfter cfg nx h).s.opens, (xoutAt cfg nx h e o).broken = (xledgerAfter cfg nx h).wait tok ∧
            (xafter cfg.eqv cfg.resolver e.now (xledgerAfter cfg nx h) o (xoutAt cfg nx h e o)).wait tok = [] ∧
            ∀ t ∈ (xstateAfter cfg nx h).s.opens, t ≠ tok → t ∈ (xstep cfg nx e (xstateAfter cfg nx h) o).1.s.opens ∧
              (xafter cfg.eqv cfg.resolver e.now (xledgerAfter cfg nx h) o (xoutAt cfg nx h e o)).wait t = (xledgerAfter cfg nx h).wait t)) →
        Acc (xasked h (xouts cfg nx h) ++ xasked [(e, o)] [xoutAt cfg nx h e o]) (answeredW (xouts cfg nx h) ++ (xoutAt cfg nx h e o).fired.map (·.1))
          (brokenW (xouts cfg nx h) ++ (xoutAt cfg nx h e o).broken)
          (xafter cfg.eqv cfg.resolver e.now (xledgerAfter cfg nx h) o (xoutAt cfg nx h e o)).wait
          (xstep cfg nx e (xstateAfter cfg nx h) o).1.s.opens (xstep cfg nx e (xstateAfter cfg nx h) o).1.s.nextId
          (xstep cfg nx e (xstateAfter cfg nx h) o).1.s.destroyed (XLost cfg nx (h ++ [(e, o)])) := by
      intro e1 e2 e3 e4 e5 e6 e7
      rw [e1, e2, e5, List.map_nil, List.append_nil, List.append_nil]
      exact Acc.quiet A e3 e4 (fun w hw => hw.snoc _) e6 e7
    have hxo : ∀ o, xoutAt cfg nx h e o = (xstep cfg nx e (xstateAfter cfg nx h) o).2 := fun _ => rfl
    generalize hx : xstateAfter cfg nx h = x at *
    cases o with
    | plain o =>
      by_cases hcm : (∃ tok r, o = .complete tok r ∧ tok ∈ x.dead) ∨ (∃ tok, o = .drop tok ∧ tok ∈ x.dead)
      · rcases hcm with ⟨tok, r, rfl, hm⟩ | ⟨tok, rfl, hm⟩
        · have hs : (xstep cfg nx e x (.plain (.complete tok r))).1.s = x.s ∧ (xstep cfg nx e x (.plain (.complete tok r))).2.fired = [] ∧
              (xstep cfg nx e x (.plain (.complete tok r))).2.broken = [] ∧ (xstep cfg nx e x (.plain (.complete tok r))).2.ret ≠ .bool true := by
            simp only [xstep, if_pos hm, completeDead]
            split
            · simp
            · cases r <;> simp
          obtain ⟨s1, s2, s3, s4⟩ := hs
          have hL : xafter cfg.eqv cfg.resolver e.now (xledgerAfter cfg nx h) (.plain (.complete tok r)) (xoutAt cfg nx h e (.plain (.complete tok r))) = xledgerAfter cfg nx h := by
            simp only [xafter, Ledger.after]
            split
            · rename_i q; rw [hxo] at q; exact absurd q s4
            · rfl
          refine quietly (by rw [hxo]; exact s2) rfl (by rw [s1]; exact Nat.le_refl _) (by rw [s1]; exact fun t ht => .inl ht) (by rw [s1]) (fun t => .inl (by rw [hL])) (.inl ⟨by rw [hxo]; exact s3, ?_⟩)
          intro t ht
          exact ⟨by rw [s1]; exact ht, by rw [hL]⟩
        · have hs : (xstep cfg nx e x (.plain (.drop tok))).1.s = x.s ∧ (xstep cfg nx e x (.plain (.drop tok))).2.fired = [] ∧
              (xstep cfg nx e x (.plain (.drop tok))).2.broken = [] := by
            simp only [xstep, if_pos hm, dropDead]; simp
          obtain ⟨s1, s2, s3⟩ := hs
          have hL : ∀ t, (xafter cfg.eqv cfg.resolver e.now (xledgerAfter cfg nx h) (.plain (.drop tok)) (xoutAt cfg nx h e (.plain (.drop tok)))).wait t = (xledgerAfter cfg nx h).wait t := by
            intro t
            simp only [xafter, Ledger.after]
            split <;> rfl
          exact quietly (by rw [hxo]; exact s2) rfl (by rw [s1]; exact Nat.le_refl _) (by rw [s1]; exact fun t ht => .inl ht) (by rw [s1]) (fun t => .inl (hL t))
            (.inl ⟨by rw [hxo]; exact s3, fun t ht => ⟨by rw [s1]; exact ht, hL t⟩⟩)
      · have hst : xstep cfg nx e x (.plain o) = ({ x with s := (Hoard.step cfg e x.s o).1 }, (Hoard.step cfg e x.s o).2) := by
          cases o with
          | complete tok r =>
            have : tok ∉ x.dead := fun hm => hcm (.inl ⟨tok, r, rfl, hm⟩)
            simp only [xstep, if_neg this, Hoard.step]
          | drop tok =>
            have : tok ∉ x.dead := fun hm => hcm (.inr ⟨tok, rfl, hm⟩)
            simp only [xstep, if_neg this, Hoard.step]
          | _ => rfl
        refine plainly o hok1.2 (by rw [hst]) (by rw [hxo, hst]) (by rw [hxo, hst]; rfl) (plain_asked ..) ?_
        rintro k w rfl
        refine ⟨?_, .inl rfl⟩
        rw [hxo, hst]
        have := (asyncGet_ok hc g hok1.2.2 hok1.2.1 k w .drop).2.1
        simp only [step]
        rw [this]; simp
    | getFail k r f =>
      rcases getFail_cases (cfg := cfg) (nx := nx) (x := x) hok1.2.1 e k r f with ⟨q1, q2⟩ | ⟨q1, q2, q3, q4, q5, q6, _⟩
      · have hr : cfg.resolver ≠ .async := by rw [hok1.2.1]; simp
        refine plainly (.get k r) ⟨hr, hok1.2.2⟩ ?_ ?_ ?_ rfl (fun k w hh => by cases hh)
        · show (getFail cfg e nx x k r f).1.s = _; rw [q2]; rfl
        · rw [hxo]; exact q1
        · rw [hxo]
          have hs : (xstep cfg nx e x (.getFail k r f)).2 = (step cfg e x.s (.get k r)).2 := q1
          rw [hs]
          simp only [xafter]
          split
          · rename_i q
            exfalso
            rcases (get_ok hc g hok1.2.2 hr k r).2 with ⟨u, hu, _⟩ | ⟨⟨hm, _⟩ | ⟨hm, _⟩, _⟩
            · rw [show (step cfg e x.s (.get k r)).2.ret = _ from hu] at q; cases q
            · rw [show (step cfg e x.s (.get k r)).2.ret = _ from hm] at q; cases q
            · rw [show (step cfg e x.s (.get k r)).2.ret = _ from hm] at q; cases r <;> cases q
          · rfl
      · have hL : xafter cfg.eqv cfg.resolver e.now (xledgerAfter cfg nx h) (.getFail k r f) (xoutAt cfg nx h e (.getFail k r f)) = xledgerAfter cfg nx h := by
          simp only [xafter, hxo, xstep, q1]
        refine quietly (by rw [hxo]; exact q2) rfl (Nat.le_of_eq q5.symm) ?_ q6 (fun t => .inl (by rw [hL])) (.inl ⟨by rw [hxo]; exact q3, fun t ht => ⟨?_, by rw [hL]⟩⟩)
        · intro t ht; left; rw [show (xstep cfg nx e x (.getFail k r f)).1.s.opens = x.s.opens from q4] at ht; exact ht
        · rw [show (xstep cfg nx e x (.getFail k r f)).1.s.opens = x.s.opens from q4]; exact ht
    | asyncFail k w b f =>
      have T := asyncFail_tokens (cfg := cfg) (s := x.s) e k w b f
      rcases asyncFail_cases (cfg := cfg) (s := x.s) e k w b f hnop with q | ⟨q1, q2, q3, q4, q5⟩
      · have hs : (xstep cfg nx e x (.asyncFail k w b f)).2 = (step cfg e x.s (.asyncGet k w b)).2 := by simp only [xstep, step, q]
        have hr : (step cfg e x.s (.asyncGet k w b)).2.ret = .unit := (asyncGet_ok hc g hok1.2.2 hok1.2.1 k w b).2.1
        refine plainly (.asyncGet k w b) hok1.2 ?_ (by rw [hxo]; exact hs) ?_ ?_ ?_
        · simp only [xstep, step, q]
        · rw [hxo, hs]; simp only [xafter, hr]
        · rw [hxo, hs]; simp only [xasked, hr, asked]
        · intro k' w' hh
          cases hh
          refine ⟨?_, .inr ⟨f, rfl⟩⟩
          rw [hxo, hs, hr]; simp
      · have hs : (xstep cfg nx e x (.asyncFail k w b f)).2 = (asyncFail cfg e x.s k w b f).2 := rfl
        have hL : (xafter cfg.eqv cfg.resolver e.now (xledgerAfter cfg nx h) (.asyncFail k w b f) (xoutAt cfg nx h e (.asyncFail k w b f))).wait = (xledgerAfter cfg nx h).wait := by
          simp only [xafter, hxo, hs, q1]
          split
          · rfl
          · exact lookup_wait ..
        refine quietly (by rw [hxo]; exact q2) ?_ T.1 T.2.1 q5 (fun t => .inl (by rw [hL])) (.inl ⟨by rw [hxo]; exact q3, fun t ht => ⟨q4 t ht, by rw [hL]⟩⟩)
        rw [hxo, hs]; simp only [xasked, q1]
    | assignFail tok keeps v =>
      by_cases hop : tok ∈ x.s.opens
      · rcases Bool.eq_false_or_eq_true x.s.destroyed with hd | hd
        · have hs : xstep cfg nx e x (.assignFail tok keeps v) = ({ x with s := (step cfg e x.s (.complete tok (.ok v))).1 }, (step cfg e x.s (.complete tok (.ok v))).2) := by
            simp only [xstep, assignFail, if_pos hop, hd, if_true, step]
          have hr : (step cfg e x.s (.complete tok (.ok v))).2.ret = .bool false := by
            simp only [step, complete, if_pos hop, hd, if_true]
          refine plainly (.complete tok (.ok v)) trivial (by rw [hs]) (by rw [hxo, hs]) ?_ rfl (fun k w hh => by cases hh)
          rw [hxo, hs]
          simp only [xafter, Ledger.after, hr]
        · have hs : (xstep cfg nx e x (.assignFail tok keeps v)).2 = { ret := .throws, broken := users (((x.s.findAny tok).map (·.mapped.cbs)).getD []) } ∧
              (xstep cfg nx e x (.assignFail tok keeps v)).1.s.opens = (if keeps then x.s.opens else x.s.opens.erase tok) ∧
              (xstep cfg nx e x (.assignFail tok keeps v)).1.s.nextId = x.s.nextId ∧
              (xstep cfg nx e x (.assignFail tok keeps v)).1.s.destroyed = x.s.destroyed := by
            simp only [xstep, assignFail, if_pos hop, hd, Bool.false_eq_true, if_false]
            exact ⟨trivial, rfl, rfl, by simp⟩
          obtain ⟨s1, s2, s3, s4⟩ := hs
          have hb : users (((x.s.findAny tok).map (·.mapped.cbs)).getD []) = (xledgerAfter cfg nx h).wait tok := by
            obtain ⟨T, hT, hid, _⟩ := g.wf2.opE hd tok hop
            have := findAny_mem g.wf1 hT
            rw [hid] at this
            rw [this, ← hid]
            exact g.g.wt T hT (by rw [hid]; exact hop)
          have hL : ∀ t, (xafter cfg.eqv cfg.resolver e.now (xledgerAfter cfg nx h) (.assignFail tok keeps v) (xoutAt cfg nx h e (.assignFail tok keeps v))).wait t =
              if t = tok then [] else (xledgerAfter cfg nx h).wait t := by
            intro t
            simp only [xafter, hxo, s1]
            cases keeps <;> rfl
          refine quietly (by rw [hxo, s1]) rfl (Nat.le_of_eq s3.symm) ?_ s4 (fun t => ?_) (.inr ⟨hd, tok, hop, by rw [hxo, s1]; exact hb, by rw [hL]; simp, fun t ht hne => ⟨?_, by rw [hL, if_neg hne]⟩⟩)
          · intro t ht
            left
            rw [s2] at ht
            split at ht
            · exact ht
            · exact List.mem_of_mem_erase ht
          · rw [hL]; split
            · exact .inr rfl
            · exact .inl rfl
          · rw [s2]; split
            · exact ht
            · exact (List.mem_erase_of_ne hne).2 ht
      · have hs : (xstep cfg nx e x (.assignFail tok keeps v)).1.s = x.s ∧ (xstep cfg nx e x (.assignFail tok keeps v)).2.fired = [] ∧
            (xstep cfg nx e x (.assignFail tok keeps v)).2.broken = [] := by
          simp only [xstep, assignFail, if_neg hop]
          repeat' split
          all_goals simp
        obtain ⟨s1, s2, s3⟩ := hs
        have hL : ∀ t, (xafter cfg.eqv cfg.resolver e.now (xledgerAfter cfg nx h) (.assignFail tok keeps v) (xoutAt cfg nx h e (.assignFail tok keeps v))).wait t =
              (xledgerAfter cfg nx h).wait t ∨ t = tok ∧
              (xafter cfg.eqv cfg.resolver e.now (xledgerAfter cfg nx h) (.assignFail tok keeps v) (xoutAt cfg nx h e (.assignFail tok keeps v))).wait t = [] := by
          intro t
          by_cases hh : t = tok
          · subst hh
            simp only [xafter]
            split
            · right; cases keeps <;> simp [unheard]
            · exact .inl rfl
          · left
            simp only [xafter]
            split
            · cases keeps <;> simp [unheard, hh, Ledger.abandon]
            · rfl
        refine quietly (by rw [hxo]; exact s2) rfl (by rw [s1]; exact Nat.le_refl _) (by rw [s1]; exact fun t ht => .inl ht) (by rw [s1]) (fun t => (hL t).imp_right And.right) (.inl ⟨by rw [hxo]; exact s3, ?_⟩)
        intro t ht
        refine ⟨by rw [s1]; exact ht, ?_⟩
        rcases hL t with q | ⟨q, _⟩
        · exact q
        · exact absurd (q ▸ ht) hop

/-! ## What failing calls leave as it was -/

theorem peek_spc (hc : cfg.Ok) {M M' : Md V} {X X'} {env : Env V} {F : Eff K V} {i : Nat} (h : Good cfg M X s L) (h' : Good cfg M' X' s' L')
    (r : Spc cfg env F i s s') (hF : ∀ i k v, ¬ F.die i k v) (a : K) (h1 : ∀ e ∈ s.ents, e.id = i → cfg.eqv e.key a = true → e.mapped.val? = none)
    (h2 : ∀ e ∈ s'.ents, e.id = i → cfg.eqv e.key a = true → e.mapped.val? = none) :
    getIfExists cfg env s' a = getIfExists cfg env s a := by
  apply peek_ext hc
  intro v
  refine (peek_val hc h' env a v).trans (Iff.trans ?_ (peek_val hc h env a v).symm)
  constructor
  · rintro ⟨e', he', hk, hx, hv⟩
    by_cases hi : e'.id = i
    · rw [h2 e' he' hi hk] at hv; cases hv
    · obtain ⟨e, he, sh⟩ := r.bwd e' he' hi
      exact ⟨e, he, by rw [← sh.key]; exact hk, sh.nx hx, sh.val v hv⟩
  · rintro ⟨e, he, hk, hx, hv⟩
    by_cases hi : e.id = i
    · rw [h1 e he hi hk] at hv; cases hv
    · obtain ⟨e', he', sh, kp⟩ := r.keepV e he hi ⟨hx, hF _ _ _, .inl (by rw [hv]; simp)⟩
      exact ⟨e', he', by rw [sh.key]; exact hk, kp.exp, by rw [kp.val]; exact hv⟩

theorem peek_shr (hc : cfg.Ok) {M M' : Md V} {X X'} {env : Env V} {F : Eff K V} (h : Good cfg M X s L) (h' : Good cfg M' X' s' L')
    (r : Shr cfg env F s s') (hF : ∀ i k v, ¬ F.die i k v) (a : K) :
    getIfExists cfg env s' a = getIfExists cfg env s a := by
  apply peek_ext hc
  intro v
  refine (peek_val hc h' env a v).trans (Iff.trans ?_ (peek_val hc h env a v).symm)
  constructor
  · rintro ⟨e', he', hk, hx, hv⟩
    obtain ⟨e, he, sh⟩ := r.bwd e' he'
    exact ⟨e, he, by rw [← sh.key]; exact hk, sh.nx hx, sh.val v hv⟩
  · rintro ⟨e, he, hk, hx, hv⟩
    obtain ⟨e', he', sh, kp⟩ := r.keepV e he ⟨hx, hF _ _ _, .inl (by rw [hv]; simp)⟩
    exact ⟨e', he', by rw [sh.key]; exact hk, kp.exp, by rw [kp.val]; exact hv⟩

theorem get__good (hc : cfg.Ok) {X} (h : Good cfg M X s L) (k : K) (incl : Bool) (hi : incl = true ∨ cfg.resolver ≠ .async) :
    ∃ L', Good cfg M X (get_ cfg M.env s k incl).1 L' := by
  rcases (get__ok hc h k incl hi).2.2 with ⟨v, _, _, _, _, g⟩ | ⟨_, _, _, g, _⟩ | ⟨_, g, _⟩
  · exact ⟨_, g⟩
  · exact ⟨_, g⟩
  · exact ⟨_, g⟩

theorem get__same (hc : cfg.Ok) {X} (h : Good cfg M X s L) (k : K) (incl : Bool) (hi : incl = true ∨ cfg.resolver ≠ .async) (a : K) :
    getIfExists cfg M.env (get_ cfg M.env s k incl).1 a = getIfExists cfg M.env s a := by
  obtain ⟨L', g⟩ := get__good hc h k incl hi
  exact peek_shr hc h g (get__shr hc h.wf1 k incl) (fun _ _ _ h => h) a

theorem resolveAsync_peek (hc : cfg.Ok) {X} (h : Good cfg M X s L) (hd : s.destroyed = false) (ha : cfg.resolver = .async) {k : K} (hcl : Clean cfg s k)
    (b : Beh V E) (a : K) (hb : ∀ r, b = .now r → cfg.eqv a k = false) :
    getIfExists cfg M.env (resolveAsync cfg M.env s k b).1 a = getIfExists cfg M.env s a := by
  obtain ⟨_, w, r, hnx, hop, hn, _⟩ := resolveAsync_spc (F := ({} : Eff K V)) M.env h.wf1 h.wf2 hd k b
  obtain ⟨hid, hnk, hnm, _⟩ := behEntry_facts cfg M.env s k b
  have hr := (resolveAsync_ok hc h hd ha hcl b).1
  refine peek_spc hc h hr r (fun _ _ _ h => h) a (fun e he hi => ?_) (fun e he hi hk => ?_)
  · have := h.wf1.lt e (List.mem_append_left _ he); omega
  · have := eq_of_id w he hn (hi.trans hid.symm)
    subst this
    cases b with
    | now r' =>
      have := hb r' rfl
      rw [hnk] at hk
      rw [hc.symm _ _ hk] at this; cases this
    | later => rw [hnm]; rfl
    | drop => rw [hnm]; rfl

theorem asyncFail_peek (hc : cfg.Ok) {X} (h : Good cfg M X s L) (hd : s.destroyed = false) (ha : cfg.resolver = .async) (k : K) (w : Nat) (b : Beh V E) (f : AsyncFail)
    (hf : (asyncFail cfg M.env s k w b f).2.ret = .throws) (a : K) (hb : ∀ r, b = .now r → cfg.eqv a k = false) :
    getIfExists cfg M.env (asyncFail cfg M.env s k w b f).1 a = getIfExists cfg M.env s a := by
  have hAr := (asyncGet_ok hc h hd ha k w b).2.1
  obtain ⟨d1, n1, hg⟩ := get__ok hc h k true (.inl rfl)
  have hd1 := d1.trans hd
  have hge := get__eq hc h.wf1.placed M.env k true
  have hs := get__same hc h k true (.inl rfl) a
  have h1 : (getWalk cfg M.env k true (s.bucket (s.bucketFor (cfg.hash k)))).hit =
      (s.ents.find? (isHit cfg M.env k true)).map (fun e => (e.id, e.mapped.get M.env true)) := by
    rw [getWalk_hit hc, find_ents_bucket hc h.wf1.placed]
  have hAe := asyncGet_eq hc h.wf1.placed M.env k w b
  unfold asyncFail at hf ⊢
  simp only at hf ⊢
  rw [h1] at hf ⊢
  cases hfi : s.ents.find? (isHit cfg M.env k true) with
  | some e =>
    rw [hfi] at hAe hf
    simp only [Option.map_some] at hAe hf ⊢
    rw [hAe] at hAr
    split at hf
    · exact hs
    · rw [hAr] at hf; cases hf
  | none =>
    rw [hfi] at hge hf
    simp only [Option.map_none] at hf ⊢
    rcases hg with ⟨v, g1, _⟩ | ⟨g1, _⟩ | ⟨g0, g1, c1, hdd⟩
    · rw [hge] at g1; cases g1
    · rw [hge] at g1; cases g1
    · have hr : ∀ b : Beh V E, (∀ r, b = .now r → cfg.eqv a k = false) →
          getIfExists cfg M.env (resolveAsync cfg M.env (get_ cfg M.env s k true).1 k b).1 a = getIfExists cfg M.env s a :=
        fun b hb => (resolveAsync_peek hc g1 hd1 ha c1 b a hb).trans hs
      cases f with
      | alloc => exact hs
      | grow =>
        simp only at hf ⊢
        split
        · exact (beforeLink_peek hc g1 (beforeLink_ok hc g1) (Env.le.refl _) a).trans hs
        · rename_i hn; rw [if_neg hn, hAr] at hf; cases hf
      | functor => exact hr b hb
      | register =>
        cases b with
        | now r => simp only at hf; rw [hAr] at hf; cases hf
        | later => exact hr _ (fun r h => by cases h)
        | drop => exact hr _ (fun r h => by cases h)

theorem getFail_peek (hc : cfg.Ok) {X} (h : Good cfg M X x.s L) (hd : x.s.destroyed = false) (hr : cfg.resolver = .sync) (k : K) (r : Res V E) (f : SyncFail)
    (hf : (getFail cfg M.env nx x k r f).2.ret = .throws) (a : K) :
    getIfExists cfg M.env (getFail cfg M.env nx x k r f).1.s a = getIfExists cfg M.env x.s a := by
  have hra : cfg.resolver ≠ .async := by rw [hr]; simp
  have hs := get__same hc h k false (.inr hra) a
  obtain ⟨d1, n1, hg⟩ := get__ok hc h k false (.inr hra)
  have hgr := (get_ok hc h hd hra k r).2
  unfold getFail at hf ⊢
  simp only at hf ⊢
  rcases hg with ⟨u, e1, _⟩ | ⟨_, h2, _⟩ | ⟨e1, g1, c1, hdd⟩
  · rw [e1] at hf; simp [syncRet] at hf
  · cases h2
  · rw [e1] at hf ⊢
    cases f with
    | alloc => exact hs
    | build => exact hs
    | assign => exact hs
    | grow =>
      simp only at hf ⊢
      split
      · exact (beforeLink_peek hc g1 (beforeLink_ok hc g1) (Env.le.refl _) a).trans hs
      · rename_i hn
        rw [if_neg hn] at hf
        simp only at hf
        rcases hgr with ⟨u, hu, _⟩ | ⟨⟨hm, _⟩ | ⟨hm, _⟩, _⟩
        · rw [hu] at hf; cases hf
        · rw [hm] at hf; cases hf
        · rw [hm] at hf; cases r <;> cases hf

theorem assignFail_peek (hc : cfg.Ok) {X} {M' : Md V} (h : Good cfg M X x.s L) {tok : Nat} {keeps : Bool} {v : V}
    (h' : Good cfg M' X (assignFail cfg M.env x tok keeps v).1.s L')
    (hf : (assignFail cfg M.env x tok keeps v).2.ret = .throws) (a : K) :
    getIfExists cfg M.env (assignFail cfg M.env x tok keeps v).1.s a = getIfExists cfg M.env x.s a := by
  by_cases hop : tok ∈ x.s.opens
  · rcases Bool.eq_false_or_eq_true x.s.destroyed with hd | hd
    · simp only [assignFail, if_pos hop, hd, if_true, complete] at hf; cases hf
    · obtain ⟨T, hT, hid, hp⟩ := h.wf2.opE hd tok hop
      have hnd : ¬ (x.s.destroyed = true) := by rw [hd]; simp
      simp only [assignFail, if_pos hop, if_neg hnd] at h' ⊢
      have hlimx : ∀ e ∈ x.s.limbo, e.id ≠ tok := fun e he => by rw [← hid]; exact Ne.symm (not_limbo_of_ents h.wf1 hT he)
      have r0 : Spc cfg M.env ({} : Eff K V) tok x.s { x.s with opens := if keeps then x.s.opens else x.s.opens.erase tok } :=
        Spc.opens x.s _ (fun t ht => by split; exact Iff.rfl; exact List.mem_erase_of_ne ht)
      refine peek_spc hc h h' (r0.trans (Spc.modify _ (IdKey.upd _) (fun e he => .inl (hlimx e he)))) (fun _ _ _ h => h) a ?_ ?_
      · intro e he hi _
        rw [eq_of_id h.wf1 he hT (hi.trans hid.symm)]; exact Mapped.pending_val hp
      · intro e he hi _
        rw [ents_modify] at he
        obtain ⟨e0, he0, rfl⟩ := List.mem_map.1 he
        have hi0 : e0.id = tok := ((IdKey.upd _).atId _ e0).1.symm.trans hi
        have he0 : e0 ∈ x.s.ents := he0
        have := eq_of_id h.wf1 he0 hT (hi0.trans hid.symm)
        subst this
        obtain ⟨p, hpm⟩ : ∃ p, e0.mapped = .pending p := by
          cases hm : e0.mapped <;> simp_all [Entry.isPending, Mapped.isPending]
        simp only [atId, hi0, if_true, Entry.upd, hpm, failed]
        cases keeps <;> cases cfg.ptr <;> rfl
  · have : (assignFail cfg M.env x tok keeps v).1.s = x.s := by
      simp only [assignFail, if_neg hop]
      repeat' split
      all_goals rfl
    rw [this]

/-! ## When the program ends -/

theorem xstep_destroyed (e : Env V) (o : XOp K V E) (ho : o.ok cfg x) :
    (xstep cfg nx e x o).1.s.destroyed = true ↔ x.s.destroyed = true ∨ o = .plain .destroy := by
  have hp : ∀ p : Op K V E, (step cfg e x.s p).1.destroyed = true ↔ x.s.destroyed = true ∨ p = .destroy := by
    intro p
    by_cases hd : p = .destroy
    · subst hd; simp [step, destroy]
    · rw [step_destroyed cfg e x.s p hd]; simp [hd]
  cases o with
  | plain o =>
    cases o with
    | complete tok r =>
      simp only [xstep]
      split
      · unfold completeDead
        split
        · simp
        · cases r <;> simp
      · have := hp (.complete tok r); simp only [step] at this; simpa using this
    | drop tok =>
      simp only [xstep]
      split
      · simp [dropDead]
      · have := hp (.drop tok); simp only [step] at this; simpa using this
    | destroy => simpa [xstep] using hp .destroy
    | getIfExists k => simpa [xstep] using hp (.getIfExists k)
    | get k r => simpa [xstep] using hp (.get k r)
    | asyncGet k w b => simpa [xstep] using hp (.asyncGet k w b)
    | emplace k v f => simpa [xstep] using hp (.emplace k v f)
    | getOrEmplace k v f => simpa [xstep] using hp (.getOrEmplace k v f)
    | erase k => simpa [xstep] using hp (.erase k)
    | clear => simpa [xstep] using hp .clear
    | count => simpa [xstep] using hp .count
    | tick r b => simpa [xstep] using hp (.tick r b)
  | getFail k r f =>
    simp only [xstep, reduceCtorEq, or_false]
    rcases getFail_cases (cfg := cfg) (nx := nx) (x := x) ho.2.1 e k r f with ⟨_, q⟩ | ⟨_, _, _, _, _, q, _⟩
    · rw [q]; simpa [step] using hp (.get k r)
    · rw [q]
  | asyncFail k w b f =>
    simp only [xstep, reduceCtorEq, or_false]
    have ha := hp (.asyncGet k w b)
    simp only [step, reduceCtorEq, or_false] at ha
    unfold asyncFail
    simp only
    split
    · split
      · simp
      · simp
    · split
      · simp
      · split
        · simp
        · exact ha
      · simp
      · split
        · exact ha
        · simp
  | assignFail tok keeps v =>
    simp only [xstep, assignFail, reduceCtorEq, or_false]
    repeat' split
    all_goals simp

theorem xdestroyed_iff (h : XHist K V E) (hok : XHistOk cfg nx {} h) :
    (xstateAfter cfg nx h).s.destroyed = true ↔ ∃ p ∈ h, p.2 = .plain .destroy := by
  induction h using snoc_ind with
  | h0 => simp [xstateAfter, xrun, St.init]
  | h1 h p ih =>
    obtain ⟨e, o⟩ := p
    rw [XHistOk_append] at hok
    rw [xstateAfter_snoc, xstep_destroyed (x := xstateAfter cfg nx h) e o hok.2.1, ih hok.1]
    constructor
    · rintro (⟨p, hp, hh⟩ | hh)
      · exact ⟨p, List.mem_append_left _ hp, hh⟩
      · exact ⟨(e, o), by simp, hh⟩
    · rintro ⟨p, hp, hh⟩
      rcases List.mem_append.1 hp with hp | hp
      · exact .inl ⟨p, hp, hh⟩
      · rw [List.mem_singleton.1 hp] at hh; exact .inr hh

theorem spoiled_snoc {h : XHist K V E} {e : Env V} {o : XOp K V E} {tok : Nat} :
    Spoiled cfg nx (h ++ [(e, o)]) tok ↔
      (Spoiled cfg nx h tok ∧ o ≠ .plain (.drop tok)) ∨ ∃ v, o = .assignFail tok false v ∧ (xoutAt cfg nx h e o).ret = .throws := by
  constructor
  · rintro ⟨h1, env, v, h2, hh, hr, hn⟩
    rcases List.eq_nil_or_concat h2 with rfl | ⟨h3, q, rfl⟩
    · right
      obtain ⟨h4, h5⟩ := List.append_inj' hh rfl
      cases h5; subst h4
      exact ⟨v, rfl, hr⟩
    · left
      rw [List.concat_eq_append] at hh hn
      rw [show h1 ++ (env, XOp.assignFail tok false v) :: (h3 ++ [q]) = (h1 ++ (env, .assignFail tok false v) :: h3) ++ [q] by simp] at hh
      obtain ⟨h4, h5⟩ := List.append_inj' hh rfl
      cases h5
      exact ⟨⟨h1, env, v, h3, h4, hr, fun p hp => hn p (List.mem_append_left _ hp)⟩, hn (e, o) (by simp)⟩
  · rintro (⟨⟨h1, env, v, h2, hh, hr, hn⟩, hd⟩ | ⟨v, rfl, hr⟩)
    · refine ⟨h1, env, v, h2 ++ [(e, o)], by rw [hh]; simp, hr, ?_⟩
      intro p hp
      rcases List.mem_append.1 hp with hp | hp
      · exact hn p hp
      · rw [List.mem_singleton.1 hp]; exact hd
    · exact ⟨h, e, v, [], rfl, hr, by simp⟩

/-- Which handles have no lookup behind them. -/
theorem dead_iff (h : XHist K V E) (hok : XHistOk cfg nx {} h) (hd : (xstateAfter cfg nx h).s.destroyed = false) (tok : Nat) :
    tok ∈ (xstateAfter cfg nx h).dead ↔ Spoiled cfg nx h tok := by
  induction h using snoc_ind with
  | h0 => simp [xstateAfter, xrun, Spoiled]
  | h1 h p ih =>
    obtain ⟨e, o⟩ := p
    rw [XHistOk_append] at hok
    have hdd := xstep_destroyed (nx := nx) e o hok.2.1
    change (xstep cfg nx e (xstateAfter cfg nx h) o).1.s.destroyed = true ↔ (xstateAfter cfg nx h).s.destroyed = true ∨ o = .plain .destroy at hdd
    rw [← xstateAfter_snoc, hd] at hdd
    have hd0 : (xstateAfter cfg nx h).s.destroyed = false := by
      cases hx : (xstateAfter cfg nx h).s.destroyed
      · rfl
      · exact (Bool.false_ne_true (hdd.2 (.inl hx))).elim
    rw [spoiled_snoc, xstateAfter_snoc]
    have ih' : (tok ∈ (xstateAfter cfg nx h).dead ↔ Spoiled cfg nx h tok) := ih hok.1 hd0
    have hok1 : o.ok cfg (xstateAfter cfg nx h) := hok.2.1
    have hxo : (xoutAt cfg nx h e o) = (xstep cfg nx e (xstateAfter cfg nx h) o).2 := rfl
    rw [hxo]
    generalize xstateAfter cfg nx h = x at *
    have stay : (xstep cfg nx e x o).1.dead = x.dead → (∀ v, o ≠ .assignFail tok false v) → o ≠ .plain (.drop tok) →
        (tok ∈ (xstep cfg nx e x o).1.dead ↔ (Spoiled cfg nx h tok ∧ o ≠ .plain (.drop tok)) ∨ ∃ v, o = .assignFail tok false v ∧ (xstep cfg nx e x o).2.ret = .throws) := by
      intro e1 e2 e3
      rw [e1, ih']
      exact ⟨fun q => .inl ⟨q, e3⟩, fun q => q.elim And.left (fun ⟨v, q, _⟩ => absurd q (e2 v))⟩
    cases o with
    | plain o =>
      cases o with
      | complete t r =>
        apply stay _ (by simp) (by simp)
        simp only [xstep]
        split
        · simp only [completeDead, hd0, Bool.false_eq_true, if_false]
          cases r <;> rfl
        · rfl
      | drop t =>
        simp only [reduceCtorEq, false_and, exists_false, or_false]
        simp only [xstep] 
        by_cases hm : t ∈ x.dead
        · simp only [if_pos hm, dropDead] 
          rw [List.mem_filter, ih']
          simp only [ne_eq, XOp.plain.injEq, Op.drop.injEq, decide_eq_true_eq]
          exact ⟨fun ⟨a, b⟩ => ⟨a, fun h => b h.symm⟩, fun ⟨a, b⟩ => ⟨a, fun h => b h.symm⟩⟩
        · simp only [if_neg hm] 
          rw [← ih']
          simp only [ne_eq, XOp.plain.injEq, Op.drop.injEq]
          exact ⟨fun h => ⟨h, fun hh => hm (hh ▸ h)⟩, And.left⟩
      | _ => exact stay rfl (by simp) (by simp)
    | getFail k r f =>
      apply stay _ (by simp) (by simp)
      rcases getFail_cases (cfg := cfg) (nx := nx) (x := x) hok1.2.1 e k r f with ⟨_, q⟩ | ⟨_, _, _, _, _, _, q⟩
      · simp only [xstep]; rw [q]
      · exact q
    | asyncFail k w b f => exact stay rfl (by simp) (by simp)
    | assignFail t keeps v =>
      simp only [xstep, assignFail, hd0, Bool.false_eq_true, if_false] 
      by_cases hop : t ∈ x.s.opens
      · simp only [if_pos hop] 
        cases keeps with
        | true =>
          simp only [if_true] 
          rw [ih']; simp
        | false =>
          simp only [Bool.false_eq_true, if_false] 
          rw [List.mem_append, ih']
          simp [eq_comm]
      · simp only [if_neg hop] 
        by_cases hm : t ∈ x.dead
        · simp only [if_pos hm] 
          have := ih'
          rw [this]
          constructor
          · intro q; exact .inl ⟨q, by simp⟩
          · rintro (⟨q, _⟩ | ⟨v', q, _⟩)
            · exact q
            · cases q; exact this.1 hm
        · simp only [if_neg hm] 
          rw [ih']; simp

theorem getWalk_pend (cfg : Cfg K) (env : Env V) (k : K) (l : List (Entry K V E)) : ∀ i, (getWalk cfg env k false l).hit ≠ some (i, .pend) := by
  induction l with
  | nil => intro i h; cases h
  | cons e l ih =>
    intro i
    simp only [getWalk]
    repeat' split
    · exact ih i
    · exact ih i
    · exact ih i
    · exact ih i
    · exact ih i
    · intro hh
      simp only [Option.some.injEq, Prod.mk.injEq] at hh
      have h1 := hh.2
      simp only [getIfMatching] at h1
      split at h1
      · cases hm : e.mapped <;> rw [hm] at h1 <;> simp [Mapped.get] at h1
        all_goals (split at h1 <;> cases h1)
      · cases h1

theorem get__pend (cfg : Cfg K) (env : Env V) (s : St K V E) (k : K) : (get_ cfg env s k false).2 ≠ .pend := by
  unfold get_
  simp only
  split
  · simp
  · rename_i i l h
    intro hh
    simp only at hh
    rw [hh] at h
    exact getWalk_pend _ _ _ _ _ h

theorem ended_iff (e : Env V) (o : XOp K V E) (ho : o.ok cfg x) :
    (xstep cfg nx e x o).1.ended = true ↔
      (∃ tok er, o = .plain (.complete tok (.err er)) ∧ tok ∈ x.dead ∧ x.s.destroyed = false) ∨
      (∃ k r f, o = .getFail k r f ∧ (xstep cfg nx e x o).2.ret = .throws ∧ (f = .assign ∨ nx = true)) := by
  have hne : x.ended = false := by cases o <;> first | exact ho | exact ho.1
  cases o with
  | plain o =>
    cases o with
    | complete t r =>
      simp only [xstep]
      split
      · rename_i hm
        simp only [completeDead]
        split
        · rename_i hd; simp [hne, hd]
        · rename_i hd
          cases r <;> simp_all
      · rename_i hm; simp [hne, hm]
    | drop t =>
      simp only [xstep]
      split <;> simp [dropDead, hne]
    | _ => simp [xstep, hne]
  | getFail k r f =>
    have hgr : (get_ cfg e x.s k false).2 = .none → (Hoard.get cfg e x.s k r).2.ret ≠ .throws := by
      intro h0
      simp only [Hoard.get, ho.2.1, h0]
      cases r <;> simp [syncMapped, Mapped.get, syncRet]
    have hx : (∃ k' r' f', (XOp.getFail k r f : XOp K V E) = .getFail k' r' f' ∧ (xstep cfg nx e x (.getFail k r f)).2.ret = .throws ∧ (f' = .assign ∨ nx = true)) ↔
        ((xstep cfg nx e x (.getFail k r f)).2.ret = .throws ∧ (f = .assign ∨ nx = true)) :=
      ⟨by rintro ⟨_, _, _, hh, q⟩; cases hh; exact q, fun q => ⟨k, r, f, rfl, q⟩⟩
    rw [hx]
    simp only [reduceCtorEq, false_and, exists_false, false_or]
    simp only [xstep, getFail]
    cases hl : (get_ cfg e x.s k false).2 with
    | none =>
      cases f with
      | alloc => simp
      | build => simp
      | assign => simp
      | grow =>
        simp only
        split
        · simp
        · simp [hne, hgr hl]
    | pend => exact absurd hl (get__pend cfg e x.s k)
    | _ => simp [hne, syncRet]
  | asyncFail k w b f => simp [xstep, hne]
  | assignFail tok keeps v =>
    simp only [xstep, assignFail, reduceCtorEq, false_and, exists_false, or_false, iff_false]
    repeat' split
    all_goals simp [hne]

/-! ## What failed deliveries leave behind -/

/-- Only entries of failed deliveries. -/
def Husks (s : St K V E) : Prop := ∀ e ∈ s.ents, e.mapped = .void ∧ e.expTp = none ∧ e.canTp = none

theorem Husks.live (h : Husks s) {e : Entry K V E} (he : e ∈ s.ents) (env : Env V) : e.expired env = false := by
  obtain ⟨h1, h2, h3⟩ := h e he
  simp [Entry.expired, h1, h2, h3, Mapped.expired, Mapped.holdsError, reached]

theorem Husks.drops {env : Env V} {l : List (Entry K V E)} (h : Husks s) (hd : Drops env s.ents l) : s.ents.Perm l := by
  obtain ⟨rem, hp, hs⟩ := hd
  have : rem = [] := by
    cases rem with
    | nil => rfl
    | cons e rem =>
      have h1 := hs e (by simp)
      have h2 := h.live (hp.mem_iff.2 (by simp : e ∈ l ++ e :: rem)) env
      simp [stale, h2] at h1
  subst this; simpa using hp

theorem Husks.count (h : Husks s) (env : Env V) : count env s = s.size := by
  unfold Hoard.count St.size
  congr 1
  rw [List.filter_eq_self]
  intro e he; simp [h.live he env]

theorem Husks.miss (h : Husks s) (env : Env V) (k : K) (incl : Bool) : s.ents.find? (isHit cfg env k incl) = none := by
  rw [List.find?_eq_none]; intro e he hh
  simp [isHit, (h e he).1, Mapped.get] at hh

/-- A lookup of a key, a failed delivery, and the end of the handle. -/
def failedRound (env : Env V) (k : K) (w : Nat) (tok : Nat) (v : V) : XHist K V E :=
  [(env, .plain (.asyncGet k w .later)), (env, .assignFail tok false v), (env, .plain (.drop tok))]

/-- Such a round adds an entry. -/
theorem round_adds (hc : cfg.Ok) (hp : cfg.ptr = false) (hr : cfg.resolver = .async) (w1 : WF1 cfg x.s) (h : Husks x.s) (hdd : x.s.destroyed = false)
    (hde : x.dead = []) (hop : x.s.opens = []) (hen : x.ended = false) (env : Env V) (k : K) (w : Nat) (v : V) :
    let g := xrun cfg nx x (failedRound env k w x.s.nextId v)
    XHistOk cfg nx x (failedRound env k w x.s.nextId v) ∧ WF1 cfg g.1.s ∧ Husks g.1.s ∧ g.1.s.destroyed = false ∧ g.1.dead = [] ∧ g.1.s.opens = [] ∧ g.1.ended = false ∧
    g.1.s.size = x.s.size + 1 ∧ g.1.s.nextId = x.s.nextId + 1 ∧
    g.2 = [{ calls := [(k, x.s.nextId)] }, { ret := .throws, broken := [w] }, { ret := .bool true }] := by
  have hg : get_ cfg env x.s k true = (walked cfg env x.s k true, .none) := by rw [get__eq hc w1.placed, h.miss env k true]
  have ww := walked_wf1 w1 env k true
  have p1 := h.drops (walked_drops (cfg := cfg) x.s env k true)
  have hl1 : Husks (walked cfg env x.s k true) := fun e he => h e (p1.mem_iff.2 he)
  have hsm := walked_same cfg x.s env k true
  have hA := asyncGet_eq hc w1.placed env k w (.later : Beh V E)
  rw [h.miss env k true, hg] at hA
  generalize walked cfg env x.s k true = s1 at *
  obtain ⟨wl, lo, ld, ln, kept, o, hdr, hpm, _⟩ := link_spec env ww (e := newEntry s1 k (.pending {})) rfl
  have p2 := hl1.drops hdr
  have hcre : kept.map (creUpd o env) = kept := by
    conv => rhs; rw [← List.map_id kept]
    apply List.map_congr_left
    intro e he
    have hu := (hl1 e (p2.mem_iff.2 he)).1
    unfold creUpd
    split
    · simp only [Entry.upd, hu, Mapped.strengthen, id]
      rw [← hu]
    · rfl
  rw [hcre] at hpm
  have hlu : linkUpd cfg env (newEntry s1 k (.pending {} : Mapped V E)) = newEntry s1 k (.pending {}) := rfl
  rw [hlu] at hpm
  have hs1n : s1.nextId = x.s.nextId := hsm.nextId
  have hmem : newEntry s1 k (.pending {}) ∈ (link cfg env s1 (newEntry s1 k (.pending {}))).ents := hpm.mem_iff.2 (by simp)
  have hres : resolveAsync cfg env s1 k (.later : Beh V E) =
      ({ link cfg env s1 (newEntry s1 k (.pending {})) with opens := (link cfg env s1 (newEntry s1 k (.pending {}))).opens ++ [s1.nextId] }, s1.nextId) := rfl
  rw [hres] at hA
  generalize hs2 : link cfg env s1 (newEntry s1 k (.pending {})) = s2 at *
  have hfi := find_mem wl hmem
  have hfi : s2.find s1.nextId = some (newEntry s1 k (.pending {})) := hfi
  have hA2 : asyncGet cfg env x.s k w (.later : Beh V E) =
      (({ s2 with opens := s2.opens ++ [s1.nextId] } : St K V E).modify s1.nextId (·.upd (.addCb (.user w))), { calls := [(k, s1.nextId)] }) := by
    rw [hA]
    have : ({ s2 with opens := s2.opens ++ [s1.nextId] } : St K V E).find s1.nextId = some (newEntry s1 k (.pending {})) := hfi
    simp only [this]
    rfl
  rw [hs1n] at hA2
  have ho2 : s2.opens = [] := by rw [lo, hsm.opens, hop]
  have hd2 : s2.destroyed = false := by rw [ld, hsm.destroyed, hdd]
  rw [ho2, List.nil_append] at hA2
  have w3 : WF1 cfg (({ s2 with opens := [x.s.nextId] } : St K V E).modify x.s.nextId (·.upd (.addCb (.user w)))) :=
    WF1.modify (s := { s2 with opens := [x.s.nextId] }) ⟨wl.ids, wl.lt, wl.placed, wl.sorted, wl.bq, wl.dqN, wl.dqM⟩ _ (IdKey.upd _)
  generalize hs3 : ({ s2 with opens := [x.s.nextId] } : St K V E).modify x.s.nextId (·.upd (.addCb (.user w))) = s3 at *
  have he3 : s3.ents = s2.ents.map (atId x.s.nextId (·.upd (.addCb (.user w)))) := by rw [← hs3, ents_modify]; rfl
  have ho3 : s3.opens = [x.s.nextId] := by rw [← hs3]; rfl
  have hd3 : s3.destroyed = false := by rw [← hs3]; exact hd2
  have hn3 : s3.nextId = x.s.nextId + 1 := by rw [← hs3, ← hs1n, ← ln]; rfl
  have hm3 : (newEntry s1 k (.pending {})).upd (.addCb (.user w)) ∈ s3.ents := by
    rw [he3]; exact List.mem_map.2 ⟨_, hmem, by simp [atId, newEntry, hs1n]⟩
  have hf3 : s3.findAny x.s.nextId = some ((newEntry s1 k (.pending {})).upd (.addCb (.user w))) := by
    rw [← hs1n]; exact findAny_mem w3 hm3
  have hA4 : assignFail cfg env { x with s := s3 } x.s.nextId false v =
      ({ s := ({ s3 with opens := [] } : St K V E).modify x.s.nextId (·.upd (failed false false)), dead := [x.s.nextId], ended := x.ended }, { ret := .throws, broken := [w] }) := by
    simp only [assignFail, ho3, hd3, hf3, hde, hp]
    simp [Entry.upd, newEntry, Mapped.addCb, Mapped.cbs, users, hd3]
  have w4 : WF1 cfg (({ s3 with opens := [] } : St K V E).modify x.s.nextId (·.upd (failed false false))) :=
    WF1.modify (s := { s3 with opens := [] }) ⟨w3.ids, w3.lt, w3.placed, w3.sorted, w3.bq, w3.dqN, w3.dqM⟩ _ (IdKey.upd _)
  have he4 : (({ s3 with opens := [] } : St K V E).modify x.s.nextId (·.upd (failed false false))).ents =
      s3.ents.map (atId x.s.nextId (·.upd (failed false false))) := by rw [ents_modify]; rfl
  have hrun : xrun cfg nx x (failedRound env k w x.s.nextId v) =
      ({ s := ({ s3 with opens := [] } : St K V E).modify x.s.nextId (·.upd (failed false false)), dead := [], ended := x.ended },
        [{ calls := [(k, x.s.nextId)] }, { ret := .throws, broken := [w] }, { ret := .bool true }]) := by
    simp only [failedRound, xrun, xstep, step, hA2, hA4, dropDead]
    simp
  simp only [hrun]
  refine ⟨⟨⟨hen, hr, hdd⟩, ?_⟩, w4, ?_, hd3, trivial, rfl, hen, ?_, hn3, trivial⟩
  · simp only [xstep, step, hA2, XHistOk, XOp.ok, Op.ok, hen]
    rw [hen] at hA4
    simp only [hA4]
    exact ⟨trivial, ⟨trivial, trivial⟩, trivial⟩
  · intro e he
    rw [he4, he3, List.map_map] at he
    obtain ⟨e0, he0, rfl⟩ := List.mem_map.1 he
    rcases List.mem_append.1 (hpm.mem_iff.1 he0) with h1 | h1
    · have h2 := p2.mem_iff.2 h1
      have hx : e0.id ≠ x.s.nextId := by
        have := ww.lt e0 (List.mem_append_left _ h2); omega
      simpa [Function.comp, atId, hx] using hl1 e0 h2
    · simp only [List.mem_singleton] at h1
      subst h1
      simp [Function.comp, atId, newEntry, hs1n, Entry.upd, Mapped.addCb, failed]
  · unfold St.size
    rw [he4, he3, List.length_map, List.length_map, hpm.length_eq, List.length_append, ← p2.length_eq, ← p1.length_eq]; rfl

/-- `n` such rounds. -/
def failedRounds (env : Env V) (k : K) (v : V) : Nat → XHist K V E
  | 0 => []
  | n + 1 => failedRounds env k v n ++ failedRound env k n n v

theorem rounds_add (hc : cfg.Ok) (hp : cfg.ptr = false) (hr : cfg.resolver = .async) (env : Env V) (k : K) (v : V) (n : Nat) :
    XHistOk cfg nx {} (failedRounds env k v n : XHist K V E) ∧
    (let x := xstateAfter cfg nx (failedRounds env k v n : XHist K V E)
     WF1 cfg x.s ∧ Husks x.s ∧ x.s.destroyed = false ∧ x.dead = [] ∧ x.s.opens = [] ∧ x.ended = false ∧ x.s.size = n ∧ x.s.nextId = n) := by
  induction n with
  | zero => exact ⟨trivial, wf1_init _, (by intro e he; cases he), rfl, rfl, rfl, rfl, rfl, rfl⟩
  | succ n ih =>
    obtain ⟨h1, a1, a2, a3, a4, a5, a6, a7, a8⟩ := ih
    have hx : xstateAfter cfg nx (failedRounds env k v (n + 1) : XHist K V E) = (xrun cfg nx (xstateAfter cfg nx (failedRounds env k v n)) (failedRound env k n n v)).1 := by
      simp only [xstateAfter, failedRounds, xrun_append]
    have q := round_adds (nx := nx) hc hp hr a1 a2 a3 a4 a5 a6 env k n v
    rw [a8] at q
    obtain ⟨b0, b1, b2, b3, b4, b5, b6, b7, b8, _⟩ := q
    refine ⟨XHistOk_append.2 ⟨h1, b0⟩, ?_⟩
    rw [hx]
    exact ⟨b1, b2, b3, b4, b5, b6, by rw [b7, a7], b8⟩

end Hoard.Throw
