import Verif.Spec.NestedAsync
import Verif.HandlersKeep
import Verif.Settle
/-! Operations do not notice who waits for a lookup. -/
namespace Hoard.NestedAsync
open Spec Handlers
variable {K V E : Type} {cfg : Cfg K} {env : Env V} {s s' : St K V E}

/-- The callback of a refresh, not of a waiter. -/
def isRefresh : Cb → Bool
  | .user _ => false
  | .refresh _ => true

/-- Without the waiters. -/
def forget : Mapped V E → Mapped V E
  | .pending p => .pending { p with cbs := p.cbs.filter isRefresh }
  | m => m

/-- Without the waiters. -/
def fg (e : Entry K V E) : Entry K V E := e.upd forget

/-- The same for all entries. -/
def er (s : St K V E) : St K V E := { s with tbl := s.tbl.map (·.map fg), limbo := s.limbo.map fg }

@[simp] theorem forget_pending (m : Mapped V E) : (forget m).isPending = m.isPending := by cases m <;> rfl
@[simp] theorem forget_expired (m : Mapped V E) : (forget m).expired env = m.expired env := by cases m <;> rfl
@[simp] theorem forget_holdsError (m : Mapped V E) : (forget m).holdsError = m.holdsError := by cases m <;> rfl
@[simp] theorem forget_holdsValue (m : Mapped V E) : (forget m).holdsValue env = m.holdsValue env := by cases m <;> rfl
@[simp] theorem forget_get (m : Mapped V E) (b : Bool) : (forget m).get env b = m.get env b := by cases m <;> rfl
theorem forget_cbs (m : Mapped V E) : (forget m).cbs = m.cbs.filter isRefresh := by cases m <;> rfl
theorem forget_mark (m : Mapped V E) : forget m.markExpired = (forget m).markExpired := by cases m <;> rfl
theorem forget_cancel (m : Mapped V E) : forget m.cancel = (forget m).cancel := by cases m <;> rfl
theorem forget_weaken (p : Bool) (m : Mapped V E) : forget (m.weaken p) = (forget m).weaken p := by
  cases m <;> cases p <;> rfl
theorem forget_str (m : Mapped V E) : forget (m.strengthen env) = (forget m).strengthen env := by
  cases m with
  | pending p =>
    obtain ⟨c, x, w⟩ := p
    cases x <;> rfl
  | weak v =>
    simp only [Mapped.strengthen, forget]
    cases env.alive v <;> rfl
  | _ => rfl
theorem forget_completed (r : Res V E) (m : Mapped V E) : forget (completed cfg r m) = completed cfg r (forget m) := by
  cases m with
  | pending p =>
    cases r <;> simp only [completed, forget, Mapped.assigned, Mapped.assignedError]
    · cases p.expired <;> cases p.weakened <;> cases cfg.ptr <;> rfl
    · cases p.expired <;> cases p.weakened <;> rfl
  | _ => rfl
theorem forget_addR (i : Nat) (m : Mapped V E) : forget (m.addCb (.refresh i)) = (forget m).addCb (.refresh i) := by
  cases m <;> simp [Mapped.addCb, forget, isRefresh]
theorem forget_addU (w : Nat) (m : Mapped V E) : forget (m.addCb (.user w)) = forget m := by
  cases m <;> simp [Mapped.addCb, forget, isRefresh]
theorem forget_forget (m : Mapped V E) : forget (forget m) = forget m := by cases m <;> simp [forget]

@[simp] theorem fg_id (e : Entry K V E) : (fg e).id = e.id := rfl
@[simp] theorem fg_key (e : Entry K V E) : (fg e).key = e.key := rfl
@[simp] theorem fg_mapped (e : Entry K V E) : (fg e).mapped = forget e.mapped := rfl
@[simp] theorem fg_expTp (e : Entry K V E) : (fg e).expTp = e.expTp := rfl
@[simp] theorem fg_canTp (e : Entry K V E) : (fg e).canTp = e.canTp := rfl
@[simp] theorem fg_refTp (e : Entry K V E) : (fg e).refTp = e.refTp := rfl
@[simp] theorem fg_refreshing (e : Entry K V E) : (fg e).refreshing = e.refreshing := rfl
@[simp] theorem fg_pending (e : Entry K V E) : (fg e).isPending = e.isPending := by simp [Entry.isPending]
@[simp] theorem fg_expired (e : Entry K V E) : (fg e).expired env = e.expired env := by simp [Entry.expired]
@[simp] theorem fg_stale (e : Entry K V E) : stale env (fg e) = stale env e := by simp [stale]
theorem fg_fg (e : Entry K V E) : fg (fg e) = fg e := by simp only [fg, Entry.upd, forget_forget]

/-- A change of the mapped part that does not care about waiters. -/
def Blind (f : Mapped V E → Mapped V E) : Prop := ∀ m, forget (f m) = f (forget m)

theorem fg_upd {f : Mapped V E → Mapped V E} (hf : Blind f) (e : Entry K V E) : fg (e.upd f) = (fg e).upd f := by
  simp only [fg, Entry.upd, hf e.mapped]

theorem bl_mark : Blind (Mapped.markExpired : Mapped V E → _) := forget_mark
theorem bl_cancel : Blind (Mapped.cancel : Mapped V E → _) := forget_cancel
theorem bl_weaken (p : Bool) : Blind (Mapped.weaken p : Mapped V E → _) := forget_weaken p
theorem bl_str : Blind (Mapped.strengthen env : Mapped V E → _) := forget_str
theorem bl_completed (r : Res V E) : Blind (completed cfg r) := forget_completed r
theorem bl_addR (i : Nat) : Blind (Mapped.addCb (.refresh i) : Mapped V E → _) := forget_addR i

@[simp] theorem er_ents : (er s).ents = s.ents.map fg := by simp only [St.ents, er, List.map_flatten]
@[simp] theorem er_limbo : (er s).limbo = s.limbo.map fg := rfl
@[simp] theorem er_opens : (er s).opens = s.opens := rfl
@[simp] theorem er_nextId : (er s).nextId = s.nextId := rfl
@[simp] theorem er_delayQ : (er s).delayQ = s.delayQ := rfl
@[simp] theorem er_destroyed : (er s).destroyed = s.destroyed := rfl
@[simp] theorem er_bq : (er s).bq = s.bq := rfl
@[simp] theorem er_size : (er s).size = s.size := by simp [St.size]
@[simp] theorem er_len : (er s).tbl.length = s.tbl.length := by simp [er]
theorem er_bucket (i : Nat) : (er s).bucket i = (s.bucket i).map fg := by
  simp only [St.bucket, er, List.getElem?_map]
  cases s.tbl[i]? <;> rfl
@[simp] theorem er_bucketFor (h : Nat) : (er s).bucketFor h = s.bucketFor h := by simp [St.bucketFor]

theorem er_er (s : St K V E) : er (er s) = er s := by
  have h1 : ((fg : Entry K V E → Entry K V E) ∘ fg) = fg := by funext e; exact fg_fg e
  have h2 : ((fun b : List (Entry K V E) => b.map fg) ∘ fun b : List (Entry K V E) => b.map fg) = fun b : List (Entry K V E) => b.map fg := by
    funext b; simp only [Function.comp_def, List.map_map]
    exact List.map_congr_left (fun e _ => fg_fg e)
  simp only [er, List.map_map, h1, h2]

theorem find_fg (i : Nat) (l : List (Entry K V E)) : (l.map fg).find? (fun e => e.id == i) = (l.find? (fun e => e.id == i)).map fg := by
  rw [List.find?_map]; rfl
theorem er_find (i : Nat) : (er s).find i = (s.find i).map fg := by simp only [St.find, er_ents, find_fg]
theorem er_findAny (i : Nat) : (er s).findAny i = (s.findAny i).map fg := by
  simp only [St.findAny, er_ents, er_limbo, ← List.map_append, find_fg]

/-- A change of an entry that does not care about the waiters. -/
theorem er_modify (i : Nat) (f f' : Entry K V E → Entry K V E) (hf : ∀ e, f (fg e) = fg (f' e)) :
    (er s).modify i f = er (s.modify i f') := by
  have h1 : ∀ e : Entry K V E, (if (fg e).id = i then f (fg e) else fg e) = fg (if e.id = i then f' e else e) := by
    intro e
    by_cases h : e.id = i
    · simp only [fg_id, h, if_true]; exact hf e
    · simp [h]
  simp only [St.modify, er, List.map_map]
  congr 1
  · apply List.map_congr_left
    intro b _
    simp only [Function.comp_def, List.map_map]
    exact List.map_congr_left (fun e _ => h1 e)
  · exact List.map_congr_left (fun e _ => h1 e)

theorem er_upd (i : Nat) {f : Mapped V E → Mapped V E} (hf : Blind f) : (er s).modify i (·.upd f) = er (s.modify i (·.upd f)) :=
  er_modify i _ _ (fun e => (fg_upd hf e).symm)

/-- Who waits is not noticed. -/
theorem er_addUser (i w : Nat) : er (s.modify i (·.upd (.addCb (.user w)))) = er s := by
  have h1 : ∀ e : Entry K V E, fg (if e.id = i then e.upd (.addCb (.user w)) else e) = fg e := by
    intro e
    split
    · simp only [fg, Entry.upd, forget_addU]
    · rfl
  simp only [St.modify, er, List.map_map]
  congr 1
  · apply List.map_congr_left
    intro b _
    simp only [Function.comp_def, List.map_map]
    exact List.map_congr_left (fun e _ => h1 e)
  · exact List.map_congr_left (fun e _ => h1 e)

/-! ### Walks -/

/-- The same walk over entries without waiters. -/
def _root_.Hoard.Walk.fg (w : Walk K V E) : Walk K V E := ⟨w.kept.map NestedAsync.fg, w.removed.map NestedAsync.fg, w.hit⟩

theorem fg_getIf (k : K) (incl : Bool) (e : Entry K V E) : getIfMatching cfg env k incl (fg e) = getIfMatching cfg env k incl e := by
  simp [getIfMatching]

theorem getWalk_fg (k : K) (incl : Bool) : ∀ (es : List (Entry K V E)),
    getWalk cfg env k incl (es.map fg) = (getWalk cfg env k incl es).fg
  | [] => rfl
  | e :: es => by
    have ih := getWalk_fg k incl es
    simp only [List.map_cons, getWalk, fg_key, fg_expired, fg_stale, fg_pending, fg_getIf, ih]
    split
    · split <;> rfl
    · split
      · split <;> rfl
      · cases getIfMatching cfg env k incl e <;> simp [Walk.fg, Walk.keep]

theorem expireWalk_fg (k : K) : ∀ (es : List (Entry K V E)),
    expireWalk cfg env k (es.map fg) = (expireWalk cfg env k es).fg
  | [] => rfl
  | e :: es => by
    have ih := expireWalk_fg k es
    simp only [List.map_cons, expireWalk, fg_key, fg_stale, fg_pending, ih]
    split
    · split
      · simp [Walk.fg, Walk.keep, fg_upd bl_mark]
      · rfl
    · split <;> rfl

theorem peekWalk_fg (k : K) : ∀ (es : List (Entry K V E)), peekWalk cfg env k (es.map fg) = peekWalk cfg env k es
  | [] => rfl
  | e :: es => by
    have ih := peekWalk_fg k es
    simp only [List.map_cons, peekWalk, fg_key, fg_expired, fg_getIf, ih]

theorem filter_fg (p : Entry K V E → Bool) (es : List (Entry K V E)) (h : ∀ e, p (fg e) = p e) :
    (es.map fg).filter p = (es.filter p).map fg := by
  rw [List.filter_map]
  congr 1
  exact List.filter_congr (fun e _ => by simpa using h e)

theorem dispose_fg (es : List (Entry K V E)) : ∀ (s : St K V E), dispose cfg (er s) (es.map fg) = er (dispose cfg s es) := by
  induction es with
  | nil => intro s; rfl
  | cons e es ih =>
    intro s
    have h1 : disposeOne cfg (er s) (fg e) = er (disposeOne cfg s e) := by
      simp only [disposeOne, er, List.map_append, List.map_cons, List.map_nil, fg_upd bl_cancel, fg_id]
    show dispose cfg (disposeOne cfg (er s) (fg e)) (es.map fg) = _
    rw [h1, ih]; rfl

theorem setBucket_fg (i : Nat) (b : List (Entry K V E)) : (er s).setBucket i (b.map fg) = er (s.setBucket i b) := by
  simp [St.setBucket, er, List.map_set]

theorem applyWalk_fg (i : Nat) (w : Walk K V E) : applyWalk cfg (er s) i w.fg = er (applyWalk cfg s i w) := by
  simp only [applyWalk, Walk.fg, setBucket_fg, dispose_fg]

theorem er_onHit (i : Nat) : onHit cfg env (er s) i = er (onHit cfg env s i) := by
  have h1 : (if cfg.maxSize.isSome then ({ (er s).modify i (·.upd (.strengthen env)) with bq := (er s).bq.onHit i } : St K V E) else er s) =
      er (if cfg.maxSize.isSome then { s.modify i (·.upd (.strengthen env)) with bq := s.bq.onHit i } else s) := by
    split
    · rw [er_upd i bl_str]; rfl
    · rfl
  simp only [onHit]
  rw [h1]
  split
  · rfl
  · split
    · rfl
    · refine er_modify i _ _ (fun e => ?_)
      simp only [fg_mapped, forget_holdsValue]
      split <;> rfl

theorem er_onCreate (i : Nat) : onCreate cfg env (er s) i = er (onCreate cfg env s i) := by
  simp only [onCreate, er_bq]
  split
  · generalize s.bq.onCreate i = p
    obtain ⟨b, m⟩ := p
    cases m with
    | none => rfl
    | some m =>
      show (er ({ s with bq := b } : St K V E)).modify m _ = er (({ s with bq := b } : St K V E).modify m _)
      rw [er_upd m bl_str]
  · rfl

theorem er_onAssign (i : Nat) (b : Bool) : onAssign cfg env (er s) i b = er (onAssign cfg env s i b) := by
  have h1 : (er s).modify i (assignTimes cfg env b) = er (s.modify i (assignTimes cfg env b)) := by
    refine er_modify i _ _ (fun e => ?_)
    simp only [assignTimes]
    split
    · rfl
    · split <;> rfl
  simp only [onAssign, h1]
  split <;> rfl

theorem er_get_ (k : K) (incl : Bool) : get_ cfg env (er s) k incl = (er (get_ cfg env s k incl).1, (get_ cfg env s k incl).2) := by
  simp only [get_, er_bucketFor, er_bucket, getWalk_fg, applyWalk_fg]
  have h1 : ∀ w : Walk K V E, w.fg.hit = w.hit := fun _ => rfl
  rw [h1]
  split
  · rfl
  · rw [er_onHit]

theorem er_expire (k : K) : expire_ cfg env (er s) k = er (expire_ cfg env s k) := by
  simp only [expire_, er_bucketFor, er_bucket, expireWalk_fg, applyWalk_fg]

theorem er_clear : clear cfg (er s) = er (clear cfg s) := by
  have h1 : ∀ l : List (Entry K V E), (expireAllWalk (l.map fg)).kept = (expireAllWalk l).kept.map fg := by
    intro l
    simp only [expireAllWalk]
    rw [filter_fg _ _ (by simp), List.map_map, List.map_map]
    apply List.map_congr_left
    intro e _
    simp [fg_upd bl_mark]
  have h2 : (expireAllWalk (s.ents.map fg)).removed = (expireAllWalk s.ents).removed.map fg := by
    simp only [expireAllWalk]
    rw [filter_fg _ _ (by simp)]
  simp only [clear, er_ents, h2]
  rw [← dispose_fg]
  congr 1
  simp only [er, List.map_map, St.mk.injEq, and_true]
  exact List.map_congr_left (fun b _ => h1 b)

/-! ### Insertion -/

theorem place_fg (tbl : List (List (Entry K V E))) (e : Entry K V E) :
    place cfg (tbl.map (·.map fg)) (fg e) = (place cfg tbl e).map (·.map fg) := by
  simp only [place, List.length_map, fg_key]
  exact (map_modify (fun b => b.map fg) (· ++ [e]) (· ++ [fg e]) (fun a => by simp) _ _).symm

theorem rehash_fg (n : Nat) : rehash cfg (er s) n = er (rehash cfg s n) := by
  have h1 : ∀ (es : List (Entry K V E)) (tbl : List (List (Entry K V E))),
      (es.map fg).foldl (place cfg) (tbl.map (·.map fg)) = (es.foldl (place cfg) tbl).map (·.map fg) := by
    intro es
    induction es with
    | nil => intro tbl; rfl
    | cons e es ih => intro tbl; simp only [List.map_cons, List.foldl_cons, place_fg, ih]
  simp only [rehash, er_ents]
  have h2 := h1 s.ents (List.replicate n [])
  rw [show (List.replicate n ([] : List (Entry K V E))).map (·.map fg) = List.replicate n [] by simp] at h2
  rw [h2]; rfl

theorem er_purge : purge cfg env (er s) = er (purge cfg env s) := by
  simp only [purge, purgeWalk, er_ents]
  rw [filter_fg _ _ (fun e => fg_stale e), ← dispose_fg]
  congr 1
  simp only [er, List.map_map, St.mk.injEq, and_true]
  refine List.map_congr_left (fun b _ => ?_)
  exact filter_fg _ _ (fun e => by simp only [fg_stale])

theorem er_beforeLink : beforeLink cfg env (er s) = er (beforeLink cfg env s) := by
  simp only [beforeLink, er_size, er_len]
  split
  · exact er_purge
  · rfl

theorem er_mustGrow : mustGrow cfg (er s) = mustGrow cfg s := by simp [mustGrow]

theorem er_maybeRehash : maybeRehash cfg env (er s) = er (maybeRehash cfg env s) := by
  simp only [maybeRehash, er_beforeLink, er_mustGrow, er_len]
  split
  · exact rehash_fg _
  · rfl

theorem er_link (e : Entry K V E) : link cfg env (er s) (fg e) = er (link cfg env s e) := by
  simp only [link, er_maybeRehash, fg_id, fg_pending, fg_mapped, forget_holdsValue]
  have h1 : ({ er (maybeRehash cfg env s) with
        tbl := place cfg (er (maybeRehash cfg env s)).tbl (fg e), nextId := (er (maybeRehash cfg env s)).nextId + 1 } : St K V E) =
      er { maybeRehash cfg env s with tbl := place cfg (maybeRehash cfg env s).tbl e, nextId := (maybeRehash cfg env s).nextId + 1 } := by
    have := place_fg (cfg := cfg) (maybeRehash cfg env s).tbl e
    simp only [er, this]
  rw [h1, er_onCreate]
  split
  · rfl
  · rw [er_onAssign]

theorem fg_new (k : K) (m : Mapped V E) (hm : m.cbs = []) : fg (newEntry s k m) = newEntry s k m := by
  cases m with
  | pending p => simp only [Mapped.cbs] at hm; simp [fg, Entry.upd, newEntry, forget, hm]; rw [← hm]
  | _ => rfl

theorem er_newEntry (k : K) (m : Mapped V E) : newEntry (er s) k m = newEntry s k m := rfl

theorem er_linkNew (k : K) (m : Mapped V E) (hm : m.cbs = []) (s0 : St K V E) :
    link cfg env (er s) (newEntry s0 k m) = er (link cfg env s (newEntry s0 k m)) := by
  rw [← er_link, fg_new k m hm]

theorem er_tryLink (k : K) (v : V) (f : Fail) (s0 : St K V E) :
    tryLink cfg env (er s) (newEntry s0 k (.value v)) f = (er (tryLink cfg env s (newEntry s0 k (.value v)) f).1, (tryLink cfg env s (newEntry s0 k (.value v)) f).2) := by
  have hl : link cfg env (er s) (newEntry s0 k (.value v)) = er (link cfg env s (newEntry s0 k (.value v))) := er_linkNew k _ rfl s0
  cases f with
  | none => simp [tryLink, hl]
  | alloc => rfl
  | grow =>
    simp only [tryLink, er_beforeLink, er_mustGrow]
    split
    · rfl
    · simp [hl]

theorem er_evictAll (vs : List Nat) : ∀ (s : St K V E), evictAll cfg (er s) vs = er (evictAll cfg s vs) := by
  induction vs with
  | nil => intro s; rfl
  | cons v vs ih =>
    intro s
    show evictAll cfg ((er s).modify v _) vs = er (evictAll cfg (s.modify v _) vs)
    rw [← ih]
    congr 1
    refine er_upd v ?_
    split
    · exact bl_weaken _
    · exact bl_mark

theorem er_maintenance : maintenance cfg (er s) = er (maintenance cfg s) := by
  simp only [maintenance, er_bq, er_size]
  split
  · rfl
  · exact er_evictAll _ _

/-! ### Asynchronous lookups -/

theorem users_filter (l : List Cb) : users (l.filter isRefresh) = [] := by
  induction l with
  | nil => rfl
  | cons a l ih =>
    cases a with
    | user w => simpa [isRefresh] using ih
    | refresh o => simpa [isRefresh, users] using ih

theorem er_cbsOf (t : Nat) : cbsOf (er s) t = (cbsOf s t).filter isRefresh := by
  simp only [cbsOf, er_findAny]
  cases s.findAny t with
  | none => rfl
  | some e => exact forget_cbs e.mapped

theorem er_runCb (i : Nat) (cb : Cb) : runCb (er s) i cb = er (runCb s i cb) := by
  cases cb with
  | user w => rfl
  | refresh old =>
    have h2 : ∀ tp, (er s).modify i (fun e => { e with canTp := tpMin e.canTp tp }) = er (s.modify i (fun e => { e with canTp := tpMin e.canTp tp })) := by
      intro tp
      exact er_modify i _ _ (fun e => rfl)
    simp only [runCb, er_findAny]
    cases s.findAny old with
    | none => simp only [Option.map_none, h2, er_upd _ bl_mark]
    | some x => simp only [Option.map_some, fg_canTp, h2, er_upd _ bl_mark]

theorem er_runCbs (i : Nat) (cbs : List Cb) : ∀ (s : St K V E), runCbs (er s) i (cbs.filter isRefresh) = er (runCbs s i cbs) := by
  induction cbs with
  | nil => intro s; rfl
  | cons cb cbs ih =>
    intro s
    cases cb with
    | user w =>
      show runCbs (er s) i (cbs.filter isRefresh) = er (runCbs s i cbs)
      exact ih s
    | refresh o =>
      show runCbs (runCb (er s) i (.refresh o)) i (cbs.filter isRefresh) = er (runCbs (runCb s i (.refresh o)) i cbs)
      rw [er_runCb, ih]

theorem er_withOpens (o : List Nat) : withOpens o (er s) = er (withOpens o s) := rfl

theorem er_complete (t : Nat) (r : Res V E) :
    (complete cfg env (er s) t r).1 = er (complete cfg env s t r).1 ∧ (complete cfg env (er s) t r).2.ret = (complete cfg env s t r).2.ret := by
  by_cases h : t ∈ s.opens
  · have h' : t ∈ (er s).opens := h
    cases hd : s.destroyed with
    | true =>
      rw [complete_dead h hd, complete_dead h' hd]
      exact ⟨by simp only [er_upd t bl_cancel, er_withOpens, er_opens], rfl⟩
    | false =>
      rw [complete_pos h hd, complete_pos h' hd, er_cbsOf, er_runCbs, er_upd t (bl_completed r), er_onAssign]
      exact ⟨by simp only [er_withOpens, er_opens], rfl⟩
  · rw [complete_neg h, complete_neg (s := er s) h]; exact ⟨rfl, rfl⟩

theorem er_drop (t : Nat) : (drop (er s) t).1 = er (drop s t).1 ∧ (drop (er s) t).2.ret = (drop s t).2.ret := by
  by_cases h : t ∈ s.opens
  · rw [drop_pos h, drop_pos (s := er s) h]
    exact ⟨by simp only [er_upd t bl_cancel, er_withOpens, er_opens], rfl⟩
  · rw [drop_neg h, drop_neg (s := er s) h]; exact ⟨rfl, rfl⟩

theorem er_resolveAsync (k : K) (b : Beh V E) :
    resolveAsync cfg env (er s) k b = (er (resolveAsync cfg env s k b).1, (resolveAsync cfg env s k b).2) := by
  have hl : link cfg env (er s) (newEntry (er s) k (.pending {})) = er (link cfg env s (newEntry s k (.pending {}))) := er_linkNew k _ rfl s
  have h2 : ∀ x : St K V E, ({ er x with opens := (er x).opens ++ [s.nextId] } : St K V E) = er { x with opens := x.opens ++ [s.nextId] } := fun _ => rfl
  cases b with
  | later => simp only [resolveAsync]; rw [er_nextId, hl, h2]
  | now r => simp only [resolveAsync]; rw [er_nextId, hl, h2, (er_complete _ _).1]
  | drop => simp only [resolveAsync]; rw [er_nextId, hl, h2, (er_drop _).1]

theorem er_resolveSync (k : K) (r : Res V E) :
    resolveSync cfg env (er s) k r = (er (resolveSync cfg env s k r).1, (resolveSync cfg env s k r).2) := by
  simp only [resolveSync]
  rw [er_newEntry, er_linkNew k _ (cbs_syncMapped r)]; rfl

/-- Answering a waiter leaves the rest alone. -/
theorem er_answer (i w : Nat) (l : Look V E) : er (answer s i w l).1 = er s := by
  cases l <;> simp only [answer]
  exact er_addUser i w

theorem answer_er (i w : Nat) (l : Look V E) : er (answer (er s) i w l).1 = er s ∧ (answer (er s) i w l).2 = (answer s i w l).2 := by
  refine ⟨by rw [er_answer, er_er], ?_⟩
  cases l <;> rfl

theorem er_refresh (e : Entry K V E) (r : Res V E) (b : Beh V E) :
    refresh cfg env (er s) (fg e) r b = (er (refresh cfg env s e r b).1, (refresh cfg env s e r b).2) := by
  have h1 : ∀ k, (if cfg.resolver = .async then resolveAsync cfg env (er s) k b else resolveSync cfg env (er s) k r) =
      (er (if cfg.resolver = .async then resolveAsync cfg env s k b else resolveSync cfg env s k r).1,
        (if cfg.resolver = .async then resolveAsync cfg env s k b else resolveSync cfg env s k r).2) := by
    intro k; split
    · exact er_resolveAsync k b
    · exact er_resolveSync k r
  simp only [refresh, fg_refreshing, fg_expired, fg_key, fg_id, h1]
  split
  · rfl
  · generalize (if cfg.resolver = .async then resolveAsync cfg env s e.key b else resolveSync cfg env s e.key r) = p
    obtain ⟨s1, tok⟩ := p
    have h2 : (er s1).modify e.id (fun x => { x with refreshing := true }) = er (s1.modify e.id (fun x => { x with refreshing := true })) :=
      er_modify _ _ _ (fun e => rfl)
    simp only [h2, er_find]
    cases (s1.modify e.id (fun x => { x with refreshing := true })).find tok with
    | none => rfl
    | some x =>
      simp only [Option.map_some, fg_pending]
      split
      · rw [er_upd _ (bl_addR e.id)]
      · rw [er_runCb]

theorem er_tick (r : Res V E) (b : Beh V E) : tick cfg env (er s) r b = (er (tick cfg env s r b).1, (tick cfg env s r b).2) := by
  simp only [tick, er_delayQ]
  split
  · rfl
  · rename_i i q hq
    simp only [er_find]
    cases s.find i with
    | none => rfl
    | some e =>
      simp only [Option.map_some, fg_refTp]
      by_cases hr : reached env.now e.refTp = true
      · simp only [hr, if_true]
        exact er_refresh (s := { s with delayQ := q }) e r b
      · simp only [hr]
        rfl

theorem er_destroy : (destroy cfg (er s)).1 = er (destroy cfg s).1 := by
  have : ({ er s with tbl := (er s).tbl.map (fun _ => []) } : St K V E) = er { s with tbl := s.tbl.map (fun _ => []) } := by
    simp [er, List.map_map, Function.comp_def]
  simp only [destroy, this, er_ents, dispose_fg]
  rfl

/-- Operations do not notice who waits. -/
theorem er_step (o : Op K V E) :
    er (step cfg env (er s) o).1 = er (step cfg env s o).1 ∧ seen (step cfg env (er s) o).2 = seen (step cfg env s o).2 := by
  cases o with
  | getIfExists k =>
    refine ⟨er_er s, ?_⟩
    simp only [step, getIfExists, er_bucketFor, er_bucket, peekWalk_fg]
  | count =>
    refine ⟨er_er s, ?_⟩
    simp only [step, count, er_ents]
    rw [filter_fg _ _ (fun e => by rw [fg_expired]), List.length_map]
  | erase k => simp only [step, erase, er_expire, er_er, and_self]
  | clear => simp only [step, er_clear, er_er, and_self]
  | get k r =>
    simp only [step, get, er_get_, er_resolveSync]
    generalize get_ cfg env s k false = g
    obtain ⟨s1, l⟩ := g
    simp only
    split <;> simp only [er_er, and_self]
  | complete t r =>
    have h := er_complete (cfg := cfg) (env := env) (s := s) t r
    have hx : ∀ x : St K V E, (complete cfg env x t r).2.calls = [] ∧ (complete cfg env x t r).2.made = false := by
      intro x; simp only [complete]; split
      · split <;> exact ⟨rfl, rfl⟩
      · exact ⟨rfl, rfl⟩
    simp only [step, seen]
    rw [h.1, h.2, er_er, (hx _).1, (hx _).2, (hx _).1, (hx _).2]
    exact ⟨rfl, rfl⟩
  | drop t =>
    have h := er_drop (s := s) t
    have hx : ∀ x : St K V E, (drop x t).2.calls = [] ∧ (drop x t).2.made = false := by
      intro x; simp only [drop]; split <;> exact ⟨rfl, rfl⟩
    simp only [step, seen]
    rw [h.1, h.2, er_er, (hx _).1, (hx _).2, (hx _).1, (hx _).2]
    exact ⟨rfl, rfl⟩
  | tick r b => simp only [step, er_tick, er_er, and_self]
  | destroy =>
    simp only [step]
    rw [er_destroy, er_er]
    exact ⟨rfl, rfl⟩
  | emplace k v f =>
    simp only [step, emplace, er_expire, er_newEntry, er_tryLink, er_maintenance]
    split <;> simp only [er_er, and_self]
  | getOrEmplace k v f =>
    simp only [step, getOrEmplace, er_get_]
    generalize get_ cfg env s k true = g
    obtain ⟨s1, l⟩ := g
    simp only
    cases l with
    | none =>
      simp only [er_newEntry, er_tryLink, er_maintenance]
      split <;> simp only [er_er, and_self]
    | val u => simp only [er_maintenance, er_er, and_self]
    | err u => simp only [er_maintenance, er_er, and_self]
    | pend => simp only [er_maintenance, er_er, and_self]
  | asyncGet k x b =>
    have hw1 : ∀ w : Walk K V E, w.fg.hit = w.hit := fun _ => rfl
    simp only [step, asyncGet, er_get_, er_bucketFor, er_bucket, getWalk_fg, hw1]
    cases (getWalk cfg env k true (s.bucket (s.bucketFor (cfg.hash k)))).hit with
    | some p =>
      obtain ⟨i, l⟩ := p
      have := answer_er (s := (get_ cfg env s k true).1) i x l
      simp only [this.1, this.2, er_answer, and_self]
    | none =>
      simp only [er_resolveAsync, er_find]
      generalize resolveAsync cfg env (get_ cfg env s k true).1 k b = q
      obtain ⟨s2, tok⟩ := q
      simp only
      cases s2.find tok with
      | none =>
        have := answer_er (s := s2) tok x .none
        simp only [Option.map_none, seen, this.1, this.2, er_answer, and_self]
      | some e =>
        have := answer_er (s := s2) tok x (e.mapped.get env true)
        simp only [Option.map_some, fg_mapped, forget_get, seen, this.1, this.2, er_answer, and_self]

end Hoard.NestedAsync
