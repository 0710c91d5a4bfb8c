import Verif.Handlers
import Verif.FillLemmas
/-! Operations do not notice that the deadline of some entries is not set yet, as long as it is not reached. -/
namespace Hoard.Handlers
open Spec
variable {K V E : Type} {cfg : Cfg K} {env : Env V} {T : List Nat} {o : List Nat} {s s' : St K V E}

/-- The entry as it is while the lookup that made its value is still being delivered: no deadline yet. -/
def strip (T : List Nat) (e : Entry K V E) : Entry K V E := if e.id ∈ T then { e with expTp := none } else e

/-- The same for all entries; `o` are the lookups in flight. -/
def tw (T o : List Nat) (s : St K V E) : St K V E :=
  { s with tbl := s.tbl.map (·.map (strip T)), limbo := s.limbo.map (strip T), opens := o }

/-- The deadlines in question are not reached. -/
def Agree (env : Env V) (T : List Nat) (es : List (Entry K V E)) : Prop := ∀ e ∈ es, e.id ∈ T → env.now.past e.expTp = false

@[simp] theorem strip_id (e : Entry K V E) : (strip T e).id = e.id := by unfold strip; split <;> rfl
@[simp] theorem strip_key (e : Entry K V E) : (strip T e).key = e.key := by unfold strip; split <;> rfl
@[simp] theorem strip_mapped (e : Entry K V E) : (strip T e).mapped = e.mapped := by unfold strip; split <;> rfl
@[simp] theorem strip_canTp (e : Entry K V E) : (strip T e).canTp = e.canTp := by unfold strip; split <;> rfl
@[simp] theorem strip_pending (e : Entry K V E) : (strip T e).isPending = e.isPending := by simp [Entry.isPending]
theorem strip_upd (f : Mapped V E → Mapped V E) (e : Entry K V E) : strip T (e.upd f) = (strip T e).upd f := by
  by_cases h : e.id ∈ T
  · have : (e.upd f).id ∈ T := h
    simp only [strip, h, this, if_true, Entry.upd]
  · have : (e.upd f).id ∉ T := h
    simp only [strip, h, this, if_false]
theorem strip_nil (e : Entry K V E) : strip [] e = e := by simp [strip]
theorem strip_out {e : Entry K V E} (h : e.id ∉ T) : strip T e = e := by simp [strip, h]

theorem strip_expired {e : Entry K V E} (h : e.id ∈ T → env.now.past e.expTp = false) : (strip T e).expired env = e.expired env := by
  by_cases hT : e.id ∈ T
  · have := h hT
    simp only [strip, hT, if_true, Entry.expired, this]
    simp [reached]
  · rw [strip_out hT]

theorem strip_stale {e : Entry K V E} (h : e.id ∈ T → env.now.past e.expTp = false) : stale env (strip T e) = stale env e := by
  simp only [stale, strip_expired h, strip_pending]

@[simp] theorem tw_ents : (tw T o s).ents = s.ents.map (strip T) := by
  simp only [St.ents, tw, List.map_flatten]
@[simp] theorem tw_limbo : (tw T o s).limbo = s.limbo.map (strip T) := rfl
@[simp] theorem tw_opens : (tw T o s).opens = o := rfl
@[simp] theorem tw_nextId : (tw T o s).nextId = s.nextId := rfl
@[simp] theorem tw_delayQ : (tw T o s).delayQ = s.delayQ := rfl
@[simp] theorem tw_destroyed : (tw T o s).destroyed = s.destroyed := rfl
@[simp] theorem tw_bq : (tw T o s).bq = s.bq := rfl
@[simp] theorem tw_size : (tw T o s).size = s.size := by simp [St.size]
@[simp] theorem tw_len : (tw T o s).tbl.length = s.tbl.length := by simp [tw]
theorem tw_bucket (i : Nat) : (tw T o s).bucket i = (s.bucket i).map (strip T) := by
  simp only [St.bucket, tw, List.getElem?_map]
  cases s.tbl[i]? <;> rfl
@[simp] theorem tw_bucketFor (h : Nat) : (tw T o s).bucketFor h = s.bucketFor h := by simp [St.bucketFor]

theorem tw_nil (s : St K V E) : tw [] s.opens s = s := by
  have h1 : (strip [] : Entry K V E → Entry K V E) = id := by funext e; simp [strip]
  simp only [tw, h1, List.map_id]
  have : (fun (b : List (Entry K V E)) => List.map id b) = id := by funext b; simp
  simp

theorem find_strip (i : Nat) (l : List (Entry K V E)) : (l.map (strip T)).find? (fun e => e.id == i) = (l.find? (fun e => e.id == i)).map (strip T) := by
  rw [List.find?_map]
  congr 2
  funext e; simp

theorem tw_find (i : Nat) : (tw T o s).find i = (s.find i).map (strip T) := by simp only [St.find, tw_ents, find_strip]
theorem tw_findAny (i : Nat) : (tw T o s).findAny i = (s.findAny i).map (strip T) := by
  simp only [St.findAny, tw_ents, tw_limbo, ← List.map_append, find_strip]

/-- A change of an entry that does not care about the deadline. -/
theorem tw_modify (i : Nat) (f : Entry K V E → Entry K V E) (hf : ∀ e, e.id = i → f (strip T e) = strip T (f e)) :
    (tw T o s).modify i f = tw T o (s.modify i f) := by
  have h1 : ∀ e : Entry K V E, (if (strip T e).id = i then f (strip T e) else strip T e) = strip T (if e.id = i then f e else e) := by
    intro e
    by_cases h : e.id = i
    · simp only [strip_id, h, if_true]; exact hf e h
    · simp [h]
  simp only [St.modify, tw, List.map_map]
  congr 1
  · apply List.map_congr_left
    intro b _
    simp only [Function.comp_def, List.map_map]
    exact List.map_congr_left (fun e _ => h1 e)
  · exact List.map_congr_left (fun e _ => h1 e)

theorem tw_upd (i : Nat) (f : Mapped V E → Mapped V E) : (tw T o s).modify i (·.upd f) = tw T o (s.modify i (·.upd f)) :=
  tw_modify i _ (fun e _ => (strip_upd f e).symm)

/-! ### Walks -/

/-- The same walk over stripped entries. -/
def _root_.Hoard.Walk.strip (T : List Nat) (w : Walk K V E) : Walk K V E := ⟨w.kept.map (Handlers.strip T), w.removed.map (Handlers.strip T), w.hit⟩

theorem Agree.tail {e : Entry K V E} {es : List (Entry K V E)} (h : Agree env T (e :: es)) : Agree env T es := fun x hx => h x (List.mem_cons_of_mem _ hx)
theorem Agree.head {e : Entry K V E} {es : List (Entry K V E)} (h : Agree env T (e :: es)) : e.id ∈ T → env.now.past e.expTp = false :=
  h e (List.mem_cons_self ..)
theorem Agree.sub {es es' : List (Entry K V E)} (h : Agree env T es) (hs : ∀ e ∈ es', e ∈ es) : Agree env T es' := fun e he => h e (hs e he)

theorem strip_getIf (k : K) (incl : Bool) (e : Entry K V E) : getIfMatching cfg env k incl (strip T e) = getIfMatching cfg env k incl e := by
  simp [getIfMatching]

theorem getWalk_strip (k : K) (incl : Bool) : ∀ (es : List (Entry K V E)), Agree env T es →
    getWalk cfg env k incl (es.map (strip T)) = (getWalk cfg env k incl es).strip T
  | [], _ => rfl
  | e :: es, h => by
    have ih := getWalk_strip k incl es h.tail
    simp only [List.map_cons, getWalk, strip_key, strip_expired h.head, strip_stale h.head, strip_pending, strip_getIf, ih]
    split
    · split <;> rfl
    · split
      · split <;> rfl
      · cases getIfMatching cfg env k incl e <;> simp [Walk.strip, Walk.keep]

theorem expireWalk_strip (k : K) : ∀ (es : List (Entry K V E)), Agree env T es →
    expireWalk cfg env k (es.map (strip T)) = (expireWalk cfg env k es).strip T
  | [], _ => rfl
  | e :: es, h => by
    have ih := expireWalk_strip k es h.tail
    simp only [List.map_cons, expireWalk, strip_key, strip_stale h.head, strip_pending, ih]
    split
    · split
      · simp [Walk.strip, Walk.keep, strip_upd]
      · rfl
    · split <;> rfl

theorem peekWalk_strip (k : K) : ∀ (es : List (Entry K V E)), Agree env T es →
    peekWalk cfg env k (es.map (strip T)) = peekWalk cfg env k es
  | [], _ => rfl
  | e :: es, h => by
    have ih := peekWalk_strip k es h.tail
    simp only [List.map_cons, peekWalk, strip_key, strip_expired h.head, strip_getIf, ih]

theorem filter_strip (p : Entry K V E → Bool) (es : List (Entry K V E)) (h : ∀ e ∈ es, p (strip T e) = p e) :
    (es.map (strip T)).filter p = (es.filter p).map (strip T) := by
  rw [List.filter_map]
  congr 1
  exact List.filter_congr (fun e he => by simpa using h e he)

theorem dispose_strip (es : List (Entry K V E)) : ∀ (s : St K V E), dispose cfg (tw T o s) (es.map (strip T)) = tw T o (dispose cfg s es) := by
  induction es with
  | nil => intro s; rfl
  | cons e es ih =>
    intro s
    have h1 : disposeOne cfg (tw T o s) (strip T e) = tw T o (disposeOne cfg s e) := by
      simp only [disposeOne, tw, List.map_append, List.map_cons, List.map_nil, strip_upd, strip_id]
    show dispose cfg (disposeOne cfg (tw T o s) (strip T e)) (es.map (strip T)) = _
    rw [h1, ih]; rfl

theorem setBucket_strip (i : Nat) (b : List (Entry K V E)) : (tw T o s).setBucket i (b.map (strip T)) = tw T o (s.setBucket i b) := by
  simp [St.setBucket, tw, List.map_set]

theorem applyWalk_strip (i : Nat) (w : Walk K V E) : applyWalk cfg (tw T o s) i (w.strip T) = tw T o (applyWalk cfg s i w) := by
  simp only [applyWalk, Walk.strip, setBucket_strip, dispose_strip]

theorem Agree.bucket (h : Agree env T s.ents) (i : Nat) : Agree env T (s.bucket i) := by
  refine h.sub (fun e he => ?_)
  simp only [St.bucket] at he
  cases hb : s.tbl[i]? with
  | none => rw [hb] at he; cases he
  | some b =>
    rw [hb] at he
    exact List.mem_flatten.2 ⟨b, List.mem_of_getElem? hb, he⟩

theorem tw_onHit (hr : cfg.refresh = none) (i : Nat) : onHit cfg env (tw T o s) i = tw T o (onHit cfg env s i) := by
  simp only [onHit, hr]
  split
  · rw [tw_upd]; rfl
  · rfl

theorem tw_onCreate (i : Nat) : onCreate cfg env (tw T o s) i = tw T o (onCreate cfg env s i) := by
  simp only [onCreate, tw_bq]
  split
  · generalize s.bq.onCreate i = p
    obtain ⟨b, m⟩ := p
    cases m with
    | none => rfl
    | some m =>
      show (tw T o ({ s with bq := b } : St K V E)).modify m _ = tw T o (({ s with bq := b } : St K V E).modify m _)
      rw [tw_upd]
  · rfl

theorem tw_onAssign (i : Nat) (hi : i ∉ T) (b : Bool) : onAssign cfg env (tw T o s) i b = tw T o (onAssign cfg env s i b) := by
  have h1 : (tw T o s).modify i (assignTimes cfg env b) = tw T o (s.modify i (assignTimes cfg env b)) := by
    refine tw_modify i _ (fun e he => ?_)
    rw [strip_out (by rw [he]; exact hi), strip_out]
    rw [show (assignTimes cfg env b e).id = e.id from by simp only [assignTimes]; split <;> (try split) <;> rfl, he]; exact hi
  simp only [onAssign, h1]
  split <;> rfl

theorem tw_get_ (hr : cfg.refresh = none) (h : Agree env T s.ents) (k : K) (incl : Bool) :
    get_ cfg env (tw T o s) k incl = (tw T o (get_ cfg env s k incl).1, (get_ cfg env s k incl).2) := by
  simp only [get_, tw_bucketFor, tw_bucket, getWalk_strip k incl _ (h.bucket _), applyWalk_strip]
  have h1 : ∀ w : Walk K V E, (w.strip T).hit = w.hit := fun _ => rfl
  rw [h1]
  split
  · rfl
  · rw [tw_onHit hr]

theorem tw_expire (h : Agree env T s.ents) (k : K) : expire_ cfg env (tw T o s) k = tw T o (expire_ cfg env s k) := by
  simp only [expire_, tw_bucketFor, tw_bucket, expireWalk_strip k _ (h.bucket _), applyWalk_strip]

theorem tw_clear : clear cfg (tw T o s) = tw T o (clear cfg s) := by
  have h1 : ∀ l : List (Entry K V E), (expireAllWalk (l.map (strip T))).kept = (expireAllWalk l).kept.map (strip T) := by
    intro l
    simp only [expireAllWalk]
    rw [filter_strip _ _ (by simp), List.map_map, List.map_map]
    apply List.map_congr_left
    intro e _
    simp [strip_upd]
  have h2 : (expireAllWalk (s.ents.map (strip T))).removed = (expireAllWalk s.ents).removed.map (strip T) := by
    simp only [expireAllWalk]
    rw [filter_strip _ _ (by simp)]
  simp only [clear, tw_ents, h2]
  rw [← dispose_strip]
  congr 1
  simp only [tw, List.map_map, St.mk.injEq, and_true]
  exact List.map_congr_left (fun b _ => h1 b)

/-! ### Insertion -/

theorem map_modify {α β : Type} (f : α → β) (g : α → α) (g' : β → β) (h : ∀ a, f (g a) = g' (f a)) : ∀ (l : List α) (i : Nat), (l.modify i g).map f = (l.map f).modify i g'
  | [], i => by cases i <;> rfl
  | a :: l, 0 => by simp [h]
  | a :: l, i + 1 => by simp [map_modify f g g' h l i]

theorem place_strip (tbl : List (List (Entry K V E))) (e : Entry K V E) :
    place cfg (tbl.map (·.map (strip T))) (strip T e) = (place cfg tbl e).map (·.map (strip T)) := by
  simp only [place, List.length_map, strip_key]
  exact (map_modify (fun b => b.map (strip T)) (· ++ [e]) (· ++ [strip T e]) (fun a => by simp) _ _).symm

theorem rehash_strip (n : Nat) : rehash cfg (tw T o s) n = tw T o (rehash cfg s n) := by
  have h1 : ∀ (es : List (Entry K V E)) (tbl : List (List (Entry K V E))),
      (es.map (strip T)).foldl (place cfg) (tbl.map (·.map (strip T))) = (es.foldl (place cfg) tbl).map (·.map (strip T)) := by
    intro es
    induction es with
    | nil => intro tbl; rfl
    | cons e es ih => intro tbl; simp only [List.map_cons, List.foldl_cons, place_strip, ih]
  simp only [rehash, tw_ents]
  have h2 := h1 s.ents (List.replicate n [])
  rw [show (List.replicate n ([] : List (Entry K V E))).map (·.map (strip T)) = List.replicate n [] by simp] at h2
  rw [h2]; rfl

theorem tw_purge (h : Agree env T s.ents) : purge cfg env (tw T o s) = tw T o (purge cfg env s) := by
  simp only [purge, purgeWalk, tw_ents]
  rw [filter_strip _ _ (fun e he => strip_stale (h e he)), ← dispose_strip]
  congr 1
  simp only [tw, List.map_map, St.mk.injEq, and_true]
  refine List.map_congr_left (fun b hb => ?_)
  have hb' : ∀ e ∈ b, e ∈ s.ents := fun e he => List.mem_flatten.2 ⟨b, hb, he⟩
  exact filter_strip _ _ (fun e he => by simp only [strip_stale (h e (hb' e he))])

theorem tw_beforeLink (h : Agree env T s.ents) : beforeLink cfg env (tw T o s) = tw T o (beforeLink cfg env s) := by
  simp only [beforeLink, tw_size, tw_len]
  split
  · exact tw_purge h
  · rfl

theorem tw_mustGrow : mustGrow cfg (tw T o s) = mustGrow cfg s := by simp [mustGrow]

theorem tw_maybeRehash (h : Agree env T s.ents) : maybeRehash cfg env (tw T o s) = tw T o (maybeRehash cfg env s) := by
  simp only [maybeRehash, tw_beforeLink h, tw_mustGrow, tw_len]
  split
  · exact rehash_strip _
  · rfl

theorem tw_link (h : Agree env T s.ents) {e : Entry K V E} (he : e.id ∉ T) : link cfg env (tw T o s) e = tw T o (link cfg env s e) := by
  simp only [link, tw_maybeRehash h]
  have h1 : ({ tw T o (maybeRehash cfg env s) with
        tbl := place cfg (tw T o (maybeRehash cfg env s)).tbl e, nextId := (tw T o (maybeRehash cfg env s)).nextId + 1 } : St K V E) =
      tw T o { maybeRehash cfg env s with tbl := place cfg (maybeRehash cfg env s).tbl e, nextId := (maybeRehash cfg env s).nextId + 1 } := by
    have := place_strip (cfg := cfg) (T := T) (maybeRehash cfg env s).tbl e
    rw [strip_out he] at this
    simp only [tw, this]
  rw [h1, tw_onCreate]
  split
  · rfl
  · rw [tw_onAssign _ he]

theorem tw_tryLink (h : Agree env T s.ents) {e : Entry K V E} (he : e.id ∉ T) (f : Fail) :
    tryLink cfg env (tw T o s) e f = (tw T o (tryLink cfg env s e f).1, (tryLink cfg env s e f).2) := by
  cases f with
  | none => simp [tryLink, tw_link h he]
  | alloc => rfl
  | grow =>
    simp only [tryLink, tw_beforeLink h, tw_mustGrow]
    split
    · rfl
    · simp [tw_link h he]

theorem tw_evictAll (vs : List Nat) : ∀ (s : St K V E), evictAll cfg (tw T o s) vs = tw T o (evictAll cfg s vs) := by
  induction vs with
  | nil => intro s; rfl
  | cons v vs ih =>
    intro s
    show evictAll cfg ((tw T o s).modify v _) vs = tw T o (evictAll cfg (s.modify v _) vs)
    rw [tw_upd, ih]

theorem tw_maintenance : maintenance cfg (tw T o s) = tw T o (maintenance cfg s) := by
  simp only [maintenance, tw_bq, tw_size]
  split
  · rfl
  · exact tw_evictAll _ _

@[simp] theorem tw_newEntry (k : K) (m : Mapped V E) : newEntry (tw T o s) k m = newEntry s k m := rfl

/-! ### Asynchronous lookups -/

/-- Whatever `opens` is. -/
def withOpens (o : List Nat) (s : St K V E) : St K V E := { s with opens := o }
@[simp] theorem withOpens_opens : (withOpens o s).opens = o := rfl
@[simp] theorem withOpens_findAny (t : Nat) : (withOpens o s).findAny t = s.findAny t := rfl
@[simp] theorem withOpens_find (t : Nat) : (withOpens o s).find t = s.find t := rfl
@[simp] theorem withOpens_twice (o' : List Nat) : withOpens o (withOpens o' s) = withOpens o s := rfl
theorem withOpens_modify (t : Nat) (f : Entry K V E → Entry K V E) : (withOpens o s).modify t f = withOpens o (s.modify t f) := rfl
theorem withOpens_onAssign (t : Nat) (b : Bool) : onAssign cfg env (withOpens o s) t b = withOpens o (onAssign cfg env s t b) := by
  simp only [onAssign, withOpens_modify]; split <;> rfl
theorem withOpens_runCbs (t : Nat) (c : List Cb) : ∀ (s : St K V E), runCbs (withOpens o s) t c = withOpens o (runCbs s t c) := by
  induction c with
  | nil => intro s; rfl
  | cons cb c ih =>
    intro s
    show runCbs (runCb (withOpens o s) t cb) t c = withOpens o (runCbs (runCb s t cb) t c)
    have : runCb (withOpens o s) t cb = withOpens o (runCb s t cb) := by cases cb <;> rfl
    rw [this, ih]
theorem tw_withOpens (o' : List Nat) : tw T o (withOpens o' s) = tw T o s := rfl
theorem withOpens_tw (o' : List Nat) : withOpens o' (tw T o s) = tw T o' s := rfl

theorem tw_runCb (i : Nat) (cb : Cb) : runCb (tw T o s) i cb = tw T o (runCb s i cb) := by
  cases cb with
  | user w => rfl
  | refresh old =>
    have h2 : ∀ tp, (tw T o s).modify i (fun e => { e with canTp := tpMin e.canTp tp }) = tw T o (s.modify i (fun e => { e with canTp := tpMin e.canTp tp })) := by
      intro tp
      refine tw_modify i _ (fun e _ => ?_)
      by_cases hT : e.id ∈ T
      · simp only [strip, hT, if_true]
      · simp only [strip, hT, if_false]
    simp only [runCb, tw_findAny]
    cases s.findAny old with
    | none => simp only [Option.map_none, h2, tw_upd]
    | some x => simp only [Option.map_some, strip_canTp, h2, tw_upd]

theorem tw_runCbs (i : Nat) (cbs : List Cb) : ∀ (s : St K V E), runCbs (tw T o s) i cbs = tw T o (runCbs s i cbs) := by
  induction cbs with
  | nil => intro s; rfl
  | cons cb cbs ih =>
    intro s
    show runCbs (runCb (tw T o s) i cb) i cbs = tw T o (runCbs (runCb s i cb) i cbs)
    rw [tw_runCb, ih]

/-- The callbacks of lookup `t`. -/
def cbsOf (s : St K V E) (t : Nat) : List Cb := ((s.findAny t).map (·.mapped.cbs)).getD []
@[simp] theorem tw_cbsOf (t : Nat) : cbsOf (tw T o s) t = cbsOf s t := by
  simp only [cbsOf, tw_findAny]; cases s.findAny t <;> simp
@[simp] theorem withOpens_cbsOf (t : Nat) : cbsOf (withOpens o s) t = cbsOf s t := rfl

theorem complete_pos {t : Nat} (h : t ∈ s.opens) (hd : s.destroyed = false) (r : Res V E) : complete cfg env s t r =
    (withOpens (s.opens.erase t) (onAssign cfg env ((runCbs s t (cbsOf s t)).modify t (·.upd (completed cfg r))) t r.isOk),
      { ret := .bool true, fired := (users (cbsOf s t)).map (fun w => (w, r)) }) := by
  simp only [complete, h, hd, if_true, Bool.false_eq_true, if_false]
  rw [← withOpens_onAssign, ← withOpens_modify, ← withOpens_runCbs]
  simp only [withOpens, hd]
  rfl

theorem complete_dead {t : Nat} (h : t ∈ s.opens) (hd : s.destroyed = true) (r : Res V E) : complete cfg env s t r =
    (withOpens (s.opens.erase t) (s.modify t (·.upd .cancel)), { ret := .bool false, broken := users (cbsOf s t) }) := by
  simp only [complete, h, hd, if_true, withOpens, cbsOf]
  simp only [St.modify, hd]
  rfl

theorem complete_neg {t : Nat} (h : t ∉ s.opens) (r : Res V E) : complete cfg env s t r = (s, { ret := .bool false }) := by
  simp only [complete, h, if_false]

theorem drop_pos {t : Nat} (h : t ∈ s.opens) : drop s t =
    (withOpens (s.opens.erase t) (s.modify t (·.upd .cancel)), { ret := .bool true, broken := users (cbsOf s t) }) := by
  simp only [drop, h, if_true]; rfl

theorem drop_neg {t : Nat} (h : t ∉ s.opens) : drop s t = (s, { ret := .bool false }) := by simp only [drop, h, if_false]

theorem tw_complete {t : Nat} (hT : t ∉ T) (ho : t ∈ o ↔ t ∈ s.opens) (r : Res V E) :
    complete cfg env (tw T o s) t r = (tw T (o.erase t) (complete cfg env s t r).1, (complete cfg env s t r).2) := by
  by_cases h : t ∈ s.opens
  · have h' : t ∈ (tw T o s).opens := ho.2 h
    cases hd : s.destroyed with
    | true => rw [complete_dead h hd, complete_dead h' hd, tw_upd, tw_cbsOf, withOpens_tw]; rfl
    | false => rw [complete_pos h hd, complete_pos h' hd, tw_cbsOf, tw_runCbs, tw_upd, tw_onAssign _ hT, withOpens_tw]; rfl
  · have h' : t ∉ o := fun x => h (ho.1 x)
    rw [complete_neg h, complete_neg (by exact h'), List.erase_of_not_mem h']

theorem tw_drop {t : Nat} (ho : t ∈ o ↔ t ∈ s.opens) : drop (tw T o s) t = (tw T (o.erase t) (drop s t).1, (drop s t).2) := by
  by_cases h : t ∈ s.opens
  · have h' : t ∈ (tw T o s).opens := ho.2 h
    rw [drop_pos h, drop_pos h', tw_upd, tw_cbsOf, withOpens_tw]; rfl
  · have h' : t ∉ o := fun x => h (ho.1 x)
    rw [drop_neg h, drop_neg (by exact h'), List.erase_of_not_mem h']

/-- The lookups in flight after `resolveAsync`. -/
def opensNext (o : List Nat) (n : Nat) : Beh V E → List Nat
  | .later => o ++ [n]
  | _ => o

theorem tw_resolveAsync (h : Agree env T s.ents) (hn : s.nextId ∉ T) (ho : s.nextId ∉ o) (k : K) (b : Beh V E) :
    resolveAsync cfg env (tw T o s) k b =
      (tw T (opensNext o s.nextId b) (resolveAsync cfg env s k b).1, (resolveAsync cfg env s k b).2) := by
  have hl : link cfg env (tw T o s) (newEntry (tw T o s) k (.pending {})) = tw T o (link cfg env s (newEntry s k (.pending {}))) := by
    rw [tw_newEntry]; exact tw_link h hn
  have he : (o ++ [s.nextId]).erase s.nextId = o := by rw [List.erase_append_right _ ho]; simp
  have h2 : ∀ x : St K V E, ({ tw T o x with opens := (tw T o x).opens ++ [s.nextId] } : St K V E) =
      tw T (o ++ [s.nextId]) { x with opens := x.opens ++ [s.nextId] } := fun _ => rfl
  cases b with
  | later =>
    simp only [resolveAsync]
    rw [tw_nextId, hl, h2]; rfl
  | now r =>
    simp only [resolveAsync, opensNext]
    rw [tw_nextId, hl, h2, tw_complete hn (by simp), he]
  | drop =>
    simp only [resolveAsync, opensNext]
    rw [tw_nextId, hl, h2, tw_drop (by simp), he]

theorem tw_answer (i w : Nat) (l : Look V E) : answer (tw T o s) i w l = (tw T o (answer s i w l).1, (answer s i w l).2) := by
  cases l <;> simp only [answer, tw_upd]

end Hoard.Handlers
