import Verif.Settle
import Verif.HandlersLemmas
/-! A clock that is never set forward: deadlines on it say no more than deadlines on the steady clock. -/
namespace Hoard.Clock
open Spec Handlers
variable {K V E : Type} {cfg : Cfg K} {env : Env V} {s s' : St K V E} {b : Bool} {c : Int}

/-- The same cache with the age limits measured on the other clock too, or not. -/
def on (cfg : Cfg K) (b : Bool) : Cfg K := { cfg with wall := b }

/-- The deadline on the other clock comes after that on the steady clock, if the clocks differ by `c`; or there is none. -/
def tied (b : Bool) (c : Int) (p : Int × Option Int) : Int × Option Int := (p.1, if b then p.2.map (max (p.1 + c)) else none)

/-- The same for an entry. -/
def tie (b : Bool) (c : Int) (e : Entry K V E) : Entry K V E := { e with expTp := e.expTp.map (tied b c) }

/-- The same for all entries. -/
def ties (b : Bool) (c : Int) (s : St K V E) : St K V E := { s with tbl := s.tbl.map (·.map (tie b c)), limbo := s.limbo.map (tie b c) }

theorem tied_tied {c' : Int} (h : c ≤ c') (p : Int × Option Int) : tied b c (tied true c' p) = if b then tied true c' p else tied b c p := by
  obtain ⟨t, w⟩ := p
  cases b <;> cases w <;> simp [tied]
  omega

theorem tie_tie (e : Entry K V E) : tie b c (tie true c e) = tie b c e := by
  cases h : e.expTp with
  | none => simp [tie, h]
  | some p => simp only [tie, h, Option.map_some, tied_tied (Int.le_refl c)]; cases b <;> rfl
@[simp] theorem tie_id (e : Entry K V E) : (tie b c e).id = e.id := rfl
@[simp] theorem tie_key (e : Entry K V E) : (tie b c e).key = e.key := rfl
@[simp] theorem tie_mapped (e : Entry K V E) : (tie b c e).mapped = e.mapped := rfl
@[simp] theorem tie_canTp (e : Entry K V E) : (tie b c e).canTp = e.canTp := rfl
@[simp] theorem tie_refTp (e : Entry K V E) : (tie b c e).refTp = e.refTp := rfl
@[simp] theorem tie_refreshing (e : Entry K V E) : (tie b c e).refreshing = e.refreshing := rfl
@[simp] theorem tie_pending (e : Entry K V E) : (tie b c e).isPending = e.isPending := rfl
theorem tie_upd (f : Mapped V E → Mapped V E) (e : Entry K V E) : (tie b c e).upd f = tie b c (e.upd f) := rfl

/-- The clocks agree, so it makes no difference which one is asked. -/
theorem tie_expired (hw : env.now.wall = env.now.steady + c) (e : Entry K V E) : (tie b c e).expired env = (tie true c e).expired env := by
  have : env.now.past (tie b c e).expTp = env.now.past (tie true c e).expTp := by
    cases h : e.expTp with
    | none => simp [tie, h]
    | some p =>
      obtain ⟨t, w⟩ := p
      cases b with
      | true => rfl
      | false =>
        cases w with
        | none => simp [tie, h, tied, Time.past, reached]
        | some w =>
          simp only [tie, h, Option.map_some, tied, Time.past, if_true, reached, hw, Bool.false_eq_true, if_false, Bool.or_false]
          by_cases h1 : t ≤ env.now.steady
          · simp [h1]
          · simp [h1]; omega
  simp only [Entry.expired, this, tie_mapped, tie_canTp]
theorem tie_stale (hw : env.now.wall = env.now.steady + c) (e : Entry K V E) : stale env (tie b c e) = stale env (tie true c e) := by
  simp only [stale, tie_expired hw, tie_pending]

@[simp] theorem ties_ents : (ties b c s).ents = s.ents.map (tie b c) := by simp only [St.ents, ties, List.map_flatten]
@[simp] theorem ties_limbo : (ties b c s).limbo = s.limbo.map (tie b c) := rfl
@[simp] theorem ties_opens : (ties b c s).opens = s.opens := rfl
@[simp] theorem ties_nextId : (ties b c s).nextId = s.nextId := rfl
@[simp] theorem ties_delayQ : (ties b c s).delayQ = s.delayQ := rfl
@[simp] theorem ties_destroyed : (ties b c s).destroyed = s.destroyed := rfl
@[simp] theorem ties_bq : (ties b c s).bq = s.bq := rfl
@[simp] theorem ties_size : (ties b c s).size = s.size := by simp [St.size]
@[simp] theorem ties_len : (ties b c s).tbl.length = s.tbl.length := by simp [ties]
theorem ties_bucket (i : Nat) : (ties b c s).bucket i = (s.bucket i).map (tie b c) := by
  simp only [St.bucket, ties, List.getElem?_map]
  cases s.tbl[i]? <;> rfl
@[simp] theorem ties_bucketFor (h : Nat) : (ties b c s).bucketFor h = s.bucketFor h := by simp [St.bucketFor]

theorem map_tie_tie (l : List (Entry K V E)) : (l.map (tie true c)).map (tie b c) = l.map (tie b c) := by
  rw [List.map_map]; exact List.map_congr_left (fun e _ => tie_tie e)

theorem ties_ties (s : St K V E) : ties b c (ties true c s) = ties b c s := by
  have h2 : ((fun l : List (Entry K V E) => l.map (tie b c)) ∘ fun l : List (Entry K V E) => l.map (tie true c)) = fun l => l.map (tie b c) := by
    funext l; exact map_tie_tie l
  have h1 : (s.limbo.map (tie true c)).map (tie b c) = s.limbo.map (tie b c) := map_tie_tie _
  simp only [ties, h1, List.map_map, h2]

theorem find_tie (i : Nat) (l : List (Entry K V E)) : (l.map (tie b c)).find? (fun e => e.id == i) = (l.find? (fun e => e.id == i)).map (tie b c) := by
  rw [List.find?_map]; rfl
theorem ties_find (i : Nat) : (ties b c s).find i = (s.find i).map (tie b c) := by simp only [St.find, ties_ents, find_tie]
theorem ties_findAny (i : Nat) : (ties b c s).findAny i = (s.findAny i).map (tie b c) := by
  simp only [St.findAny, ties_ents, ties_limbo, ← List.map_append, find_tie]

theorem ties_modify (i : Nat) (f f' : Entry K V E → Entry K V E) (hf : ∀ e, f (tie b c e) = tie b c (f' (tie true c e))) :
    (ties b c s).modify i f = ties b c ((ties true c s).modify i f') := by
  have h1 : ∀ e : Entry K V E, (if (tie b c e).id = i then f (tie b c e) else tie b c e) =
      tie b c (if (tie true c e).id = i then f' (tie true c e) else tie true c e) := by
    intro e
    by_cases h : e.id = i
    · simp only [tie_id, h, if_true]; exact hf e
    · simp [h, tie_tie]
  simp only [St.modify, ties, List.map_map]
  congr 1
  · apply List.map_congr_left
    intro b _
    simp only [Function.comp_def, List.map_map]
    exact List.map_congr_left (fun e _ => h1 e)
  · exact List.map_congr_left (fun e _ => h1 e)

/-- A change that does not look at the deadlines. -/
theorem ties_mod (i : Nat) (f : Entry K V E → Entry K V E) (hf : ∀ b e, f (tie b c e) = tie b c (f e)) :
    (ties b c s).modify i f = ties b c (s.modify i f) := by
  have h1 : ∀ e : Entry K V E, (if (tie b c e).id = i then f (tie b c e) else tie b c e) = tie b c (if e.id = i then f e else e) := by
    intro e
    by_cases h : e.id = i
    · simp only [tie_id, h, if_true]; exact hf b e
    · simp [h]
  simp only [St.modify, ties, List.map_map]
  congr 1
  · apply List.map_congr_left
    intro b _
    simp only [Function.comp_def, List.map_map]
    exact List.map_congr_left (fun e _ => h1 e)
  · exact List.map_congr_left (fun e _ => h1 e)

theorem ties_upd (i : Nat) (f : Mapped V E → Mapped V E) : (ties b c s).modify i (·.upd f) = ties b c (s.modify i (·.upd f)) :=
  ties_mod i _ (fun _ _ => rfl)

/-! ### Walks -/

/-- The same walk with the deadlines tied. -/
def _root_.Hoard.Walk.tie (b : Bool) (c : Int) (w : Walk K V E) : Walk K V E := ⟨w.kept.map (Clock.tie b c), w.removed.map (Clock.tie b c), w.hit⟩

theorem tie_getIf (k : K) (incl : Bool) (e : Entry K V E) : getIfMatching (on cfg b) env k incl (tie b c e) = getIfMatching cfg env k incl e := rfl

theorem getWalk_tie (hw : env.now.wall = env.now.steady + c) (k : K) (incl : Bool) : ∀ (es : List (Entry K V E)),
    getWalk (on cfg b) env k incl (es.map (tie b c)) = (getWalk (on cfg true) env k incl (es.map (tie true c))).tie b c
  | [] => rfl
  | e :: es => by
    have ih := getWalk_tie hw k incl es
    simp only [List.map_cons, getWalk, tie_key, tie_expired (b := b) hw, tie_stale (b := b) hw, tie_pending, tie_getIf, ih]
    show (if cfg.hash e.key ≠ cfg.hash k then _ else _) = Walk.tie b c (if cfg.hash e.key ≠ cfg.hash k then _ else _)
    split
    · split <;> simp [Walk.tie, Walk.keep, Walk.drop, tie_tie]
    · split
      · by_cases hp : e.isPending = true <;> simp [hp, Walk.tie, Walk.keep, Walk.drop, tie_tie]
      · cases getIfMatching cfg env k incl e <;> simp [Walk.tie, Walk.keep, tie_tie, List.map_map] <;> intro a _ <;> exact (tie_tie a).symm

theorem expireWalk_tie (hw : env.now.wall = env.now.steady + c) (k : K) : ∀ (es : List (Entry K V E)),
    expireWalk (on cfg b) env k (es.map (tie b c)) = (expireWalk (on cfg true) env k (es.map (tie true c))).tie b c
  | [] => rfl
  | e :: es => by
    have ih := expireWalk_tie hw k es
    simp only [List.map_cons, expireWalk, tie_key, tie_stale (b := b) hw, tie_pending, ih]
    show (if cfg.hash e.key = cfg.hash k ∧ cfg.eqv e.key k = true then _ else _) = Walk.tie b c (if cfg.hash e.key = cfg.hash k ∧ cfg.eqv e.key k = true then _ else _)
    split
    · by_cases hp : e.isPending = true <;> simp [hp, Walk.tie, Walk.keep, Walk.drop, tie_upd, tie_tie]
    · split <;> simp [Walk.tie, Walk.keep, Walk.drop, tie_tie]

theorem peekWalk_tie (hw : env.now.wall = env.now.steady + c) (k : K) : ∀ (es : List (Entry K V E)),
    peekWalk (on cfg b) env k (es.map (tie b c)) = peekWalk (on cfg true) env k (es.map (tie true c))
  | [] => rfl
  | e :: es => by
    have ih := peekWalk_tie hw k es
    simp only [List.map_cons, peekWalk, tie_key, tie_expired (b := b) hw, tie_getIf, ih]
    rfl

theorem filter_tie (p : Entry K V E → Bool) (es : List (Entry K V E)) (h : ∀ e, p (tie b c e) = p (tie true c e)) :
    (es.map (tie b c)).filter p = ((es.map (tie true c)).filter p).map (tie b c) := by
  rw [List.filter_map, List.filter_map, map_tie_tie]
  congr 1
  exact List.filter_congr (fun e _ => by simpa using h e)

theorem dispose_tie (es : List (Entry K V E)) : ∀ (s : St K V E), dispose (on cfg b) (ties b c s) (es.map (tie b c)) = ties b c (dispose (on cfg true) s es) := by
  induction es with
  | nil => intro s; rfl
  | cons e es ih =>
    intro s
    have h1 : disposeOne (on cfg b) (ties b c s) (tie b c e) = ties b c (disposeOne (on cfg true) s e) := by
      simp only [disposeOne, ties, List.map_append, List.map_cons, List.map_nil, tie_upd, tie_id]; rfl
    show dispose (on cfg b) (disposeOne (on cfg b) (ties b c s) (tie b c e)) (es.map (tie b c)) = _
    rw [h1, ih]; rfl

theorem setBucket_tie (i : Nat) (l : List (Entry K V E)) : (ties b c s).setBucket i (l.map (tie b c)) = ties b c (s.setBucket i l) := by
  simp [St.setBucket, ties, List.map_set]

theorem applyWalk_tie (i : Nat) (w : Walk K V E) : applyWalk (on cfg b) (ties b c s) i (w.tie b c) = ties b c (applyWalk (on cfg true) s i w) := by
  simp only [applyWalk, Walk.tie, setBucket_tie, dispose_tie]

theorem ties_onHit (i : Nat) : onHit (on cfg b) env (ties b c s) i = ties b c (onHit (on cfg true) env s i) := by
  have h1 : (if cfg.maxSize.isSome then ({ (ties b c s).modify i (·.upd (.strengthen env)) with bq := (ties b c s).bq.onHit i } : St K V E) else ties b c s) =
      ties b c (if cfg.maxSize.isSome then { s.modify i (·.upd (.strengthen env)) with bq := s.bq.onHit i } else s) := by
    split
    · rw [ties_upd]; rfl
    · rfl
  simp only [onHit]
  show (match cfg.refresh with | none => _ | some (_, idle) => _) = ties b c (match cfg.refresh with | none => _ | some (_, idle) => _)
  rw [show (on cfg b).maxSize = cfg.maxSize from rfl, show (on cfg true).maxSize = cfg.maxSize from rfl, h1]
  cases cfg.refresh with
  | none => rfl
  | some p =>
    obtain ⟨d, idle⟩ := p
    simp only
    split
    · rfl
    · refine ties_mod i _ (fun b e => ?_)
      by_cases hv : Mapped.holdsValue env e.mapped = true <;> simp [hv, tie]

theorem ties_onCreate (i : Nat) : onCreate (on cfg b) env (ties b c s) i = ties b c (onCreate (on cfg true) env s i) := by
  simp only [onCreate, ties_bq]
  show (if cfg.maxSize.isSome then _ else _) = ties b c (if cfg.maxSize.isSome then _ else _)
  split
  · generalize s.bq.onCreate i = p
    obtain ⟨q, m⟩ := p
    cases m with
    | none => rfl
    | some m =>
      show (ties b c ({ s with bq := q } : St K V E)).modify m _ = ties b c (({ s with bq := q } : St K V E).modify m _)
      rw [ties_upd m]
  · rfl

theorem ageTp_tie (hw : env.now.wall = env.now.steady + c) (v : Bool) (e : Entry K V E) :
    ageTp (on cfg b) env v (tie b c e).expTp =
      (ageTp (on cfg true) env v (tie true c e).expTp).map (tied b c) := by
  simp only [ageTp]
  show (match (if v then cfg.maxAge else cfg.errAge) with | none => _ | some a => _) =
    Option.map _ (match (if v then cfg.maxAge else cfg.errAge) with | none => _ | some a => _)
  cases (if v then cfg.maxAge else cfg.errAge) with
  | none =>
    have := congrArg Entry.expTp (tie_tie (b := b) (c := c) e)
    exact this.symm
  | some a =>
    cases h : e.expTp with
    | none => cases b <;> simp [tie, h, tied, deadMin, on, hw]; omega
    | some p =>
      obtain ⟨t, w⟩ := p
      cases b <;> cases w <;> simp [tie, h, tied, deadMin, tpMin, on, hw] <;> omega

theorem ties_onAssign (hw : env.now.wall = env.now.steady + c) (i : Nat) (v : Bool) :
    onAssign (on cfg b) env (ties b c s) i v = ties b c (onAssign (on cfg true) env (ties true c s) i v) := by
  have h1 : (ties b c s).modify i (assignTimes (on cfg b) env v) = ties b c ((ties true c s).modify i (assignTimes (on cfg true) env v)) := by
    refine ties_modify i _ _ (fun e => ?_)
    simp only [assignTimes]
    rw [ageTp_tie (b := b) hw]
    show (match cfg.refresh with | none => _ | some (_, idle) => _) = tie b c (match cfg.refresh with | none => _ | some (_, idle) => _)
    cases cfg.refresh with
    | none => rfl
    | some p =>
      cases v <;> rfl
  simp only [onAssign, h1]
  show (if cfg.refresh.isSome && v then _ else _) = ties b c (if cfg.refresh.isSome && v then _ else _)
  split <;> rfl

theorem ties_get_ (hw : env.now.wall = env.now.steady + c) (k : K) (incl : Bool) :
    get_ (on cfg b) env (ties b c s) k incl = (ties b c (get_ (on cfg true) env (ties true c s) k incl).1, (get_ (on cfg true) env (ties true c s) k incl).2) := by
  simp only [get_, ties_bucketFor, ties_bucket]
  rw [getWalk_tie hw, ← ties_ties (b := b) s, applyWalk_tie]
  simp only [show (on cfg b).hash = cfg.hash from rfl, show (on cfg true).hash = cfg.hash from rfl]
  have h1 : ∀ w : Walk K V E, (w.tie b c).hit = w.hit := fun _ => rfl
  rw [h1]
  split
  · rfl
  · rw [ties_onHit]

theorem ties_expire (hw : env.now.wall = env.now.steady + c) (k : K) :
    expire_ (on cfg b) env (ties b c s) k = ties b c (expire_ (on cfg true) env (ties true c s) k) := by
  simp only [expire_, ties_bucketFor, ties_bucket]
  rw [expireWalk_tie hw, ← ties_ties (b := b) s, applyWalk_tie]
  rfl

theorem ties_clear : clear (on cfg b) (ties b c s) = ties b c (clear (on cfg true) s) := by
  have h1 : ∀ l : List (Entry K V E), (expireAllWalk (l.map (tie b c))).kept = (expireAllWalk l).kept.map (tie b c) := by
    intro l
    simp only [expireAllWalk, List.filter_map, List.map_map]
    rfl
  have h2 : (expireAllWalk (s.ents.map (tie b c))).removed = (expireAllWalk s.ents).removed.map (tie b c) := by
    simp only [expireAllWalk, List.filter_map]
    rfl
  simp only [clear, ties_ents, h2]
  rw [← dispose_tie]
  congr 1
  simp only [ties, List.map_map, St.mk.injEq, and_true]
  exact List.map_congr_left (fun l _ => h1 l)

/-! ### Insertion -/

theorem place_tie (tbl : List (List (Entry K V E))) (e : Entry K V E) :
    place (on cfg b) (tbl.map (·.map (tie b c))) (tie b c e) = (place (on cfg true) tbl e).map (·.map (tie b c)) := by
  simp only [place, List.length_map, tie_key]
  exact (map_modify (fun l => l.map (tie b c)) (· ++ [e]) (· ++ [tie b c e]) (fun a => by simp) _ _).symm

theorem rehash_tie (n : Nat) : rehash (on cfg b) (ties b c s) n = ties b c (rehash (on cfg true) s n) := by
  have h1 : ∀ (es : List (Entry K V E)) (tbl : List (List (Entry K V E))),
      (es.map (tie b c)).foldl (place (on cfg b)) (tbl.map (·.map (tie b c))) = (es.foldl (place (on cfg true)) tbl).map (·.map (tie b c)) := by
    intro es
    induction es with
    | nil => intro tbl; rfl
    | cons e es ih => intro tbl; simp only [List.map_cons, List.foldl_cons, place_tie, ih]
  simp only [rehash, ties_ents]
  have h2 := h1 s.ents (List.replicate n [])
  rw [show (List.replicate n ([] : List (Entry K V E))).map (·.map (tie b c)) = List.replicate n [] by simp] at h2
  rw [h2]; rfl

theorem ties_purge (hw : env.now.wall = env.now.steady + c) : purge (on cfg b) env (ties b c s) = ties b c (purge (on cfg true) env (ties true c s)) := by
  simp only [purge, purgeWalk, ties_ents]
  rw [filter_tie _ _ (fun e => tie_stale hw e), ← dispose_tie]
  congr 1
  simp only [ties, List.map_map, St.mk.injEq, true_and, and_true]
  refine ⟨List.map_congr_left (fun l _ => ?_), List.map_congr_left (fun e _ => (tie_tie e).symm)⟩
  exact filter_tie _ _ (fun e => by simp only [tie_stale (b := b) hw])

theorem ties_beforeLink (hw : env.now.wall = env.now.steady + c) :
    beforeLink (on cfg b) env (ties b c s) = ties b c (beforeLink (on cfg true) env (ties true c s)) := by
  simp only [beforeLink, ties_size, ties_len]
  show (if cfg.over (s.size + 1) s.tbl.length then _ else _) = ties b c (if cfg.over (s.size + 1) s.tbl.length then _ else _)
  split
  · exact ties_purge hw
  · exact (ties_ties s).symm

theorem ties_mustGrow : mustGrow (on cfg b) (ties b c s) = mustGrow (on cfg true) s := by simp [mustGrow]; rfl

theorem ties_maybeRehash (hw : env.now.wall = env.now.steady + c) :
    maybeRehash (on cfg b) env (ties b c s) = ties b c (maybeRehash (on cfg true) env (ties true c s)) := by
  simp only [maybeRehash, ties_beforeLink (b := b) hw, ties_mustGrow, ties_len]
  split
  · exact rehash_tie _
  · rfl

/-- Nothing but ties. -/
def Tied (c : Int) (s : St K V E) : Prop := ties true c s = s

theorem Tied.of (s : St K V E) : Tied c (ties true c s) := ties_ties s

theorem ties_link (hw : env.now.wall = env.now.steady + c) (e : Entry K V E) (he : tie true c e = e) :
    link (on cfg b) env (ties b c s) (tie b c e) = ties b c (link (on cfg true) env (ties true c s) e) := by
  simp only [link, tie_id, tie_pending, tie_mapped]
  have h1 : ∀ b, ({ maybeRehash (on cfg b) env (ties b c s) with
        tbl := place (on cfg b) (maybeRehash (on cfg b) env (ties b c s)).tbl (tie b c e), nextId := (maybeRehash (on cfg b) env (ties b c s)).nextId + 1 } : St K V E) =
      ties b c { maybeRehash (on cfg true) env (ties true c s) with
        tbl := place (on cfg true) (maybeRehash (on cfg true) env (ties true c s)).tbl e,
        nextId := (maybeRehash (on cfg true) env (ties true c s)).nextId + 1 } := by
    intro b
    rw [ties_maybeRehash (b := b) hw]
    have := place_tie (cfg := cfg) (b := b) (c := c) (maybeRehash (on cfg true) env (ties true c s)).tbl e
    simp only [ties] at this ⊢
    rw [this]
  have h2 := h1 true
  rw [he] at h2
  generalize (maybeRehash (on cfg true) env (ties true c s)) = m at h1 h2 ⊢
  generalize hx : ({ m with tbl := place (on cfg true) m.tbl e, nextId := m.nextId + 1 } : St K V E) = x at h1 h2 ⊢
  rw [h1 b, ties_onCreate]
  by_cases hp : e.isPending = true
  · simp only [hp, if_true]
  · have hcr : ties true c (onCreate (on cfg true) env x e.id) = onCreate (on cfg true) env x e.id := by rw [← ties_onCreate, ← h2]
    simp only [hp, Bool.false_eq_true, if_false]
    rw [ties_onAssign (b := b) hw, hcr]

theorem tie_new (k : K) (m : Mapped V E) (s0 : St K V E) : tie b c (newEntry s0 k m) = newEntry s0 k m := rfl
theorem ties_newEntry (k : K) (m : Mapped V E) : newEntry (ties b c s) k m = newEntry s k m := rfl

theorem ties_linkNew (hw : env.now.wall = env.now.steady + c) (k : K) (m : Mapped V E) (s0 : St K V E) :
    link (on cfg b) env (ties b c s) (newEntry s0 k m) = ties b c (link (on cfg true) env (ties true c s) (newEntry s0 k m)) :=
  ties_link (b := b) hw (newEntry s0 k m) rfl

theorem ties_tryLink (hw : env.now.wall = env.now.steady + c) (k : K) (m : Mapped V E) (f : Fail) (s0 : St K V E) :
    tryLink (on cfg b) env (ties b c s) (newEntry s0 k m) f =
      (ties b c (tryLink (on cfg true) env (ties true c s) (newEntry s0 k m) f).1, (tryLink (on cfg true) env (ties true c s) (newEntry s0 k m) f).2) := by
  have hl := ties_linkNew (cfg := cfg) (s := s) (b := b) hw k m s0
  cases f with
  | none => simp only [tryLink, hl]
  | alloc => simp only [tryLink, ties_ties]
  | grow =>
    simp only [tryLink, hl, ties_beforeLink (b := b) hw, ties_mustGrow]
    split <;> rfl

theorem ties_evictAll (vs : List Nat) : ∀ (s : St K V E), evictAll (on cfg b) (ties b c s) vs = ties b c (evictAll (on cfg true) s vs) := by
  induction vs with
  | nil => intro s; rfl
  | cons v vs ih =>
    intro s
    show evictAll (on cfg b) ((ties b c s).modify v _) vs = ties b c (evictAll (on cfg true) (s.modify v _) vs)
    rw [← ih]
    congr 1
    exact ties_upd v _

theorem ties_maintenance : maintenance (on cfg b) (ties b c s) = ties b c (maintenance (on cfg true) s) := by
  simp only [maintenance, ties_bq, ties_size]
  show (match cfg.maxSize with | none => _ | some m => _) = ties b c (match cfg.maxSize with | none => _ | some m => _)
  cases cfg.maxSize with
  | none => rfl
  | some m => exact ties_evictAll _ _

/-! ### Asynchronous lookups -/

theorem ties_cbsOf (t : Nat) : cbsOf (ties b c s) t = cbsOf s t := by
  simp only [cbsOf, ties_findAny]
  cases s.findAny t <;> rfl

theorem ties_runCb (i : Nat) (cb : Cb) : runCb (ties b c s) i cb = ties b c (runCb s i cb) := by
  cases cb with
  | user w => rfl
  | refresh old =>
    have h2 : ∀ tp, (ties b c s).modify i (fun e => { e with canTp := tpMin e.canTp tp }) = ties b c (s.modify i (fun e => { e with canTp := tpMin e.canTp tp })) := by
      intro tp
      exact ties_mod i _ (fun _ e => rfl)
    simp only [runCb, ties_findAny]
    cases s.findAny old with
    | none => simp only [Option.map_none, h2, ties_upd]
    | some x => simp only [Option.map_some, tie_canTp, h2, ties_upd]

theorem ties_runCbs (i : Nat) (cbs : List Cb) : ∀ (s : St K V E), runCbs (ties b c s) i cbs = ties b c (runCbs s i cbs) := by
  induction cbs with
  | nil => intro s; rfl
  | cons cb cbs ih =>
    intro s
    show runCbs (runCb (ties b c s) i cb) i cbs = ties b c (runCbs (runCb s i cb) i cbs)
    rw [ties_runCb, ih]

theorem ties_withOpens (o : List Nat) : withOpens o (ties b c s) = ties b c (withOpens o s) := rfl

theorem ties_complete (hw : env.now.wall = env.now.steady + c) (t : Nat) (r : Res V E) :
    complete (on cfg b) env (ties b c s) t r = (ties b c (complete (on cfg true) env (ties true c s) t r).1, (complete (on cfg true) env (ties true c s) t r).2) := by
  by_cases h : t ∈ s.opens
  · have h' : ∀ b, t ∈ (ties b c s).opens := fun _ => h
    cases hd : s.destroyed with
    | true =>
      rw [complete_dead (h' b) hd, complete_dead (h' true) hd]
      simp only [ties_upd, ties_withOpens, ties_opens, ties_cbsOf, ties_ties]
    | false =>
      rw [complete_pos (h' b) hd, complete_pos (h' true) hd, ties_cbsOf, ties_runCbs, ties_upd, show completed (on cfg b) r = completed cfg r from rfl, ties_onAssign hw]
      simp only [ties_withOpens, ties_opens, ties_cbsOf, ties_runCbs, ties_upd]
      rfl
  · rw [complete_neg (s := ties b c s) h, complete_neg (s := ties true c s) h, ties_ties]

theorem ties_drop (t : Nat) : drop (ties b c s) t = (ties b c (drop s t).1, (drop s t).2) := by
  by_cases h : t ∈ s.opens
  · rw [drop_pos h, drop_pos (s := ties b c s) h]
    simp only [ties_upd, ties_withOpens, ties_opens, ties_cbsOf]
  · rw [drop_neg h, drop_neg (s := ties b c s) h]

theorem tied_linkNew (hw : env.now.wall = env.now.steady + c) (hs : Tied c s) (k : K) (m : Mapped V E) (s0 : St K V E) :
    Tied c (link (on cfg true) env s (newEntry s0 k m)) := by
  have := ties_linkNew (cfg := cfg) (b := true) (s := s) hw k m s0
  rw [show ties true c s = s from hs] at this
  exact this.symm

theorem ties_resolveAsync (hw : env.now.wall = env.now.steady + c) (k : K) (bh : Beh V E) :
    resolveAsync (on cfg b) env (ties b c s) k bh = (ties b c (resolveAsync (on cfg true) env (ties true c s) k bh).1, (resolveAsync (on cfg true) env (ties true c s) k bh).2) := by
  have hl := ties_linkNew (cfg := cfg) (s := s) (b := b) hw k (.pending {}) s
  have ht := tied_linkNew (cfg := cfg) (s := ties true c s) hw (Tied.of s) k (.pending {}) s
  generalize hx : link (on cfg true) env (ties true c s) (newEntry s k (.pending {})) = x at hl ht
  have h2 : ∀ b, ({ ties b c x with opens := (ties b c x).opens ++ [s.nextId] } : St K V E) = ties b c { x with opens := x.opens ++ [s.nextId] } := fun _ => rfl
  have ht2 : ties true c { x with opens := x.opens ++ [s.nextId] } = { x with opens := x.opens ++ [s.nextId] } := by
    rw [← h2 true, ht]
  cases bh with
  | later => simp only [resolveAsync, ties_newEntry, ties_nextId, hl, hx]; rfl
  | now r =>
    have h3 := ties_complete (cfg := cfg) (b := b) (s := { x with opens := x.opens ++ [s.nextId] }) hw s.nextId r
    rw [ht2] at h3
    simp only [resolveAsync, ties_newEntry, ties_nextId, hl, hx]
    exact congrArg (fun p => (p.1, s.nextId)) h3
  | drop =>
    have h3 := ties_drop (b := b) (c := c) (s := { x with opens := x.opens ++ [s.nextId] }) s.nextId
    simp only [resolveAsync, ties_newEntry, ties_nextId, hl, hx]
    exact congrArg (fun p => (p.1, s.nextId)) h3

theorem ties_resolveSync (hw : env.now.wall = env.now.steady + c) (k : K) (r : Res V E) :
    resolveSync (on cfg b) env (ties b c s) k r = (ties b c (resolveSync (on cfg true) env (ties true c s) k r).1, (resolveSync (on cfg true) env (ties true c s) k r).2) := by
  simp only [resolveSync, ties_newEntry, ties_nextId]
  rw [ties_linkNew hw]

theorem ties_answer (i w : Nat) (l : Look V E) : answer (ties b c s) i w l = (ties b c (answer s i w l).1, (answer s i w l).2) := by
  cases l <;> simp only [answer]
  rw [ties_upd]

theorem ties_refresh (hw : env.now.wall = env.now.steady + c) (e : Entry K V E) (r : Res V E) (bh : Beh V E) :
    refresh (on cfg b) env (ties b c s) (tie b c e) r bh =
      (ties b c (refresh (on cfg true) env (ties true c s) (tie true c e) r bh).1, (refresh (on cfg true) env (ties true c s) (tie true c e) r bh).2) := by
  have h1 : ∀ k, (if cfg.resolver = .async then resolveAsync (on cfg b) env (ties b c s) k bh else resolveSync (on cfg b) env (ties b c s) k r) =
      (ties b c (if cfg.resolver = .async then resolveAsync (on cfg true) env (ties true c s) k bh else resolveSync (on cfg true) env (ties true c s) k r).1,
        (if cfg.resolver = .async then resolveAsync (on cfg true) env (ties true c s) k bh else resolveSync (on cfg true) env (ties true c s) k r).2) := by
    intro k; split
    · exact ties_resolveAsync hw k bh
    · exact ties_resolveSync hw k r
  simp only [refresh, tie_refreshing, tie_expired (b := b) hw, tie_key, tie_id, show ∀ b, (on cfg b).resolver = cfg.resolver from fun _ => rfl, h1]
  split
  · rw [ties_ties]
  · generalize (if cfg.resolver = .async then resolveAsync (on cfg true) env (ties true c s) e.key bh else resolveSync (on cfg true) env (ties true c s) e.key r) = p
    obtain ⟨s1, tok⟩ := p
    have h2 : (ties b c s1).modify e.id (fun x => { x with refreshing := true }) = ties b c (s1.modify e.id (fun x => { x with refreshing := true })) :=
      ties_mod _ _ (fun _ e => rfl)
    simp only [h2, ties_find]
    cases (s1.modify e.id (fun x => { x with refreshing := true })).find tok with
    | none => rfl
    | some x =>
      simp only [Option.map_some, tie_pending]
      by_cases hp : x.isPending = true
      · simp only [hp, if_true, ties_upd]
      · simp only [hp, Bool.false_eq_true, if_false, ties_runCb]

theorem ties_tick (hw : env.now.wall = env.now.steady + c) (r : Res V E) (bh : Beh V E) :
    tick (on cfg b) env (ties b c s) r bh = (ties b c (tick (on cfg true) env (ties true c s) r bh).1, (tick (on cfg true) env (ties true c s) r bh).2) := by
  simp only [tick, ties_delayQ]
  split
  · rw [ties_ties]
  · rename_i i q hq
    simp only [ties_find]
    cases s.find i with
    | none => simp only [Option.map_none, ties_ties]
    | some e =>
      simp only [Option.map_some, tie_refTp]
      by_cases hr : reached env.now e.refTp = true
      · simp only [hr, if_true]
        exact ties_refresh (s := { s with delayQ := q }) hw e r bh
      · simp only [hr]
        exact Prod.ext (ties_ties s).symm rfl

theorem ties_destroy : destroy (on cfg b) (ties b c s) = (ties b c (destroy (on cfg true) s).1, (destroy (on cfg true) s).2) := by
  have h1 : ({ ties b c s with tbl := (ties b c s).tbl.map (fun _ => []) } : St K V E) = ties b c { s with tbl := s.tbl.map (fun _ => []) } := by
    simp [ties, List.map_map, Function.comp_def]
  have h2 : (s.ents.map (tie b c)).flatMap (fun e => users e.mapped.cbs) = s.ents.flatMap (fun e => users e.mapped.cbs) := by
    rw [List.flatMap_map]; rfl
  simp only [destroy, h1, ties_ents, dispose_tie, h2]
  rfl

/-- One operation: whether the age limits are also measured on the other clock makes no difference to what it does. -/
theorem ties_step (hw : env.now.wall = env.now.steady + c) (o : Op K V E) :
    step (on cfg b) env (ties b c s) o = (ties b c (step (on cfg true) env (ties true c s) o).1, (step (on cfg true) env (ties true c s) o).2) := by
  cases o with
  | getIfExists k =>
    simp only [step, getIfExists, ties_bucketFor, ties_bucket, peekWalk_tie (b := b) hw, ties_ties]
    rfl
  | count =>
    simp only [step, count, ties_ents, ties_ties]
    rw [filter_tie (b := b) (c := c) _ _ (fun e => by rw [tie_expired (b := b) hw]), List.length_map]
  | erase k => simp only [step, erase]; rw [ties_expire hw]
  | clear => simp only [step]; rw [ties_clear, ties_clear, ties_ties]
  | get k r =>
    simp only [step, get]
    have hg := ties_get_ (cfg := cfg) (s := s) (b := b) hw k false
    have ht := congrArg Prod.fst (ties_get_ (cfg := cfg) (s := s) (b := true) hw k false)
    rw [hg]
    generalize get_ (on cfg true) env (ties true c s) k false = g at ht ⊢
    obtain ⟨s1, l⟩ := g
    simp only at ht ⊢
    have hr := ties_resolveSync (cfg := cfg) (s := s1) (b := b) hw k r
    rw [← ht] at hr
    simp only [show ∀ b, (on cfg b).resolver = cfg.resolver from fun _ => rfl, hr]
    cases cfg.resolver <;> cases l <;> rfl
  | complete t r => exact ties_complete hw t r
  | drop t => simp only [step, ties_drop, ties_ties]
  | tick r bh => exact ties_tick hw r bh
  | destroy => simp only [step]; rw [ties_destroy, ties_destroy]; simp only [ties_ties]
  | emplace k v f =>
    simp only [step, emplace]
    have hg := ties_expire (cfg := cfg) (s := s) (b := b) hw k
    have ht := ties_expire (cfg := cfg) (s := s) (b := true) hw k
    rw [hg]
    generalize expire_ (on cfg true) env (ties true c s) k = s1 at ht ⊢
    have hr := ties_tryLink (cfg := cfg) (s := s1) (b := b) hw k (.value v) f s1
    rw [← ht] at hr
    simp only [ties_newEntry, hr]
    split
    · rw [ties_maintenance]
    · rfl
  | getOrEmplace k v f =>
    simp only [step, getOrEmplace]
    have hg := ties_get_ (cfg := cfg) (s := s) (b := b) hw k true
    have ht := congrArg Prod.fst (ties_get_ (cfg := cfg) (s := s) (b := true) hw k true)
    rw [hg]
    generalize get_ (on cfg true) env (ties true c s) k true = g at ht ⊢
    obtain ⟨s1, l⟩ := g
    simp only at ht ⊢
    have hr := ties_tryLink (cfg := cfg) (s := s1) (b := b) hw k (.value v) f s1
    rw [← ht] at hr
    cases l with
    | none =>
      simp only [ties_newEntry, hr]
      split
      · rw [ties_maintenance]
      · rfl
    | val u => simp only [ties_maintenance]
    | err u => simp only [ties_maintenance]
    | pend => simp only [ties_maintenance]
  | asyncGet k x bh =>
    simp only [step, asyncGet, ties_bucketFor, ties_bucket, getWalk_tie (b := b) hw, show ∀ b, (on cfg b).hash = cfg.hash from fun _ => rfl]
    have hw1 : ∀ w : Walk K V E, (w.tie b c).hit = w.hit := fun _ => rfl
    have hg := ties_get_ (cfg := cfg) (s := s) (b := b) hw k true
    have ht := congrArg Prod.fst (ties_get_ (cfg := cfg) (s := s) (b := true) hw k true)
    rw [hg, hw1]
    generalize get_ (on cfg true) env (ties true c s) k true = g at ht ⊢
    obtain ⟨s1, l⟩ := g
    simp only at ht ⊢
    have hr := ties_resolveAsync (cfg := cfg) (s := s1) (b := b) hw k bh
    rw [← ht] at hr
    split
    · rename_i id l _
      rw [ties_answer]
    · simp only [hr, ties_find]
      generalize resolveAsync (on cfg true) env s1 k bh = q
      obtain ⟨s2, tok⟩ := q
      simp only
      cases s2.find tok with
      | none => simp only [Option.map_none, ties_answer]
      | some e => simp only [Option.map_some, tie_mapped, ties_answer]

theorem tie_later {c' : Int} (h : c ≤ c') (e : Entry K V E) : tie true c (tie true c' e) = tie true c' e := by
  cases he : e.expTp with
  | none => simp [tie, he]
  | some p => simp only [tie, he, Option.map_some, tied_tied h, if_true]

theorem ties_later {c' : Int} (h : c ≤ c') (s : St K V E) : ties true c (ties true c' s) = ties true c' s := by
  have h1 : ∀ l : List (Entry K V E), (l.map (tie true c')).map (tie true c) = l.map (tie true c') := by
    intro l; rw [List.map_map]; exact List.map_congr_left (fun e _ => tie_later h e)
  have h2 : ((fun l : List (Entry K V E) => l.map (tie true c)) ∘ fun l : List (Entry K V E) => l.map (tie true c')) = fun l => l.map (tie true c') := by
    funext l; exact h1 l
  have h3 := h1 s.limbo
  simp only [ties, h3, List.map_map, h2]

/-- Without deadlines on the other clock. -/
theorem ties_none (c c' : Int) (s : St K V E) : ties false c s = ties false c' s := rfl

/-- A whole history, with the other clock never set forward. -/
theorem ties_run : ∀ (h : Hist K V E) (c0 : Int) (_ : (c0 :: h.map (fun p => p.1.now.wall - p.1.now.steady)).Pairwise (fun a b => b ≤ a)) (s : St K V E)
    (_ : ties true c0 s = s), (run (on cfg true) s h).2 = (run (on cfg false) (ties false 0 s) h).2
  | [], _, _, _, _ => rfl
  | (env, o) :: h, c0, hc, s, hs => by
    simp only [List.map_cons, List.pairwise_cons, List.mem_cons, forall_eq_or_imp] at hc
    obtain ⟨⟨hle, _⟩, hc2⟩ := hc
    have hw : env.now.wall = env.now.steady + (env.now.wall - env.now.steady) := by omega
    generalize env.now.wall - env.now.steady = c at hle hc2 hw
    have hs' : ties true c s = s := by rw [← hs]; exact ties_later hle s
    have h1 := ties_step (cfg := cfg) (s := s) (b := false) (c := c) (env := env) hw o
    have h2 := congrArg Prod.fst (ties_step (cfg := cfg) (s := s) (b := true) (c := c) (env := env) hw o)
    rw [hs'] at h1 h2
    have ih := ties_run h c (by simpa [List.pairwise_cons] using hc2) (step (on cfg true) env s o).1 h2.symm
    simp only [run]
    rw [ties_none 0 c s, h1, ih]
    rfl

end Hoard.Clock
