import Verif.Spec.Symmetry
/-! # Rewriting the state of the cache, and that every function of the model commutes with it -/
namespace Hoard
namespace Renaming
variable {K V E K' V' E' : Type} (σ : Renaming K V E K' V' E')

def cb : Cb → Cb
  | .user w => .user (σ.waiter w)
  | .refresh o => .refresh o

def mapped : Mapped V E → Mapped V' E'
  | .pending p => .pending { p with cbs := p.cbs.map σ.cb }
  | .value v => .value (σ.val v)
  | .weak v => .weak (σ.val v)
  | .gone => .gone
  | .error e => .error (σ.err e)
  | .void => .void

def look : Look V E → Look V' E'
  | .none => .none
  | .val v => .val (σ.val v)
  | .err e => .err (σ.err e)
  | .pend => .pend

def tp (t : Option Int) : Option Int := t.map (· + σ.steady)
def tpw (t : Option Int) : Option Int := t.map (· + σ.wall)
def dead (t : Option (Int × Option Int)) : Option (Int × Option Int) := t.map (fun p => (p.1 + σ.steady, σ.tpw p.2))

def entry (e : Entry K V E) : Entry K' V' E' where
  id := e.id
  key := σ.key e.key
  mapped := σ.mapped e.mapped
  expTp := σ.dead e.expTp
  refTp := σ.tp e.refTp
  canTp := σ.tp e.canTp
  refreshing := e.refreshing

def st (s : St K V E) : St K' V' E' where
  tbl := s.tbl.map (·.map σ.entry)
  bq := s.bq
  delayQ := s.delayQ
  limbo := s.limbo.map σ.entry
  nextId := s.nextId
  opens := s.opens
  destroyed := s.destroyed

def walk (w : Walk K V E) : Walk K' V' E' where
  kept := w.kept.map σ.entry
  removed := w.removed.map σ.entry
  hit := w.hit.map (fun p => (p.1, σ.look p.2))

variable {σ} {cfg : Cfg K} {cfg' : Cfg K'} {env : Env V} {env' : Env V'}

/-! ## Times -/

theorem reached_tp (now : Int) (t : Option Int) : reached (now + σ.steady) (σ.tp t) = reached now t := by
  cases t <;> simp [reached, tp]

theorem reached_tpw (now : Int) (t : Option Int) : reached (now + σ.wall) (σ.tpw t) = reached now t := by
  cases t <;> simp [reached, tpw]

theorem past_dead (now : Time) (t : Option (Int × Option Int)) : (σ.time now).past (σ.dead t) = now.past t := by
  rcases t with _ | ⟨t, w⟩
  · rfl
  · simp only [dead, Option.map_some, Time.past, time, reached_tpw]
    congr 1
    simp

theorem tpMin_tp (a b : Option Int) : tpMin (σ.tp a) (σ.tp b) = σ.tp (tpMin a b) := by
  cases a <;> cases b <;> simp [tpMin, tp]

theorem tpMin_tpw (a b : Option Int) : tpMin (σ.tpw a) (σ.tpw b) = σ.tpw (tpMin a b) := by
  cases a <;> cases b <;> simp [tpMin, tpw]

theorem deadMin_dead (a b : Option (Int × Option Int)) : deadMin (σ.dead a) (σ.dead b) = σ.dead (deadMin a b) := by
  rcases a with _ | ⟨a, v⟩ <;> rcases b with _ | ⟨b, w⟩ <;> simp [deadMin, dead, tpMin_tpw]

/-! ## Mapped values -/

theorem m_isPending (m : Mapped V E) : (σ.mapped m).isPending = m.isPending := by cases m <;> rfl
theorem m_holdsError (m : Mapped V E) : (σ.mapped m).holdsError = m.holdsError := by cases m <;> rfl
theorem m_expired (he : σ.EnvOk env env') (m : Mapped V E) : (σ.mapped m).expired env' = m.expired env := by
  cases m <;> simp [mapped, Mapped.expired, he.alive]
theorem m_holdsValue (he : σ.EnvOk env env') (m : Mapped V E) : (σ.mapped m).holdsValue env' = m.holdsValue env := by
  cases m <;> simp [mapped, Mapped.holdsValue, he.alive]
theorem m_get (he : σ.EnvOk env env') (b : Bool) (m : Mapped V E) : (σ.mapped m).get env' b = σ.look (m.get env b) := by
  cases m with
  | pending p => cases b <;> rfl
  | weak v => simp only [mapped, Mapped.get, he.alive]; split <;> rfl
  | _ => rfl
theorem m_markExpired (m : Mapped V E) : (σ.mapped m).markExpired = σ.mapped m.markExpired := by cases m <;> rfl
theorem m_weaken (b : Bool) (m : Mapped V E) : (σ.mapped m).weaken b = σ.mapped (m.weaken b) := by cases m <;> cases b <;> rfl
theorem m_strengthen (he : σ.EnvOk env env') (m : Mapped V E) : (σ.mapped m).strengthen env' = σ.mapped (m.strengthen env) := by
  cases m with
  | pending p => simp only [mapped, Mapped.strengthen]; split <;> rfl
  | weak v => simp only [mapped, Mapped.strengthen, he.alive]; split <;> rfl
  | _ => rfl
theorem m_cancel (m : Mapped V E) : (σ.mapped m).cancel = σ.mapped m.cancel := by cases m <;> rfl
theorem m_cbs (m : Mapped V E) : (σ.mapped m).cbs = m.cbs.map σ.cb := by cases m <;> rfl
theorem m_addCb (c : Cb) (m : Mapped V E) : (σ.mapped m).addCb (σ.cb c) = σ.mapped (m.addCb c) := by
  cases m <;> simp [mapped, Mapped.addCb]
theorem m_completed (hc : cfg'.ptr = cfg.ptr) (r : Res V E) (m : Mapped V E) : completed cfg' (σ.res r) (σ.mapped m) = σ.mapped (completed cfg r m) := by
  cases m with
  | pending p =>
    cases r with
    | ok v =>
      simp only [mapped, completed, res, Mapped.assigned, hc]
      split
      · rfl
      · split
        · split <;> rfl
        · rfl
    | err e => simp only [mapped, completed, res, Mapped.assignedError]; split <;> rfl
  | _ => rfl
theorem m_sync (r : Res V E) : syncMapped (σ.res r) = σ.mapped (syncMapped r) := by cases r <;> rfl
theorem users_cb (cbs : List Cb) : users (cbs.map σ.cb) = (users cbs).map σ.waiter := by
  induction cbs with
  | nil => rfl
  | cons c cs ih => cases c <;> simp_all [users, cb]

/-! ## Entries -/

theorem e_upd {f : Mapped V E → Mapped V E} {f' : Mapped V' E' → Mapped V' E'} (hf : ∀ m, f' (σ.mapped m) = σ.mapped (f m)) (e : Entry K V E) :
    (σ.entry e).upd f' = σ.entry (e.upd f) := by
  simp [Entry.upd, entry, hf]
theorem e_isPending (e : Entry K V E) : (σ.entry e).isPending = e.isPending := m_isPending e.mapped
theorem e_expired (he : σ.EnvOk env env') (e : Entry K V E) : (σ.entry e).expired env' = e.expired env := by
  simp only [Entry.expired, entry, m_expired he, m_holdsError, he.now, past_dead]
  congr 1
  exact reached_tp _ _
theorem e_stale (he : σ.EnvOk env env') (e : Entry K V E) : stale env' (σ.entry e) = stale env e := by
  simp [stale, e_expired he, e_isPending]
theorem e_match (hk : KeysOk cfg cfg' σ.key) (he : σ.EnvOk env env') (k : K) (b : Bool) (e : Entry K V E) :
    getIfMatching cfg' env' (σ.key k) b (σ.entry e) = σ.look (getIfMatching cfg env k b e) := by
  simp only [getIfMatching, entry, hk.eqv, m_get he]
  split <;> rfl

/-! ## Walks -/

theorem w_keep (e : Entry K V E) (w : Walk K V E) : (σ.walk w).keep (σ.entry e) = σ.walk (w.keep e) := rfl
theorem w_drop (e : Entry K V E) (w : Walk K V E) : (σ.walk w).drop (σ.entry e) = σ.walk (w.drop e) := rfl

theorem w_get (hk : KeysOk cfg cfg' σ.key) (he : σ.EnvOk env env') (k : K) (b : Bool) (es : List (Entry K V E)) :
    getWalk cfg' env' (σ.key k) b (es.map σ.entry) = σ.walk (getWalk cfg env k b es) := by
  induction es with
  | nil => rfl
  | cons e es ih =>
    have hh : cfg'.hash (σ.entry e).key = cfg.hash e.key := hk.hash _
    simp only [List.map_cons, getWalk, hh, hk.hash, e_stale he, e_expired he, e_isPending, ih, w_keep, w_drop, e_match hk he]
    split
    · split <;> rfl
    · split
      · split <;> rfl
      · cases getIfMatching cfg env k b e <;> rfl

theorem w_expire (hk : KeysOk cfg cfg' σ.key) (he : σ.EnvOk env env') (k : K) (es : List (Entry K V E)) :
    expireWalk cfg' env' (σ.key k) (es.map σ.entry) = σ.walk (expireWalk cfg env k es) := by
  induction es with
  | nil => rfl
  | cons e es ih =>
    have hh : cfg'.hash (σ.entry e).key = cfg.hash e.key := hk.hash _
    have hq : cfg'.eqv (σ.entry e).key (σ.key k) = cfg.eqv e.key k := hk.eqv _ _
    simp only [List.map_cons, expireWalk, hh, hq, hk.hash, e_stale he, e_isPending, ih, w_keep, w_drop, e_upd m_markExpired]
    split
    · split <;> rfl
    · split <;> rfl

theorem l_filter {p : Entry K V E → Bool} {p' : Entry K' V' E' → Bool} (hp : ∀ e, p' (σ.entry e) = p e) (es : List (Entry K V E)) :
    (es.map σ.entry).filter p' = (es.filter p).map σ.entry := by
  rw [List.filter_map]
  congr 1
  exact List.filter_congr (fun e _ => hp e)

theorem w_purge (he : σ.EnvOk env env') (es : List (Entry K V E)) : purgeWalk env' (es.map σ.entry) = σ.walk (purgeWalk env es) := by
  simp only [purgeWalk, walk, Option.map_none]
  rw [l_filter (fun e => by rw [e_stale he]), l_filter (fun e => e_stale he e)]

theorem w_expireAll (es : List (Entry K V E)) : expireAllWalk (es.map σ.entry) = σ.walk (expireAllWalk es) := by
  simp only [expireAllWalk, walk, Option.map_none, List.map_map]
  rw [l_filter (fun e => e_isPending e), l_filter (p := fun e => !e.isPending) (fun e => by rw [e_isPending])]
  simp only [List.map_map]
  congr 1
  exact List.map_congr_left (fun e _ => e_upd m_markExpired e)

/-! ## State -/

theorem s_ents (s : St K V E) : (σ.st s).ents = s.ents.map σ.entry := by
  simp [St.ents, st, List.map_flatten]
theorem s_size (s : St K V E) : (σ.st s).size = s.size := by simp [St.size, s_ents]
theorem s_len (s : St K V E) : (σ.st s).tbl.length = s.tbl.length := by simp [st]
theorem s_bucketFor (s : St K V E) (n : Nat) : (σ.st s).bucketFor n = s.bucketFor n := by simp [St.bucketFor, s_len]
theorem s_bucket (s : St K V E) (i : Nat) : (σ.st s).bucket i = (s.bucket i).map σ.entry := by
  simp only [St.bucket, st, List.getElem?_map]
  cases s.tbl[i]? <;> rfl
theorem s_setBucket (s : St K V E) (i : Nat) (b : List (Entry K V E)) : (σ.st s).setBucket i (b.map σ.entry) = σ.st (s.setBucket i b) := by
  simp [St.setBucket, st, List.map_set]
theorem s_find (s : St K V E) (i : Nat) : (σ.st s).find i = (s.find i).map σ.entry := by
  simp only [St.find, s_ents, List.find?_map]
  rfl
theorem s_findAny (s : St K V E) (i : Nat) : (σ.st s).findAny i = (s.findAny i).map σ.entry := by
  simp only [St.findAny, s_ents]
  rw [show (σ.st s).limbo = s.limbo.map σ.entry from rfl, ← List.map_append, List.find?_map]
  rfl
theorem s_modify {f : Entry K V E → Entry K V E} {f' : Entry K' V' E' → Entry K' V' E'} (hf : ∀ e, f' (σ.entry e) = σ.entry (f e)) (s : St K V E) (i : Nat) :
    (σ.st s).modify i f' = σ.st (s.modify i f) := by
  have h : ∀ e : Entry K V E, (if (σ.entry e).id = i then f' (σ.entry e) else σ.entry e) = σ.entry (if e.id = i then f e else e) := by
    intro e
    by_cases h : e.id = i
    · have h' : (σ.entry e).id = i := h
      simp [h, h', hf]
    · have h' : ¬ (σ.entry e).id = i := h
      simp [h, h']
  simp [St.modify, st, h]

theorem s_disposeOne (hm : cfg'.maxSize = cfg.maxSize) (s : St K V E) (e : Entry K V E) : disposeOne cfg' (σ.st s) (σ.entry e) = σ.st (disposeOne cfg s e) := by
  simp only [disposeOne, hm, e_upd m_cancel]
  simp [st, entry]
theorem s_dispose (hm : cfg'.maxSize = cfg.maxSize) (es : List (Entry K V E)) : ∀ s : St K V E, dispose cfg' (σ.st s) (es.map σ.entry) = σ.st (dispose cfg s es) := by
  induction es with
  | nil => intro s; rfl
  | cons e es ih => intro s; simpa [dispose, s_disposeOne hm] using ih (disposeOne cfg s e)

theorem s_applyWalk (hm : cfg'.maxSize = cfg.maxSize) (s : St K V E) (i : Nat) (w : Walk K V E) : applyWalk cfg' (σ.st s) i (σ.walk w) = σ.st (applyWalk cfg s i w) := by
  simp only [applyWalk, walk, s_setBucket, s_dispose hm]

theorem KeysOk_field (hk : KeysOk cfg cfg' σ.key) : cfg'.maxSize = cfg.maxSize ∧ cfg'.weaken = cfg.weaken ∧ cfg'.ptr = cfg.ptr ∧ cfg'.maxAge = cfg.maxAge ∧
    cfg'.errAge = cfg.errAge ∧ cfg'.wall = cfg.wall ∧ cfg'.refresh = cfg.refresh ∧ cfg'.resolver = cfg.resolver ∧ cfg'.over = cfg.over ∧ cfg'.maxBuckets = cfg.maxBuckets := by
  have h := hk.same
  refine ⟨?_, ?_, ?_, ?_, ?_, ?_, ?_, ?_, ?_, ?_⟩ <;> rw [h] <;> rfl

theorem tp_add (x i : Int) : σ.tp (some (x + i)) = some (x + σ.steady + i) := by simp [tp]; omega

theorem s_onHit (hk : KeysOk cfg cfg' σ.key) (he : σ.EnvOk env env') (s : St K V E) (i : Nat) : onHit cfg' env' (σ.st s) i = σ.st (onHit cfg env s i) := by
  obtain ⟨hm, _, _, _, _, _, hr, _⟩ := KeysOk_field hk
  have h1 : (if cfg'.maxSize.isSome then { (σ.st s).modify i (·.upd (.strengthen env')) with bq := (σ.st s).bq.onHit i } else σ.st s) =
      σ.st (if cfg.maxSize.isSome then { s.modify i (·.upd (.strengthen env)) with bq := s.bq.onHit i } else s) := by
    rw [hm]
    split
    · rw [s_modify (f := (·.upd (.strengthen env))) (fun e => e_upd (m_strengthen he) e)]
      rfl
    · rfl
  simp only [onHit, h1, hr]
  split
  · rfl
  · split
    · rfl
    · refine s_modify (fun e => ?_) _ _
      show (if (σ.mapped e.mapped).holdsValue env' then _ else _) = _
      rw [m_holdsValue he, he.now]
      split
      · simp only [entry, tp_add, time]
      · rfl

theorem s_onCreate (hk : KeysOk cfg cfg' σ.key) (he : σ.EnvOk env env') (s : St K V E) (i : Nat) : onCreate cfg' env' (σ.st s) i = σ.st (onCreate cfg env s i) := by
  obtain ⟨hm, _⟩ := KeysOk_field hk
  simp only [onCreate, hm]
  split
  · show (match (s.bq.onCreate i).2 with | none => { σ.st s with bq := (s.bq.onCreate i).1 } | some m => ({ σ.st s with bq := (s.bq.onCreate i).1 } : St K' V' E').modify m (·.upd (.strengthen env'))) = _
    have h2 : ({ σ.st s with bq := (s.bq.onCreate i).1 } : St K' V' E') = σ.st { s with bq := (s.bq.onCreate i).1 } := rfl
    rw [h2]
    cases (s.bq.onCreate i).2 with
    | none => rfl
    | some m => exact s_modify (fun e => e_upd (m_strengthen he) e) _ _
  · rfl

theorem t_ageTp (hk : KeysOk cfg cfg' σ.key) (he : σ.EnvOk env env') (b : Bool) (t : Option (Int × Option Int)) :
    ageTp cfg' env' b (σ.dead t) = σ.dead (ageTp cfg env b t) := by
  obtain ⟨_, _, _, h4, h5, h6, _⟩ := KeysOk_field hk
  simp only [ageTp, h4, h5, h6, he.now]
  split
  · rfl
  · rename_i a _
    rw [← deadMin_dead]
    congr 1
    simp only [dead, Option.map_some, time]
    split
    · simp [tpw]; omega
    · simp [tpw]; omega

theorem e_assignTimes (hk : KeysOk cfg cfg' σ.key) (he : σ.EnvOk env env') (b : Bool) (e : Entry K V E) :
    assignTimes cfg' env' b (σ.entry e) = σ.entry (assignTimes cfg env b e) := by
  obtain ⟨_, _, _, _, _, _, hr, _⟩ := KeysOk_field hk
  have h1 : ageTp cfg' env' b (σ.entry e).expTp = σ.dead (ageTp cfg env b e.expTp) := t_ageTp hk he b _
  simp only [assignTimes, hr, h1]
  split
  · rfl
  · rename_i d i _
    split
    · simp only [entry, he.now, time, tp_add]
      congr 1
      split
      · rfl
      · rw [← tpMin_tp, tp_add]
    · rfl

theorem s_onAssign (hk : KeysOk cfg cfg' σ.key) (he : σ.EnvOk env env') (s : St K V E) (i : Nat) (b : Bool) :
    onAssign cfg' env' (σ.st s) i b = σ.st (onAssign cfg env s i b) := by
  obtain ⟨_, _, _, _, _, _, hr, _⟩ := KeysOk_field hk
  simp only [onAssign, hr, s_modify (fun e => e_assignTimes hk he b e)]
  split <;> rfl

theorem s_place (hk : KeysOk cfg cfg' σ.key) (t : List (List (Entry K V E))) (e : Entry K V E) :
    place cfg' (t.map (·.map σ.entry)) (σ.entry e) = (place cfg t e).map (·.map σ.entry) := by
  have hh : cfg'.hash (σ.entry e).key = cfg.hash e.key := hk.hash _
  simp only [place, hh, List.length_map]
  apply List.ext_getElem?
  intro n
  simp only [List.getElem?_modify, List.getElem?_map]
  split
  · cases t[n]? <;> simp
  · cases t[n]? <;> simp

theorem s_rehash (hk : KeysOk cfg cfg' σ.key) (s : St K V E) (n : Nat) : rehash cfg' (σ.st s) n = σ.st (rehash cfg s n) := by
  have h : ∀ (es : List (Entry K V E)) (t : List (List (Entry K V E))),
      (es.map σ.entry).foldl (place cfg') (t.map (·.map σ.entry)) = (es.foldl (place cfg) t).map (·.map σ.entry) := by
    intro es
    induction es with
    | nil => intro t; rfl
    | cons e es ih => intro t; simpa [s_place hk] using ih (place cfg t e)
  have h2 := h s.ents (List.replicate n [])
  simp only [List.map_replicate, List.map_nil] at h2
  simp only [rehash, s_ents, h2]
  rfl

theorem s_purge (hk : KeysOk cfg cfg' σ.key) (he : σ.EnvOk env env') (s : St K V E) : purge cfg' env' (σ.st s) = σ.st (purge cfg env s) := by
  obtain ⟨hm, _⟩ := KeysOk_field hk
  simp only [purge, s_ents, w_purge he]
  rw [show (σ.walk (purgeWalk env s.ents)).removed = (purgeWalk env s.ents).removed.map σ.entry from rfl, ← s_dispose hm]
  congr 1
  simp only [st, List.map_map]
  congr 1
  refine List.map_congr_left (fun b _ => ?_)
  simp [w_purge he, walk]

theorem s_beforeLink (hk : KeysOk cfg cfg' σ.key) (he : σ.EnvOk env env') (s : St K V E) : beforeLink cfg' env' (σ.st s) = σ.st (beforeLink cfg env s) := by
  obtain ⟨_, _, _, _, _, _, _, _, ho, _⟩ := KeysOk_field hk
  simp only [beforeLink, ho, s_size, s_len, s_purge hk he]
  split <;> rfl

theorem s_mustGrow (hk : KeysOk cfg cfg' σ.key) (s : St K V E) : mustGrow cfg' (σ.st s) = mustGrow cfg s := by
  obtain ⟨_, _, _, _, _, _, _, _, ho, hb⟩ := KeysOk_field hk
  simp only [mustGrow, ho, hb, s_size, s_len]

theorem s_maybeRehash (hk : KeysOk cfg cfg' σ.key) (he : σ.EnvOk env env') (s : St K V E) : maybeRehash cfg' env' (σ.st s) = σ.st (maybeRehash cfg env s) := by
  obtain ⟨_, _, _, _, _, _, _, _, _, hb⟩ := KeysOk_field hk
  have hg : ∀ n, grown cfg' n = grown cfg n := by intro n; simp only [grown, hb]
  simp only [maybeRehash, s_beforeLink hk he, s_mustGrow hk, hg, s_len, s_rehash hk]
  split <;> rfl

theorem s_link (hk : KeysOk cfg cfg' σ.key) (he : σ.EnvOk env env') (s : St K V E) (e : Entry K V E) : link cfg' env' (σ.st s) (σ.entry e) = σ.st (link cfg env s e) := by
  have h1 : ∀ t : St K V E, ({ σ.st t with tbl := place cfg' (σ.st t).tbl (σ.entry e), nextId := (σ.st t).nextId + 1 } : St K' V' E') =
      σ.st { t with tbl := place cfg t.tbl e, nextId := t.nextId + 1 } := by
    intro t
    have := s_place hk t.tbl e
    simp only [st, this]
  have h2 : (σ.entry e).mapped.holdsValue env' = e.mapped.holdsValue env := m_holdsValue he e.mapped
  simp only [link, s_maybeRehash hk he, h1, e_isPending, h2]
  rw [show (σ.entry e).id = e.id from rfl, s_onCreate hk he, s_onAssign hk he]
  split <;> rfl

theorem s_newEntry (s : St K V E) (k : K) (m : Mapped V E) : newEntry (σ.st s) (σ.key k) (σ.mapped m) = σ.entry (newEntry s k m) := rfl

theorem s_maintenance (hk : KeysOk cfg cfg' σ.key) (s : St K V E) : maintenance cfg' (σ.st s) = σ.st (maintenance cfg s) := by
  obtain ⟨hm, hw, hp, _⟩ := KeysOk_field hk
  have h : ∀ (vs : List Nat) (s : St K V E), evictAll cfg' (σ.st s) vs = σ.st (evictAll cfg s vs) := by
    intro vs
    induction vs with
    | nil => intro s; rfl
    | cons v vs ih =>
      intro s
      have h1 : (σ.st s).modify v (·.upd (if cfg'.weaken then .weaken cfg'.ptr else .markExpired)) =
          σ.st (s.modify v (·.upd (if cfg.weaken then .weaken cfg.ptr else .markExpired))) := by
        refine s_modify (fun e => e_upd (fun m => ?_) e) _ _
        rw [hw, hp]
        split
        · exact m_weaken _ _
        · exact m_markExpired _
      have h2 := ih (s.modify v (·.upd (if cfg.weaken then .weaken cfg.ptr else .markExpired)))
      simp only [evictAll, List.foldl_cons] at h2 ⊢
      rw [h1, h2]
  simp only [maintenance, hm, s_size]
  split
  · rfl
  · exact h _ _

/-! ## Operations -/

theorem r_peek (hk : KeysOk cfg cfg' σ.key) (he : σ.EnvOk env env') (k : K) (es : List (Entry K V E)) :
    peekWalk cfg' env' (σ.key k) (es.map σ.entry) = σ.look (peekWalk cfg env k es) := by
  induction es with
  | nil => rfl
  | cons e es ih =>
    have hh : cfg'.hash (σ.entry e).key = cfg.hash e.key := hk.hash _
    simp only [List.map_cons, peekWalk, hh, hk.hash, ih, e_match hk he, e_expired he]
    split
    · rfl
    · cases getIfMatching cfg env k false e <;> simp only [look] <;> first | rfl | (split <;> rfl)

theorem o_peek (hk : KeysOk cfg cfg' σ.key) (he : σ.EnvOk env env') (s : St K V E) (k : K) :
    getIfExists cfg' env' (σ.st s) (σ.key k) = σ.out (getIfExists cfg env s k) := by
  simp only [getIfExists, hk.hash, s_bucketFor, s_bucket, r_peek hk he]
  cases peekWalk cfg env k (s.bucket (s.bucketFor (cfg.hash k))) <;> rfl

theorem o_get_ (hk : KeysOk cfg cfg' σ.key) (he : σ.EnvOk env env') (s : St K V E) (k : K) (b : Bool) :
    get_ cfg' env' (σ.st s) (σ.key k) b = (σ.st (get_ cfg env s k b).1, σ.look (get_ cfg env s k b).2) := by
  obtain ⟨hm, _⟩ := KeysOk_field hk
  simp only [get_, hk.hash, s_bucketFor, s_bucket, w_get hk he, s_applyWalk hm]
  show (match (getWalk cfg env k b (s.bucket (s.bucketFor (cfg.hash k)))).hit.map (fun p => (p.1, σ.look p.2)) with | none => _ | some (id, l) => _) = _
  rcases (getWalk cfg env k b (s.bucket (s.bucketFor (cfg.hash k)))).hit with _ | ⟨i, l⟩
  · rfl
  · simp only [Option.map_some, s_onHit hk he]

theorem o_expire_ (hk : KeysOk cfg cfg' σ.key) (he : σ.EnvOk env env') (s : St K V E) (k : K) :
    expire_ cfg' env' (σ.st s) (σ.key k) = σ.st (expire_ cfg env s k) := by
  obtain ⟨hm, _⟩ := KeysOk_field hk
  simp only [expire_, hk.hash, s_bucketFor, s_bucket, w_expire hk he, s_applyWalk hm]

theorem o_clear (hk : KeysOk cfg cfg' σ.key) (s : St K V E) : clear cfg' (σ.st s) = σ.st (clear cfg s) := by
  obtain ⟨hm, _⟩ := KeysOk_field hk
  simp only [clear, s_ents, w_expireAll]
  rw [show (σ.walk (expireAllWalk s.ents)).removed = (expireAllWalk s.ents).removed.map σ.entry from rfl, ← s_dispose hm]
  congr 1
  simp only [st, List.map_map]
  congr 1
  refine List.map_congr_left (fun b _ => ?_)
  simp [w_expireAll, walk]

theorem o_tryLink (hk : KeysOk cfg cfg' σ.key) (he : σ.EnvOk env env') (s : St K V E) (e : Entry K V E) (f : Fail) :
    tryLink cfg' env' (σ.st s) (σ.entry e) f = (σ.st (tryLink cfg env s e f).1, (tryLink cfg env s e f).2) := by
  cases f with
  | none => simp only [tryLink, s_link hk he]
  | alloc => rfl
  | grow =>
    simp only [tryLink, s_beforeLink hk he, s_mustGrow hk, s_link hk he]
    split <;> rfl

theorem o_emplace (hk : KeysOk cfg cfg' σ.key) (he : σ.EnvOk env env') (s : St K V E) (k : K) (v : V) (f : Fail) :
    emplace cfg' env' (σ.st s) (σ.key k) (σ.val v) f = (σ.st (emplace cfg env s k v f).1, σ.out (emplace cfg env s k v f).2) := by
  have h1 : newEntry (σ.st (expire_ cfg env s k)) (σ.key k) (.value (σ.val v)) = σ.entry (newEntry (expire_ cfg env s k) k (.value v)) := rfl
  simp only [emplace, o_expire_ hk he, h1, o_tryLink hk he, s_maintenance hk]
  split <;> rfl

theorem o_getOrEmplace (hk : KeysOk cfg cfg' σ.key) (he : σ.EnvOk env env') (s : St K V E) (k : K) (v : V) (f : Fail) :
    getOrEmplace cfg' env' (σ.st s) (σ.key k) (σ.val v) f = (σ.st (getOrEmplace cfg env s k v f).1, σ.out (getOrEmplace cfg env s k v f).2) := by
  have h1 : ∀ t : St K V E, newEntry (σ.st t) (σ.key k) (.value (σ.val v)) = σ.entry (newEntry t k (.value v)) := fun _ => rfl
  simp only [getOrEmplace, o_get_ hk he]
  cases (get_ cfg env s k true).2 with
  | none =>
    simp only [look, h1, o_tryLink hk he, s_maintenance hk]
    split <;> rfl
  | val v' => simp only [look, s_maintenance hk]; rfl
  | err e => simp only [look, s_maintenance hk]; rfl
  | pend => simp only [look, s_maintenance hk]; rfl

theorem o_resolveSync (hk : KeysOk cfg cfg' σ.key) (he : σ.EnvOk env env') (s : St K V E) (k : K) (r : Res V E) :
    resolveSync cfg' env' (σ.st s) (σ.key k) (σ.res r) = (σ.st (resolveSync cfg env s k r).1, (resolveSync cfg env s k r).2) := by
  simp only [resolveSync, m_sync, s_newEntry, s_link hk he]
  rfl

theorem l_syncRet (l : Look V E) : syncRet (σ.look l) = σ.ret (syncRet l) := by cases l <;> rfl

theorem o_get (hk : KeysOk cfg cfg' σ.key) (he : σ.EnvOk env env') (s : St K V E) (k : K) (r : Res V E) :
    get cfg' env' (σ.st s) (σ.key k) (σ.res r) = (σ.st (get cfg env s k r).1, σ.out (get cfg env s k r).2) := by
  obtain ⟨_, _, _, _, _, _, _, hr, _⟩ := KeysOk_field hk
  simp only [get, o_get_ hk he, hr]
  cases cfg.resolver <;> cases (get_ cfg env s k false).2 <;>
    first | rfl | (simp only [look, o_resolveSync hk he, m_sync, m_get he]; refine Prod.ext rfl ?_; simp only [out, List.map_cons, List.map_nil, ← l_syncRet]; rfl)

theorem s_runCb (s : St K V E) (i : Nat) (c : Cb) : runCb (σ.st s) i (σ.cb c) = σ.st (runCb s i c) := by
  cases c with
  | user w => rfl
  | refresh o =>
    simp only [cb, runCb, s_findAny]
    have h2 : ∀ t : Option Int, ((σ.st s).modify i (fun e => { e with canTp := tpMin e.canTp (σ.tp t) })).modify o (·.upd .markExpired) =
        σ.st ((s.modify i (fun e => { e with canTp := tpMin e.canTp t })).modify o (·.upd .markExpired)) := by
      intro t
      rw [s_modify (f := fun e => { e with canTp := tpMin e.canTp t }) (fun e => ?_), s_modify (fun e => e_upd m_markExpired e)]
      show ({ σ.entry e with canTp := tpMin (σ.tp e.canTp) _ } : Entry K' V' E') = _
      rw [tpMin_tp]
      rfl
    cases s.findAny o with
    | none => exact h2 none
    | some x => exact h2 x.canTp

theorem s_runCbs (i : Nat) (cs : List Cb) : ∀ s : St K V E, runCbs (σ.st s) i (cs.map σ.cb) = σ.st (runCbs s i cs) := by
  induction cs with
  | nil => intro s; rfl
  | cons c cs ih => intro s; simpa [runCbs, s_runCb] using ih (runCb s i c)

theorem s_cbs (s : St K V E) (i : Nat) : (((σ.st s).findAny i).map (·.mapped.cbs)).getD [] = (((s.findAny i).map (·.mapped.cbs)).getD []).map σ.cb := by
  rw [s_findAny]
  cases s.findAny i with
  | none => rfl
  | some e => exact m_cbs e.mapped

theorem r_isOk (r : Res V E) : (σ.res r).isOk = r.isOk := by cases r <;> rfl

theorem o_complete (hk : KeysOk cfg cfg' σ.key) (he : σ.EnvOk env env') (s : St K V E) (t : Nat) (r : Res V E) :
    complete cfg' env' (σ.st s) t (σ.res r) = (σ.st (complete cfg env s t r).1, σ.out (complete cfg env s t r).2) := by
  obtain ⟨_, _, hp, _⟩ := KeysOk_field hk
  by_cases ho : t ∈ s.opens
  · have ho' : t ∈ (σ.st s).opens := ho
    have h0 : ({ tbl := (σ.st s).tbl, bq := (σ.st s).bq, delayQ := (σ.st s).delayQ, limbo := (σ.st s).limbo, nextId := (σ.st s).nextId, opens := (σ.st s).opens.erase t, destroyed := (σ.st s).destroyed } : St K' V' E') = σ.st { s with opens := s.opens.erase t } := rfl
    simp only [complete, if_pos ho, if_pos ho', h0, s_cbs, s_runCbs, users_cb, r_isOk]
    rw [show (σ.st s).destroyed = s.destroyed from rfl]
    split
    · rw [s_modify (fun e => e_upd m_cancel e)]
      simp [out, ret]
    · rw [s_modify (fun e => e_upd (m_completed hp r) e), s_onAssign hk he]
      simp [out, ret]
  · have ho' : ¬ t ∈ (σ.st s).opens := ho
    simp only [complete, if_neg ho, if_neg ho']
    rfl

theorem o_drop (s : St K V E) (t : Nat) : drop (σ.st s) t = (σ.st (drop s t).1, σ.out (drop s t).2) := by
  by_cases ho : t ∈ s.opens
  · have ho' : t ∈ (σ.st s).opens := ho
    have h0 : ({ tbl := (σ.st s).tbl, bq := (σ.st s).bq, delayQ := (σ.st s).delayQ, limbo := (σ.st s).limbo, nextId := (σ.st s).nextId, opens := (σ.st s).opens.erase t, destroyed := (σ.st s).destroyed } : St K' V' E') = σ.st { s with opens := s.opens.erase t } := rfl
    simp only [drop, if_pos ho, if_pos ho', h0, s_cbs, users_cb]
    rw [s_modify (fun e => e_upd m_cancel e)]
    simp [out, ret]
  · have ho' : ¬ t ∈ (σ.st s).opens := ho
    simp only [drop, if_neg ho, if_neg ho']
    rfl

theorem o_resolveAsync (hk : KeysOk cfg cfg' σ.key) (he : σ.EnvOk env env') (s : St K V E) (k : K) (b : Beh V E) :
    resolveAsync cfg' env' (σ.st s) (σ.key k) (σ.beh b) = (σ.st (resolveAsync cfg env s k b).1, (resolveAsync cfg env s k b).2) := by
  have h1 : newEntry (σ.st s) (σ.key k) (.pending {}) = σ.entry (newEntry s k (.pending {})) := rfl
  have h2 : ∀ t : St K V E, ({ tbl := (σ.st t).tbl, bq := (σ.st t).bq, delayQ := (σ.st t).delayQ, limbo := (σ.st t).limbo, nextId := (σ.st t).nextId, opens := (σ.st t).opens ++ [(σ.st s).nextId], destroyed := (σ.st t).destroyed } : St K' V' E') = σ.st { t with opens := t.opens ++ [s.nextId] } := fun _ => rfl
  simp only [resolveAsync, h1, s_link hk he, h2]
  rw [show (σ.st s).nextId = s.nextId from rfl]
  cases b with
  | later => rfl
  | now r => simp only [beh, o_complete hk he]
  | drop => simp only [beh, o_drop]

theorem o_answer (s : St K V E) (i w : Nat) (l : Look V E) : answer (σ.st s) i (σ.waiter w) (σ.look l) = (σ.st (answer s i w l).1, σ.out (answer s i w l).2) := by
  cases l with
  | pend =>
    simp only [look, answer]
    exact Prod.ext (s_modify (fun e => e_upd (m_addCb (.user w)) e) s i) rfl
  | _ => rfl

theorem o_asyncGet (hk : KeysOk cfg cfg' σ.key) (he : σ.EnvOk env env') (s : St K V E) (k : K) (w : Nat) (b : Beh V E) :
    asyncGet cfg' env' (σ.st s) (σ.key k) (σ.waiter w) (σ.beh b) = (σ.st (asyncGet cfg env s k w b).1, σ.out (asyncGet cfg env s k w b).2) := by
  simp only [asyncGet, o_get_ hk he, hk.hash, s_bucketFor, s_bucket, w_get hk he]
  show (match (getWalk cfg env k true (s.bucket (s.bucketFor (cfg.hash k)))).hit.map (fun p => (p.1, σ.look p.2)) with | some (id, l) => _ | none => _) = _
  rcases (getWalk cfg env k true (s.bucket (s.bucketFor (cfg.hash k)))).hit with _ | ⟨i, l⟩
  · simp only [Option.map_none, o_resolveAsync hk he, s_find]
    cases (resolveAsync cfg env (get_ cfg env s k true).1 k b).1.find (resolveAsync cfg env (get_ cfg env s k true).1 k b).2 with
    | none =>
      have h := o_answer (σ := σ) (resolveAsync cfg env (get_ cfg env s k true).1 k b).1 (resolveAsync cfg env (get_ cfg env s k true).1 k b).2 w Look.none
      rw [show σ.look (Look.none : Look V E) = Look.none from rfl] at h
      simp only [Option.map_none, h]
      rfl
    | some e =>
      have h : (σ.entry e).mapped.get env' true = σ.look (e.mapped.get env true) := m_get he true e.mapped
      simp only [Option.map_some, h, o_answer]
      rfl
  · simp only [Option.map_some, o_answer]

theorem o_refresh (hk : KeysOk cfg cfg' σ.key) (he : σ.EnvOk env env') (s : St K V E) (e : Entry K V E) (r : Res V E) (b : Beh V E) :
    refresh cfg' env' (σ.st s) (σ.entry e) (σ.res r) (σ.beh b) = (σ.st (refresh cfg env s e r b).1, σ.out (refresh cfg env s e r b).2) := by
  obtain ⟨_, _, _, _, _, _, _, hr, _⟩ := KeysOk_field hk
  have h1 : (if cfg'.resolver = .async then resolveAsync cfg' env' (σ.st s) (σ.entry e).key (σ.beh b) else resolveSync cfg' env' (σ.st s) (σ.entry e).key (σ.res r)) =
      (σ.st (if cfg.resolver = .async then resolveAsync cfg env s e.key b else resolveSync cfg env s e.key r).1,
        (if cfg.resolver = .async then resolveAsync cfg env s e.key b else resolveSync cfg env s e.key r).2) := by
    rw [hr]
    split
    · exact o_resolveAsync hk he s e.key b
    · exact o_resolveSync hk he s e.key r
  simp only [refresh, h1, e_expired he]
  rw [show (σ.entry e).refreshing = e.refreshing from rfl, show (σ.entry e).id = e.id from rfl, show (σ.entry e).key = σ.key e.key from rfl]
  split
  · rfl
  · rw [s_modify (f := fun x => { x with refreshing := true }) (fun _ => rfl), s_find]
    generalize (if cfg.resolver = .async then resolveAsync cfg env s e.key b else resolveSync cfg env s e.key r) = p
    cases (p.1.modify e.id (fun x => { x with refreshing := true })).find p.2 with
    | none => rfl
    | some n =>
      simp only [Option.map_some, e_isPending]
      split
      · exact Prod.ext (s_modify (fun x => e_upd (m_addCb (σ := σ) (.refresh e.id)) x) _ _) rfl
      · rw [show Cb.refresh e.id = σ.cb (.refresh e.id) from rfl, s_runCb]
        rfl

theorem o_tick (hk : KeysOk cfg cfg' σ.key) (he : σ.EnvOk env env') (s : St K V E) (r : Res V E) (b : Beh V E) :
    tick cfg' env' (σ.st s) (σ.res r) (σ.beh b) = (σ.st (tick cfg env s r b).1, σ.out (tick cfg env s r b).2) := by
  simp only [tick]
  rw [show (σ.st s).delayQ = s.delayQ from rfl]
  split
  · rfl
  · rename_i i q _
    rw [s_find]
    cases s.find i with
    | none => rfl
    | some e =>
      simp only [Option.map_some]
      have h1 : reached env'.now (σ.entry e).refTp = reached env.now e.refTp := by
        rw [he.now]
        exact reached_tp _ _
      rw [h1]
      split
      · exact o_refresh hk he { s with delayQ := q } e r b
      · rfl

theorem o_count (he : σ.EnvOk env env') (s : St K V E) : count env' (σ.st s) = count env s := by
  simp only [count, s_ents]
  rw [l_filter (p := fun e => !e.expired env) (fun e => by rw [e_expired he]), List.length_map]

theorem o_destroy (hk : KeysOk cfg cfg' σ.key) (s : St K V E) : destroy cfg' (σ.st s) = (σ.st (destroy cfg s).1, σ.out (destroy cfg s).2) := by
  obtain ⟨hm, _⟩ := KeysOk_field hk
  have h1 : ({ σ.st s with tbl := (σ.st s).tbl.map (fun _ => []) } : St K' V' E') = σ.st { s with tbl := s.tbl.map (fun _ => []) } := by
    simp [st]
  simp only [destroy, h1, s_ents, s_dispose hm]
  refine Prod.ext rfl ?_
  simp only [out, ret, List.flatMap_map, List.map_flatMap, List.map_nil]
  congr 1
  refine congrArg (fun f => s.ents.flatMap f) (funext fun e => ?_)
  show users ((σ.mapped e.mapped).cbs) = _
  rw [m_cbs, users_cb]

/-- Every operation commutes with rewriting. -/
theorem step_rename (hk : KeysOk cfg cfg' σ.key) (he : σ.EnvOk env env') (s : St K V E) (o : Op K V E) :
    step cfg' env' (σ.st s) (σ.op o) = (σ.st (step cfg env s o).1, σ.out (step cfg env s o).2) := by
  cases o with
  | getIfExists k => simp only [op, step, o_peek hk he]
  | get k r => exact o_get hk he s k r
  | asyncGet k w b => exact o_asyncGet hk he s k w b
  | emplace k v f => exact o_emplace hk he s k v f
  | getOrEmplace k v f => exact o_getOrEmplace hk he s k v f
  | erase k => simp only [op, step, erase, o_expire_ hk he]; rfl
  | clear => simp only [op, step, o_clear hk]; rfl
  | count => simp only [op, step, o_count he]; rfl
  | complete t r => exact o_complete hk he s t r
  | drop t => exact o_drop s t
  | tick r b => exact o_tick hk he s r b
  | destroy => exact o_destroy hk s

theorem run_rename (hk : KeysOk cfg cfg' σ.key) {h : Hist K V E} {h' : Hist K' V' E'} (hh : σ.HistOf h h') :
    ∀ s : St K V E, run cfg' (σ.st s) h' = (σ.st (run cfg s h).1, (run cfg s h).2.map σ.out) := by
  induction hh with
  | nil => intro s; rfl
  | cons he _ ih =>
    intro s
    simp only [run, step_rename hk he, ih, List.map_cons]

theorem st_init : σ.st (St.init : St K V E) = St.init := rfl

theorem ok_rename (hk : KeysOk cfg cfg' σ.key) (s : St K V E) (o : Op K V E) : (σ.op o).ok cfg' (σ.st s) ↔ o.ok cfg s := by
  obtain ⟨_, _, _, _, _, _, hf, hr, _⟩ := KeysOk_field hk
  cases o <;> simp [op, Op.ok, st, hf, hr]

theorem histOk_rename (hk : KeysOk cfg cfg' σ.key) {h : Hist K V E} {h' : Hist K' V' E'} (hh : σ.HistOf h h') :
    ∀ s : St K V E, HistOk cfg' (σ.st s) h' ↔ HistOk cfg s h := by
  induction hh with
  | nil => intro s; exact Iff.rfl
  | cons he _ ih =>
    intro s
    simp only [HistOk, ok_rename hk, step_rename hk he, ih]

end Renaming
end Hoard
