import Verif.Lifetime
/-! # Helper lemmas about `Verif.Lifetime` -/
namespace Hoard.Lifetime
open Threads (set)

def Pc.asOwner : Pc → Bool
  | .want _ | .inside _ | .leaving => true
  | _ => false
def Pc.calling : Pc → Bool
  | .wantCall _ _ | .inCall _ _ => true
  | _ => false
def Pc.locked : Pc → Bool
  | .inCall _ _ | .inside _ => true
  | _ => false
def Pc.orphaned : Pc → Bool
  | .orphan _ | .orphanEnd _ _ => true
  | _ => false
def Pc.destroying : Pc → Bool
  | .dtor _ | .dtorEnd _ _ _ | .joining => true
  | _ => false

structure InvA (threads : List Nat) (s : St) : Prop where
  own1 : ∀ t, (s.pc t).asOwner = true → Owner.temp t ∈ s.owners
  own2 : ∀ t, (s.pc t).calling = true → Owner.obj t ∈ s.owners
  ph : s.phase = .alive ↔ s.owners ≠ []
  mx : ∀ t, (s.pc t).locked = true ↔ s.mutex = some t
  orph : ∀ t, (s.pc t).orphaned = true → s.owners = []
  dt : ∀ t, (s.pc t).destroying = true → s.phase = .dying
  du : ∀ t u, (s.pc t).destroying = true → (s.pc u).destroying = true → t = u
  dy : s.phase = .dying → ∃ t, (s.pc t).destroying = true
  de : s.deaths = if s.owners = [] then 1 else 0
  inn : ∀ t, t ∉ threads → s.pc t = .idle

theorem InvA_init (threads : List Nat) (t : Nat) : InvA threads (init t) := by
  constructor <;> simp [init, Pc.asOwner, Pc.calling, Pc.locked, Pc.orphaned, Pc.destroying]

/-- The ways a step goes. -/
inductive Step (threads : List Nat) (worker : Option Nat) (s : St) (t : Nat) : Job → St → Prop
  | call {i w} : s.pc t = .idle → Owner.obj t ∈ s.owners →
      Step threads worker s t (.call i w) { s with pc := set s.pc t (.wantCall i w) }
  | copy {u} : s.pc t = .idle → Owner.obj t ∈ s.owners →
      Step threads worker s t (.copy u) { s with owners := .obj u :: s.owners }
  | letGo : s.pc t = .idle → Owner.obj t ∈ s.owners →
      Step threads worker s t .letGo (drop s t (.obj t))
  | orphan {i} : s.pc t = .idle → i ∈ s.handles → s.owners = [] → 
      Step threads worker s t (.deliver i) { s with handles := s.handles.erase i, pc := set s.pc t (.orphan i) }
  | deliver {i} : s.pc t = .idle → i ∈ s.handles → s.owners ≠ [] → 
      Step threads worker s t (.deliver i) { s with handles := s.handles.erase i, owners := .temp t :: s.owners, pc := set s.pc t (.want i) }
  | lockCall {i w j} : s.pc t = .wantCall i w → s.mutex = none →
      Step threads worker s t j { s with mutex := some t, pc := set s.pc t (.inCall i w) }
  | join {i w j} : s.pc t = .inCall i w → i ∈ s.ids → (s.looks i).pending = true →
      Step threads worker s t j { s with looks := set s.looks i { (s.looks i) with waiters := (s.looks i).waiters ++ [w] }, asked := s.asked ++ [w], mutex := none, pc := set s.pc t .idle }
  | hit {i w j} : s.pc t = .inCall i w → i ∈ s.ids → (s.looks i).pending = false →
      Step threads worker s t j { s with asked := s.asked ++ [w], settled := s.settled ++ [w], mutex := none, pc := set s.pc t .idle }
  | start {i w j} : s.pc t = .inCall i w → i ∉ s.ids →
      Step threads worker s t j { s with ids := i :: s.ids, looks := set s.looks i { waiters := [w] }, asked := s.asked ++ [w], handles := i :: s.handles, mutex := none, pc := set s.pc t .idle }
  | lock {i j} : s.pc t = .want i → s.mutex = none →
      Step threads worker s t j { s with mutex := some t, pc := set s.pc t (.inside i) }
  | inside {i j} : s.pc t = .inside i →
      Step threads worker s t j { s with
        looks := set s.looks i { pending := false, waiters := [] }
        settled := s.settled ++ (if (s.looks i).pending then (s.looks i).waiters else [])
        mutex := none, pc := set s.pc t .leaving }
  | leave {j} : s.pc t = .leaving → Step threads worker s t j (drop s t (.temp t))
  | orphanClear {i j} : s.pc t = .orphan i → Step threads worker s t j (clear threads s t i (.orphanEnd i))
  | orphanEnd {i ws j} : s.pc t = .orphanEnd i ws →
      Step threads worker s t j { s with looks := set s.looks i { pending := false, waiters := [] }, settled := s.settled ++ ws, pc := set s.pc t .idle }
  | dtorNil {j} : s.pc t = .dtor [] → Step threads worker s t j { s with pc := set s.pc t .joining }
  | dtorClear {i is j} : s.pc t = .dtor (i :: is) → Step threads worker s t j (clear threads s t i (.dtorEnd i · is))
  | dtorEnd {i ws is j} : s.pc t = .dtorEnd i ws is →
      Step threads worker s t j { s with looks := set s.looks i { pending := false, waiters := [] }, settled := s.settled ++ ws, pc := set s.pc t (.dtor is) }
  | joined {j} : s.pc t = .joining → worker ≠ some t → (∀ u, worker = some u → s.pc u = .idle) →
      Step threads worker s t j { s with phase := .gone, pc := set s.pc t .idle }
  | terminate {j} : s.pc t = .joining → worker = some t →
      Step threads worker s t j { s with terminated := true }

theorem step_ok {threads worker s t j s'} (h : step threads worker s t j = some s') :
    s.terminated = false ∧ t ∈ threads ∧ (s.pc t = .idle → worker = some t → s.phase = .alive) ∧ Step threads worker s t j s' := by
  unfold step at h
  split at h
  · cases h
  rename_i hc
  have h0 : s.terminated = false ∧ t ∈ threads := by
    simp at hc; exact hc
  refine ⟨h0.1, h0.2, ?_⟩
  split at h
  · rename_i hp
    split at h
    · cases h
    rename_i hw
    refine ⟨by intro _ h1; simpa [h1] using hw, ?_⟩
    split at h
    · split at h
      · cases h; exact .call hp (by simp_all)
      · cases h
    · split at h
      · cases h; exact .copy hp (by simp_all)
      · cases h
    · split at h
      · cases h; exact .letGo hp (by simp_all)
      · cases h
    · split at h
      · split at h
        · cases h; exact .orphan hp (by simp_all) ‹_›
        · cases h; exact .deliver hp (by simp_all) ‹_›
      · cases h
  all_goals (rename_i hp; refine ⟨fun h1 => (by rw [hp] at h1; cases h1), ?_⟩)
  · split at h
    · cases h; exact .lockCall hp ‹_›
    · cases h
  · split at h
    · split at h
      · cases h; exact .join hp (by simp_all) ‹_›
      · cases h; exact .hit hp (by simp_all) (by simp_all)
    · cases h; exact .start hp (by simp_all)
  · split at h
    · cases h; exact .lock hp ‹_›
    · cases h
  · cases h; exact .inside hp
  · cases h; exact .leave hp
  · cases h; exact .orphanClear hp
  · cases h; exact .orphanEnd hp
  · cases h; exact .dtorNil hp
  · cases h; exact .dtorClear hp
  · cases h; exact .dtorEnd hp
  · split at h
    · cases h; exact .joined hp (by simp) (by simp)
    · split at h
      · cases h; exact .terminate hp (by simp [*])
      · split at h
        · cases h; exact .joined hp (by simp [*]) (by simp [*])
        · cases h

theorem set_same (f : Nat → α) (t : Nat) (x : α) : set f t x t = x := by simp [Threads.set]
theorem set_other (f : Nat → α) {t u : Nat} (x : α) (h : u ≠ t) : set f t x u = f u := by simp [Threads.set, h]


theorem destroying_of {s : St} {t : Nat} (x : Pc) (hd : x.destroying = (s.pc t).destroying) (u : Nat) :
    (set s.pc t x u).destroying = (s.pc u).destroying := by
  by_cases h : u = t
  · subst h; rw [set_same, hd]
  · rw [set_other _ _ h]

theorem InvA_drop {threads s t} {o : Owner} (hi : InvA threads s) (hm : t ∈ threads) (hmem : o ∈ s.owners)
    (ho : o = .obj t ∧ s.pc t = .idle ∨ o = .temp t ∧ s.pc t = .leaving) : InvA threads (drop s t o) := by
  obtain ⟨own1, own2, ph, mx, orph, dt, du, dy, de, inn⟩ := hi
  have hne : s.owners ≠ [] := by intro h0; rw [h0] at hmem; cases hmem
  have hal := ph.2 hne
  have o1 : ∀ u, u ≠ t → Owner.obj u ∈ s.owners → Owner.obj u ∈ s.owners.erase o := by
    intro u hu h; refine (List.mem_erase_of_ne ?_).2 h
    rcases ho with ⟨rfl, -⟩ | ⟨rfl, -⟩ <;> simp [hu]
  have o2 : ∀ u, u ≠ t → Owner.temp u ∈ s.owners → Owner.temp u ∈ s.owners.erase o := by
    intro u hu h; refine (List.mem_erase_of_ne ?_).2 h
    rcases ho with ⟨rfl, -⟩ | ⟨rfl, -⟩ <;> simp [hu]
  have hnd : ∀ u, (s.pc u).destroying = false := by
    intro u; cases h : (s.pc u).destroying with
    | false => rfl
    | true => have := dt u h; rw [hal] at this; cases this
  have hno : ∀ u, (s.pc u).orphaned = false := by
    intro u; cases h : (s.pc u).orphaned with
    | false => rfl
    | true => exact absurd (orph u h) hne
  have hl : (s.pc t).locked = false := by rcases ho with ⟨-, h⟩ | ⟨-, h⟩ <;> rw [h] <;> rfl
  have hmx : s.mutex ≠ some t := by intro h; rw [(mx t).2 h] at hl; cases hl
  unfold drop
  simp only []
  by_cases he : s.owners.erase o = []
  · rw [if_pos he]
    rw [he] at o1 o2
    constructor
    case dy => intro _; exact ⟨t, by simp [set_same, Pc.destroying]⟩
    case ph => simp [he]
    case de => simp [he, de, hne]
    all_goals (intro u; by_cases hu : u = t)
    all_goals first
      | (subst hu; simp [set_same, Pc.asOwner, Pc.calling, Pc.locked, Pc.orphaned, Pc.destroying, hm, hmx]; done)
      | (simp only [set_other _ _ hu, hnd, hno]; grind)
      | skip
    · subst hu; intro v _ h; refine Classical.byContradiction fun hv => ?_
      simp only [set_other _ _ (Ne.symm hv), hnd] at h; cases h
  · rw [if_neg he]
    constructor
    case dy => simp [hal]
    case ph => simp [he, hal]
    case de => simp [he, de, hne]
    all_goals (intro u; by_cases hu : u = t)
    all_goals first
      | (subst hu; simp [set_same, Pc.asOwner, Pc.calling, Pc.locked, Pc.orphaned, Pc.destroying, hm, hmx]; done)
      | (simp only [set_other _ _ hu, hnd, hno]; grind)

theorem InvA_step {threads worker s t j s'} (hi : InvA threads s) (h : step threads worker s t j = some s') :
    InvA threads s' := by
  obtain ⟨ht, hm, -, hs⟩ := step_ok h
  cases hs with
  | letGo hp ho => exact InvA_drop hi hm ho (.inl ⟨rfl, hp⟩)
  | leave hp => exact InvA_drop hi hm (hi.own1 t (by rw [hp]; rfl)) (.inr ⟨rfl, hp⟩)
  | copy hp ho =>
    have hne : s.owners ≠ [] := by intro h0; rw [h0] at ho; cases ho
    obtain ⟨own1, own2, ph, mx, orph, dt, du, dy, de, inn⟩ := hi
    constructor <;> simp only [] <;> try assumption
    · intro u h; exact List.mem_cons_of_mem _ (own1 u h)
    · intro u h; exact List.mem_cons_of_mem _ (own2 u h)
    · simp [ph, hne]
    · intro u h; exact absurd (orph u h) hne
    · simp [de, hne]
  | terminate hp hw => obtain ⟨own1, own2, ph, mx, orph, dt, du, dy, de, inn⟩ := hi; constructor <;> assumption
  | _ => 
    obtain ⟨own1, own2, ph, mx, orph, dt, du, dy, de, inn⟩ := hi
    have w1 := own1 t; have w2 := own2 t; have w3 := mx t; have w4 := orph t; have w5 := dt t
    constructor
    case dy =>
      first
        | (intro h; cases h; done)
        | (intro hph
           obtain ⟨u, hu⟩ := dy hph
           exact ⟨u, by simp only [clear]; rw [destroying_of (s := s) _ (by simp only [*]; rfl)]; exact hu⟩)
    all_goals (simp only [clear]; first | assumption | grind [Threads.set, Pc.asOwner, Pc.calling, Pc.locked, Pc.orphaned, Pc.destroying])

/-! ### Handles and lookups -/

def Pc.delivers : Pc → Option Nat
  | .want i | .inside i | .orphan i | .orphanEnd i _ => some i
  | _ => none

structure InvB (s : St) : Prop where
  hn : s.handles.Nodup
  idn : s.ids.Nodup
  hs : ∀ i ∈ s.handles, i ∈ s.ids
  dv : ∀ t i, (s.pc t).delivers = some i → i ∉ s.handles ∧ i ∈ s.ids
  dd : ∀ t u i, (s.pc t).delivers = some i → (s.pc u).delivers = some i → t = u
  np : ∀ i, (s.looks i).pending = false → (s.looks i).waiters = []

theorem InvB_init (t : Nat) : InvB (init t) := by
  constructor <;> simp [init, Pc.delivers]

theorem InvB_step {threads worker s t j s'} (hi : InvB s) (h : step threads worker s t j = some s') :
    InvB s' := by
  obtain ⟨ht, hm, -, hs⟩ := step_ok h
  clear h
  obtain ⟨hn, idn, hsub, dv, dd, np⟩ := hi
  have hne : ∀ i, (s.handles.erase i).Nodup := fun i => hn.erase i
  have hme : ∀ i k, k ∈ s.handles.erase i ↔ k ≠ i ∧ k ∈ s.handles := fun i k => hn.mem_erase_iff
  have w1 := dv t
  cases hs with
  | letGo hp _ | leave hp =>
    simp only [drop]
    split
    all_goals
      constructor
      all_goals (simp only []; first | assumption | grind [Threads.set, Pc.delivers])
  | _ =>
    constructor
    all_goals (simp only [clear]; first | assumption | grind [Threads.set, Pc.delivers])

/-- What the destructor has left to do. -/
structure InvD (s : St) : Prop where
  d1 : ∀ t is, s.pc t = .dtor is → (∀ i ∈ is, i ∈ s.ids) ∧ ∀ i ∈ s.ids, i ∉ is → (s.looks i).waiters = []
  d2 : ∀ t i ws is, s.pc t = .dtorEnd i ws is → i ∈ s.ids ∧ (∀ i ∈ is, i ∈ s.ids) ∧ ∀ k ∈ s.ids, k ∉ i :: is → (s.looks k).waiters = []
  d3 : ∀ t, s.pc t = .joining → ∀ i ∈ s.ids, (s.looks i).waiters = []
  d4 : s.phase = .gone → ∀ i ∈ s.ids, (s.looks i).waiters = []

theorem InvD_init (t : Nat) : InvD (init t) := by
  constructor <;> simp [init]

theorem InvD_step {threads worker s t j s'} (ha : InvA threads s) (hi : InvD s) (h : step threads worker s t j = some s') :
    InvD s' := by
  obtain ⟨ht, hm, -, hs⟩ := step_ok h
  clear h
  obtain ⟨d1, d2, d3, d4⟩ := hi
  have a1 : ∀ u, (s.pc u).locked = true → s.phase = .alive := by
    intro u hu
    rw [ha.ph]
    intro h0
    cases hp : s.pc u <;> simp [hp, Pc.locked] at hu
    · have := ha.own2 u (by rw [hp]; rfl); rw [h0] at this; cases this
    · have := ha.own1 u (by rw [hp]; rfl); rw [h0] at this; cases this
  have a2 : ∀ u, (s.pc u).destroying = true → s.phase = .dying := ha.dt
  have a3 := a1 t
  have a4 := a2 t
  cases hs with
  | letGo hp _ | leave hp =>
    simp only [drop]
    split
    all_goals
      constructor
      all_goals (simp only []; first | assumption | grind [Threads.set, Pc.destroying, Pc.locked])
  | _ =>
    constructor
    all_goals (simp only [clear]; first | assumption | grind [Threads.set, Pc.destroying, Pc.locked])


/-! ### Callbacks -/

def waitingFor (s : St) (w : Nat) : Nat := (s.ids.map fun i => (s.looks i).waiters.count w).sum

theorem sum_set_out (ids : List Nat) (f : Nat → Look) (i : Nat) (l : Look) (w : Nat) (h : i ∉ ids) :
    (ids.map fun k => (set f i l k).waiters.count w).sum = (ids.map fun k => (f k).waiters.count w).sum := by
  congr 1
  apply List.map_congr_left
  intro k hk
  rw [set_other]
  intro h'; subst h'; exact h hk

theorem sum_set_in (ids : List Nat) (f : Nat → Look) (i : Nat) (l : Look) (w : Nat) (hn : ids.Nodup) (h : i ∈ ids) :
    (ids.map fun k => (set f i l k).waiters.count w).sum + (f i).waiters.count w
      = (ids.map fun k => (f k).waiters.count w).sum + l.waiters.count w := by
  induction ids with
  | nil => cases h
  | cons k ks ih =>
    obtain ⟨hk, hn⟩ := List.nodup_cons.1 hn
    by_cases hki : k = i
    · subst hki
      simp only [List.map_cons, List.sum_cons, set_same]
      rw [sum_set_out _ _ _ _ _ hk]; omega
    · have := ih hn (by simpa [Ne.symm hki] using h)
      simp only [List.map_cons, List.sum_cons, set_other _ _ hki]; omega

structure InvC (s : St) : Prop where
  uq : s.race = false → ∀ t u i, (s.pc t).clearing i = true → (s.pc u).clearing i = true → t = u
  s1 : s.race = false → ∀ t i ws, s.pc t = .orphanEnd i ws → ws = (s.looks i).waiters
  s2 : s.race = false → ∀ t i ws is, s.pc t = .dtorEnd i ws is → ws = (s.looks i).waiters
  acc : s.race = false → ∀ w, s.asked.count w = s.settled.count w + waitingFor s w

theorem InvC_init (t : Nat) : InvC (init t) := by
  constructor <;> simp [init, Pc.clearing, waitingFor]

theorem InvC_step {threads worker s t j s'} (ha : InvA threads s) (hb : InvB s) (hd : InvD s) (hi : InvC s)
    (h : step threads worker s t j = some s') : InvC s' := by
  obtain ⟨ht, hm, -, hs⟩ := step_ok h
  clear h
  obtain ⟨uq, s1, s2, acc⟩ := hi
  have a1 : ∀ u, (s.pc u).locked = true → s.phase = .alive := by
    intro u hu
    rw [ha.ph]
    intro h0
    cases hp : s.pc u <;> simp [hp, Pc.locked] at hu
    · have := ha.own2 u (by rw [hp]; rfl); rw [h0] at this; cases this
    · have := ha.own1 u (by rw [hp]; rfl); rw [h0] at this; cases this
  -- while the table is alive nobody clears a list without the lock
  have a2 : ∀ u i, (s.pc u).clearing i = true → s.phase ≠ .alive := by
    intro u i hc hal
    cases hp : s.pc u <;> simp [hp, Pc.clearing] at hc
    · exact ha.ph.1 hal (ha.orph u (by rw [hp]; rfl))
    · have := ha.dt u (by rw [hp]; rfl); rw [hal] at this; cases this
  have a3 := a1 t
  have hin := ha.inn
  have a5 : s.phase = .alive → (∀ u i ws, s.pc u ≠ .orphanEnd i ws) ∧ ∀ u i ws is, s.pc u ≠ .dtorEnd i ws is := by
    intro hal
    refine ⟨fun u i ws hp => a2 u i (by rw [hp]; simp [Pc.clearing]) hal, fun u i ws is hp => a2 u i (by rw [hp]; simp [Pc.clearing]) hal⟩
  -- the list a thread is clearing is touched by no other
  have key : ∀ i next, (∀ ws k, (next ws : Pc).clearing k = decide (k = i)) → (clear threads s t i next).race = false →
      s.race = false ∧ ∀ u, u ≠ t → (s.pc u).clearing i = false := by
    intro i next _ hr
    simp only [clear, Bool.or_eq_false_iff] at hr
    refine ⟨hr.1, fun u hu => ?_⟩
    by_cases hmu : u ∈ threads
    · have := hr.2; rw [List.any_eq_false] at this
      have := this u hmu; simpa [hu] using this
    · rw [hin u hmu]; rfl
  cases hs with
  | letGo hp _ | leave hp =>
    simp only [drop]
    split
    all_goals
      constructor
      case acc => exact acc
      all_goals (simp only []; grind [Threads.set, Pc.clearing])
  | call hp _ | copy hp _ | orphan hp _ _ | deliver hp _ _ | lockCall hp _ | lock hp _ | dtorNil hp | joined hp _ _ | terminate hp _ =>
    constructor
    case acc => exact acc
    all_goals (simp only []; grind [Threads.set, Pc.clearing])
  | @join i w' _ hp hids hpen =>
    obtain ⟨n1, n2⟩ := a5 (a3 (by rw [hp]; rfl))
    constructor
    case acc =>
      intro hr w
      have h1 := sum_set_in s.ids s.looks i { (s.looks i) with waiters := (s.looks i).waiters ++ [w'] } w hb.idn hids
      have h2 := acc hr w
      simp only [waitingFor, List.count_append] at *
      omega
    all_goals (simp only []; grind [Threads.set, Pc.clearing])
  | hit hp hids hpen =>
    constructor
    case acc =>
      intro hr w
      have h2 := acc hr w
      simp only [waitingFor, List.count_append] at *
      omega
    all_goals (simp only []; grind [Threads.set, Pc.clearing])
  | @start i w' _ hp hids =>
    obtain ⟨n1, n2⟩ := a5 (a3 (by rw [hp]; rfl))
    constructor
    case acc =>
      intro hr w
      have h2 := acc hr w
      have h1 := sum_set_out s.ids s.looks i { waiters := [w'] } w hids
      simp only [waitingFor, List.count_append, List.map_cons, List.sum_cons, set_same] at *
      omega
    all_goals (simp only []; grind [Threads.set, Pc.clearing])
  | @inside i _ hp =>
    obtain ⟨n1, n2⟩ := a5 (a3 (by rw [hp]; rfl))
    constructor
    case acc =>
      intro hr w
      have h1 := sum_set_in s.ids s.looks i { pending := false, waiters := [] } w hb.idn (hb.dv t i (by rw [hp]; rfl)).2
      have h2 := acc hr w
      have h3 : (if (s.looks i).pending = true then (s.looks i).waiters else []) = (s.looks i).waiters := by
        split
        · rfl
        · exact (hb.np i (by simp_all)).symm
      simp only [waitingFor, List.count_append, h3, List.count_nil] at *
      omega
    all_goals (simp only []; grind [Threads.set, Pc.clearing])
  | @orphanClear i _ hp =>
    have h3 : (if (s.looks i).pending = true then (s.looks i).waiters else []) = (s.looks i).waiters := by
      split
      · rfl
      · exact (hb.np i (by simp_all)).symm
    have hk := key i (.orphanEnd i) (by intro _ _; rfl)
    constructor
    case acc => intro hr w; exact acc (hk hr).1 w
    all_goals (intro hr; obtain ⟨hr1, hr2⟩ := hk hr; simp only [clear, h3]; grind [Threads.set, Pc.clearing])
  | @dtorClear i is _ hp =>
    have h3 : (if (s.looks i).pending = true then (s.looks i).waiters else []) = (s.looks i).waiters := by
      split
      · rfl
      · exact (hb.np i (by simp_all)).symm
    have hk := key i (.dtorEnd i · is) (by intro _ _; rfl)
    constructor
    case acc => intro hr w; exact acc (hk hr).1 w
    all_goals (intro hr; obtain ⟨hr1, hr2⟩ := hk hr; simp only [clear, h3]; grind [Threads.set, Pc.clearing])
  | @orphanEnd i ws _ hp =>
    constructor
    case acc =>
      intro hr w
      have h1 := sum_set_in s.ids s.looks i { pending := false, waiters := [] } w hb.idn (hb.dv t i (by rw [hp]; rfl)).2
      have h2 := acc hr w
      have h3 := s1 hr t i ws hp
      simp only [waitingFor, List.count_append, List.count_nil, h3] at *
      omega
    all_goals
      intro hr
      have u1 : ∀ u ws, s.pc u = .orphanEnd i ws → t = u := fun u ws h => uq hr t u i (by rw [hp]; simp [Pc.clearing]) (by rw [h]; simp [Pc.clearing])
      have u2 : ∀ u ws is, s.pc u = .dtorEnd i ws is → t = u := fun u ws is h => uq hr t u i (by rw [hp]; simp [Pc.clearing]) (by rw [h]; simp [Pc.clearing])
      have u3 := uq hr
      simp only []
      grind [Threads.set, Pc.clearing]
  | @dtorEnd i ws is _ hp =>
    constructor
    case acc =>
      intro hr w
      have h1 := sum_set_in s.ids s.looks i { pending := false, waiters := [] } w hb.idn (hd.d2 t i ws is hp).1
      have h2 := acc hr w
      have h3 := s2 hr t i ws is hp
      simp only [waitingFor, List.count_append, List.count_nil, h3] at *
      omega
    all_goals
      intro hr
      have u1 : ∀ u ws, s.pc u = .orphanEnd i ws → t = u := fun u ws h => uq hr t u i (by rw [hp]; simp [Pc.clearing]) (by rw [h]; simp [Pc.clearing])
      have u2 : ∀ u ws is, s.pc u = .dtorEnd i ws is → t = u := fun u ws is h => uq hr t u i (by rw [hp]; simp [Pc.clearing]) (by rw [h]; simp [Pc.clearing])
      have u3 := uq hr
      simp only []
      grind [Threads.set, Pc.clearing]

/-! ### Runs -/

structure Inv (threads : List Nat) (s : St) : Prop where
  a : InvA threads s
  b : InvB s
  c : InvC s
  d : InvD s

theorem Inv_init (threads : List Nat) (t : Nat) : Inv threads (init t) :=
  ⟨InvA_init threads t, InvB_init t, InvC_init t, InvD_init t⟩

theorem Inv_step {threads worker s t j s'} (hi : Inv threads s) (h : step threads worker s t j = some s') : Inv threads s' :=
  ⟨InvA_step hi.a h, InvB_step hi.b h, InvC_step hi.a hi.b hi.d hi.c h, InvD_step hi.a hi.d h⟩

theorem Inv_exec {threads worker ts s s'} (hi : Inv threads s) (h : exec threads worker s ts = some s') : Inv threads s' := by
  induction ts generalizing s with
  | nil => cases h; exact hi
  | cons x ts ih =>
    obtain ⟨t, j⟩ := x
    simp only [exec] at h
    split at h
    · exact ih (Inv_step hi ‹_›) h
    · cases h

theorem phase_of_clear (threads s t i next) : (clear threads s t i next).phase = s.phase := rfl

/-- While no handle is used during the destruction. -/
structure InvQ (s : St) : Prop where
  q1 : ∀ t, (s.pc t).orphaned = true → s.phase = .gone
  q2 : s.race = false

theorem InvQ_init (t : Nat) : InvQ (init t) := by
  constructor <;> simp [init, Pc.orphaned]

theorem orphaned_of {s : St} {t : Nat} (x : Pc) (hd : x.orphaned = (s.pc t).orphaned) (u : Nat) :
    (set s.pc t x u).orphaned = (s.pc u).orphaned := by
  by_cases h : u = t
  · subst h; rw [set_same, hd]
  · rw [set_other _ _ h]

theorem InvQ_step {threads worker s t j s'} (ha : InvA threads s) (hb : InvB s) (hi : InvQ s)
    (hc : s.phase = .dying → ∀ i, j = .deliver i → s.pc t ≠ .idle)
    (h : step threads worker s t j = some s') : InvQ s' := by
  obtain ⟨ht, hm, -, hs⟩ := step_ok h
  clear h
  obtain ⟨q1, q2⟩ := hi
  have hal : ∀ u, (s.pc u).orphaned = true → s.owners = [] := ha.orph
  cases hs with
  | letGo hp ho | leave hp =>
    have hno : ∀ u, (s.pc u).orphaned = false := by
      intro u
      cases hu : (s.pc u).orphaned with
      | false => rfl
      | true =>
        have h0 := ha.orph u hu
        first
          | (rw [h0] at ho; cases ho)
          | (have := ha.own1 t (by rw [hp]; rfl); rw [h0] at this; cases this)
    simp only [drop]
    split
    all_goals
      refine ⟨fun u hu => ?_, q2⟩
      simp only at hu
      rw [orphaned_of (s := s) _ (by first | (rw [hp]; done) | (rw [hp]; rfl)), hno] at hu
      cases hu
  | orphan hp hh ho =>
    refine ⟨fun u hu => ?_, q2⟩
    cases hph : s.phase with
    | alive => exact absurd ho (ha.ph.1 hph)
    | dying => exact absurd hp (hc hph _ rfl)
    | gone => rfl
  | copy hp ho => exact ⟨q1, q2⟩
  | terminate hp ho => exact ⟨q1, q2⟩
  | joined hp _ _ =>
    refine ⟨fun u hu => rfl, q2⟩
  | orphanClear hp =>
    rename_i i
    have hg := q1 t (by rw [hp]; rfl)
    refine ⟨fun u hu => hg, ?_⟩
    simp only [clear, q2, Bool.false_or]
    rw [List.any_eq_false]
    intro u _ hu
    simp only [ne_eq, decide_not, Bool.and_eq_true, Bool.not_eq_eq_eq_not, Bool.not_true, decide_eq_false_iff_not] at hu
    obtain ⟨hut, hcl⟩ := hu
    cases hpu : s.pc u <;> simp [hpu, Pc.clearing] at hcl
    · subst hcl
      exact hut (hb.dd u t i (by rw [hpu]; rfl) (by rw [hp]; rfl))
    · have := ha.dt u (by rw [hpu]; rfl); rw [hg] at this; cases this
  | dtorClear hp =>
    rename_i i is
    have hg := ha.dt t (by rw [hp]; rfl)
    refine ⟨fun u hu => ?_, ?_⟩
    · simp only [clear] at hu
      rw [orphaned_of (s := s) _ (by rw [hp]; rfl)] at hu
      exact q1 u hu
    simp only [clear, q2, Bool.false_or]
    rw [List.any_eq_false]
    intro u _ hu
    simp only [ne_eq, decide_not, Bool.and_eq_true, Bool.not_eq_eq_eq_not, Bool.not_true, decide_eq_false_iff_not] at hu
    obtain ⟨hut, hcl⟩ := hu
    cases hpu : s.pc u <;> simp [hpu, Pc.clearing] at hcl
    · have := q1 u (by rw [hpu]; rfl); rw [hg] at this; cases this
    · exact hut (ha.du u t (by rw [hpu]; rfl) (by rw [hp]; rfl))
  | orphanEnd hp =>
    have hg := q1 t (by rw [hp]; rfl)
    exact ⟨fun u hu => hg, q2⟩
  | call hp _ | deliver hp _ _ | lockCall hp _ | join hp _ _ | hit hp _ _ | start hp _ | lock hp _ | inside hp | dtorNil hp | dtorEnd hp =>
    refine ⟨fun u hu => ?_, q2⟩
    simp only at hu
    rw [orphaned_of (s := s) _ (by rw [hp]; rfl)] at hu
    exact q1 u hu

/-! ### Finishing -/

def Pc.cost : Pc → Nat
  | .idle => 0
  | .wantCall _ _ => 4
  | .inCall _ _ => 3
  | .want _ => 3
  | .inside _ => 2
  | .leaving => 1
  | .orphan _ => 2
  | .orphanEnd _ _ => 1
  | .dtor is => 2 * is.length + 2
  | .dtorEnd _ _ is => 2 * is.length + 3
  | .joining => 1

def pcSum (threads : List Nat) (pc : Nat → Pc) : Nat := (threads.map fun t => (pc t).cost).sum

def cost (threads : List Nat) (s : St) : Nat :=
  if s.terminated then 0 else
  pcSum threads s.pc + if s.phase = .alive then 2 * s.ids.length + 2 else 0

theorem pcSum_set {threads : List Nat} (hn : threads.Nodup) (pc : Nat → Pc) {t : Nat} (ht : t ∈ threads) (x : Pc) :
    pcSum threads (set pc t x) + (pc t).cost = pcSum threads pc + x.cost := by
  unfold pcSum
  induction threads with
  | nil => cases ht
  | cons k ks ih =>
    obtain ⟨hk, hn⟩ := List.nodup_cons.1 hn
    by_cases hkt : k = t
    · subst hkt
      have : (ks.map fun u => (set pc k x u).cost) = ks.map fun u => (pc u).cost := by
        apply List.map_congr_left
        intro u hu
        rw [set_other]
        intro h; subst h; exact hk hu
      simp only [List.map_cons, List.sum_cons, set_same, this]; omega
    · have := ih hn (by simpa [Ne.symm hkt] using ht)
      simp only [List.map_cons, List.sum_cons, set_other _ _ hkt]; omega

theorem cost_step {threads worker s t j s'} (hn : threads.Nodup) (ha : InvA threads s) (hni : s.pc t ≠ .idle)
    (h : step threads worker s t j = some s') : cost threads s' < cost threads s := by
  obtain ⟨ht, hm, -, hs⟩ := step_ok h
  clear h
  have hps := fun x => pcSum_set hn s.pc hm x
  have hpos : 0 < (s.pc t).cost := by cases hp : s.pc t <;> simp [hp, Pc.cost] at hni ⊢
  have hle : (s.pc t).cost ≤ pcSum threads s.pc := by have := hps .idle; rw [show Pc.idle.cost = 0 from rfl] at this; omega
  cases hs with
  | letGo hp _ | call hp _ | copy hp _ | orphan hp _ _ | deliver hp _ _ => exact absurd hp hni
  | leave hp =>
    have hal : s.phase = .alive := ha.ph.2 (by intro h0; have := ha.own1 t (by rw [hp]; rfl); rw [h0] at this; cases this)
    simp only [drop]
    split
    · have := hps (.dtor s.ids); simp only [hp, Pc.cost] at this
      simp [cost, ht, hal]; omega
    · have := hps .idle; simp only [hp, Pc.cost] at this
      simp [cost, ht, hal]; omega
  | terminate hp _ =>
    simp only [cost, ht]; simp; omega
  | joined hp _ _ =>
    have := hps .idle; simp only [hp, Pc.cost] at this
    simp only [cost, ht]; simp; omega
  | start hp _ =>
    have := hps .idle; simp only [hp, Pc.cost] at this
    simp only [cost, ht]; simp; split <;> omega
  | orphanClear hp =>
    rename_i i
    have := hps (.orphanEnd i (if (s.looks i).pending then (s.looks i).waiters else [])); simp only [hp, Pc.cost] at this
    simp only [cost, clear, ht]; simp; omega
  | dtorClear hp =>
    rename_i i is
    have := hps (.dtorEnd i (if (s.looks i).pending then (s.looks i).waiters else []) is)
    simp only [hp, Pc.cost, List.length_cons] at this
    simp only [cost, clear, ht]; simp; omega
  | dtorEnd hp =>
    rename_i i ws is
    have := hps (.dtor is); simp only [hp, Pc.cost] at this
    simp only [cost, ht]; simp; omega
  | @lockCall i w _ hp _ => have := hps (.inCall i w); simp only [hp, Pc.cost] at this; simp only [cost, ht]; simp; omega
  | join hp _ _ | hit hp _ _ | orphanEnd hp => have := hps .idle; simp only [hp, Pc.cost] at this; simp only [cost, ht]; simp; omega
  | @lock i _ hp _ => have := hps (.inside i); simp only [hp, Pc.cost] at this; simp only [cost, ht]; simp; omega
  | inside hp => have := hps .leaving; simp only [hp, Pc.cost] at this; simp only [cost, ht]; simp; omega
  | dtorNil hp => have := hps .joining; simp only [hp, Pc.cost, List.length_nil] at this; simp only [cost, ht]; simp; omega

theorem locked_steps {threads worker s u} (ht : s.terminated = false) (hm : u ∈ threads) (hl : (s.pc u).locked = true) (j : Job) :
    (step threads worker s u j).isSome = true := by
  unfold step
  have : (s.terminated || !threads.contains u) = false := by simp [ht, hm]
  rw [this]
  cases hp : s.pc u <;> simp [hp, Pc.locked] at hl
  · simp only [Bool.false_eq_true, if_false]
    split
    · split <;> rfl
    · rfl
  · rfl

/-- Somebody who has begun something can go on. -/
theorem someone_steps {threads worker s} (ha : InvA threads s) (ht : s.terminated = false) {t : Nat} (hni : s.pc t ≠ .idle) :
    ∃ u, s.pc u ≠ .idle ∧ ∀ j, (step threads worker s u j).isSome = true := by
  have hin : ∀ u, s.pc u ≠ .idle → u ∈ threads := fun u hu => Classical.byContradiction fun h => hu (ha.inn u h)
  have hc : ∀ u, s.pc u ≠ .idle → (s.terminated || !threads.contains u) = false := fun u hu => by simp [ht, hin u hu]
  have hmut : ∀ u, s.mutex = some u → ∃ u, s.pc u ≠ .idle ∧ ∀ j, (step threads worker s u j).isSome = true := by
    intro u hu
    have hl := (ha.mx u).2 hu
    have hne : s.pc u ≠ .idle := by intro h; rw [h] at hl; cases hl
    exact ⟨u, hne, locked_steps ht (hin u hne) hl⟩
  cases hp : s.pc t with
  | idle => exact absurd hp hni
  | wantCall i w =>
    cases hm : s.mutex with
    | none => exact ⟨t, hni, fun j => by unfold step; rw [hc t hni]; simp [hp, hm]⟩
    | some u => exact hmut u hm
  | want i =>
    cases hm : s.mutex with
    | none => exact ⟨t, hni, fun j => by unfold step; rw [hc t hni]; simp [hp, hm]⟩
    | some u => exact hmut u hm
  | inCall i w => exact ⟨t, hni, locked_steps ht (hin t hni) (by rw [hp]; rfl)⟩
  | inside i => exact ⟨t, hni, locked_steps ht (hin t hni) (by rw [hp]; rfl)⟩
  | leaving => exact ⟨t, hni, fun j => by unfold step; rw [hc t hni]; simp [hp]⟩
  | orphan i => exact ⟨t, hni, fun j => by unfold step; rw [hc t hni]; simp [hp]⟩
  | orphanEnd i ws => exact ⟨t, hni, fun j => by unfold step; rw [hc t hni]; simp [hp]⟩
  | dtor is => exact ⟨t, hni, fun j => by unfold step; rw [hc t hni]; cases is <;> simp [hp]⟩
  | dtorEnd i ws is => exact ⟨t, hni, fun j => by unfold step; rw [hc t hni]; simp [hp]⟩
  | joining =>
    cases hw : worker with
    | none => exact ⟨t, hni, fun j => by unfold step; rw [hc t hni]; simp [hp]⟩
    | some u =>
      by_cases hut : u = t
      · exact ⟨t, hni, fun j => by unfold step; rw [hc t hni]; simp [hp, hut]⟩
      by_cases hui : s.pc u = .idle
      · exact ⟨t, hni, fun j => by unfold step; rw [hc t hni]; simp [hp, hut, hui]⟩
      have hdy : s.phase = .dying := ha.dt t (by rw [hp]; rfl)
      have h0 : s.owners = [] := Classical.byContradiction fun h => by have := ha.ph.2 h; rw [hdy] at this; cases this
      refine ⟨u, hui, fun j => ?_⟩
      unfold step; rw [hc u hui]
      cases hpu : s.pc u with
      | idle => exact absurd hpu hui
      | wantCall i w => have := ha.own2 u (by rw [hpu]; rfl); rw [h0] at this; cases this
      | inCall i w => have := ha.own2 u (by rw [hpu]; rfl); rw [h0] at this; cases this
      | want i => have := ha.own1 u (by rw [hpu]; rfl); rw [h0] at this; cases this
      | inside i => have := ha.own1 u (by rw [hpu]; rfl); rw [h0] at this; cases this
      | leaving => have := ha.own1 u (by rw [hpu]; rfl); rw [h0] at this; cases this
      | orphan i => simp
      | orphanEnd i ws => simp
      | dtor is => exact absurd (ha.du u t (by rw [hpu]; rfl) (by rw [hp]; rfl)) hut
      | dtorEnd i ws is => exact absurd (ha.du u t (by rw [hpu]; rfl) (by rw [hp]; rfl)) hut
      | joining => exact absurd (ha.du u t (by rw [hpu]; rfl) (by rw [hp]; rfl)) hut


/-- A worker that owns nothing is never asked to join itself. -/
structure InvW (w : Nat) (s : St) : Prop where
  w1 : s.pc w = .idle
  w2 : Owner.obj w ∉ s.owners
  w3 : s.terminated = false

theorem InvW_step {threads s t j s'} {w : Nat} (hi : InvW w s) (h1 : ∀ i, (t, j) ≠ (w, .deliver i)) (h2 : j ≠ .copy w)
    (h : step threads (some w) s t j = some s') : InvW w s' := by
  obtain ⟨ht, hm, -, hs⟩ := step_ok h
  clear h
  obtain ⟨w1, w2, w3⟩ := hi
  have htw : t ≠ w := by
    intro htw; subst htw
    cases hs with
    | call _ ho | copy _ ho | letGo _ ho => exact w2 ho
    | @orphan i | @deliver i => exact h1 i rfl
    | _ => simp_all
  have hst : ∀ x, set s.pc t x w = .idle := fun x => by rw [set_other _ _ (Ne.symm htw), w1]
  have her : ∀ o, Owner.obj w ∉ s.owners.erase o := fun o h => w2 (List.mem_of_mem_erase h)
  cases hs with
  | letGo hp _ | leave hp => 
    simp only [drop]
    split <;> exact ⟨hst _, her _, w3⟩
  | copy hp ho =>
    refine ⟨w1, ?_, w3⟩
    simp only [List.mem_cons, not_or]
    refine ⟨fun h => h2 ?_, w2⟩
    cases h; rfl
  | deliver => exact ⟨hst _, by simp [w2], w3⟩
  | terminate hp hw => cases hw; exact absurd rfl htw
  | _ => exact ⟨hst _, w2, w3⟩

theorem InvW_exec {threads ts s s'} {w : Nat} (hi : InvW w s) (h1 : ∀ i, (w, Job.deliver i) ∉ ts) (h2 : ∀ t, (t, Job.copy w) ∉ ts)
    (h : exec threads (some w) s ts = some s') : InvW w s' := by
  induction ts generalizing s with
  | nil => cases h; exact hi
  | cons x ts ih =>
    obtain ⟨t, j⟩ := x
    simp only [exec] at h
    split at h
    · refine ih (InvW_step hi ?_ ?_ ‹_›) (fun i hm => h1 i (List.mem_cons_of_mem _ hm)) (fun t hm => h2 t (List.mem_cons_of_mem _ hm)) h
      · intro i he; exact h1 i (by rw [he]; exact List.mem_cons_self)
      · intro he; exact h2 t (by rw [he]; exact List.mem_cons_self)
    · cases h

end Hoard.Lifetime
