import Verif.AsyncLemmas
/-! Accounting of waiters along histories. -/
namespace Hoard
open Spec
variable {K V E : Type} {cfg : Cfg K} {M : Md V} {L L' : Ledger K V} {s s' : St K V E}

/-- The callback `w` waits for a lookup whose handle was thrown away by the resolver while it was being called. -/
def Lost (cfg : Cfg K) (h : Hist K V E) (w : Nat) : Prop :=
  ∃ h1 e1 k h2, h = h1 ++ (e1, .asyncGet k w .drop) :: h2 ∧ (outAt cfg h1 e1 (.asyncGet k w .drop)).calls ≠ []

theorem Lost.snoc {h : Hist K V E} {w : Nat} (hl : Lost cfg h w) (p : Env V × Op K V E) : Lost cfg (h ++ [p]) w := by
  obtain ⟨h1, e1, k, h2, rfl, hc⟩ := hl
  exact ⟨h1, e1, k, h2 ++ [p], by simp, hc⟩

theorem asked_one_ne (o : Op K V E) (e : Env V) (h : ∀ k w b, o ≠ .asyncGet k w b) : asked [(e, o)] = [] := by
  cases o <;> first | rfl | exact absurd rfl (h _ _ _)

/-- The accounts: `W` asked, `F` answered, `B` dropped, `wait` who waits for which lookup, `Lo` the lost ones. -/
structure Acc (W F B : List Nat) (wait : Nat → List Nat) (opens : List Nat) (n : Nat) (des : Bool) (Lo : Nat → Prop) : Prop where
  fw : ∀ w ∈ F, w ∈ W
  tw : ∀ t, ∀ w ∈ wait t, w ∈ W
  fN : F.Nodup
  tN : ∀ t, (wait t).Nodup
  td : ∀ t u, ∀ w ∈ wait t, w ∈ wait u → t = u
  tf : ∀ t ∈ opens, ∀ w ∈ wait t, w ∉ F
  bw : des = false → ∀ w ∈ B, w ∈ W
  bN : des = false → B.Nodup
  bf : des = false → ∀ w ∈ B, w ∉ F
  tb : des = false → ∀ t ∈ opens, ∀ w ∈ wait t, w ∉ B
  all : ∀ w ∈ W, w ∈ F ∨ w ∈ B ∨ Lo w ∨ des = false ∧ ∃ t ∈ opens, w ∈ wait t
  lt : ∀ t ∈ opens, t < n
  wl : ∀ t, n ≤ t → wait t = []

theorem nodup_app {l m : List Nat} (h1 : l.Nodup) (h2 : m.Nodup) (h3 : ∀ a ∈ l, a ∉ m) : (l ++ m).Nodup :=
  List.nodup_append.2 ⟨h1, h2, fun a ha b hb h => h3 a ha (h ▸ hb)⟩

theorem Acc.step {W F B : List Nat} {wait wait' : Nat → List Nat} {opens opens' : List Nat} {n n' : Nat} {des des' : Bool} {Lo Lo' : Nat → Prop}
    (A : Acc W F B wait opens n des Lo) {o : Op K V E} {out : Out K V E} {e : Env V}
    (S : WStep wait n des opens o out wait' opens') (hN : (W ++ asked [(e, o)]).Nodup) (hle : n ≤ n')
    (hop : ∀ t ∈ opens', t ∈ opens ∨ (t = n ∧ n < n')) (hlo : ∀ w, Lo w → Lo' w)
    (hlo2 : ∀ k w, o = .asyncGet k w .drop → out.calls ≠ [] → Lo' w) (hd : des' = false → des = false ∧ o ≠ .destroy)
    (hd2 : o ≠ .destroy → des' = des) (hwl : ∀ t, n' ≤ t → wait' t = [])
    (hds : ∀ k w b, o = .asyncGet k w b → des = false) :
    Acc (W ++ asked [(e, o)]) (F ++ out.fired.map (·.1)) (B ++ out.broken) wait' opens' n' des' Lo' := by
  have hlt : ∀ t ∈ opens', t < n' := by
    intro t ht
    rcases hop t ht with h1 | ⟨h1, h2⟩
    · exact Nat.lt_of_lt_of_le (A.lt t h1) hle
    · omega
  obtain ⟨hN1, _, hN3⟩ := List.nodup_append.1 hN
  have wn := A.wl n (Nat.le_refl _)
  obtain ⟨fw, tw, fN, tN, td, tf, bw, bN, bf, tb, all, lt, wl⟩ := A
  have tf' : ∀ t ∈ opens', ∀ w ∈ wait t, w ∉ F := by
    intro t ht w hw
    rcases hop t ht with h1 | ⟨h1, h2⟩
    · exact tf t h1 w hw
    · rw [h1, wn] at hw; cases hw
  have tb' : des' = false → ∀ t ∈ opens', ∀ w ∈ wait t, w ∉ B := by
    intro hdd t ht w hw
    rcases hop t ht with h1 | ⟨h1, h2⟩
    · exact tb (hd hdd).1 t h1 w hw
    · rw [h1, wn] at hw; cases hw
  cases S with
  | quiet ho hde hf hb hw hp =>
    subst hw
    rw [asked_one_ne o e ho, hf, hb]
    simp only [List.append_nil, List.map_nil]
    refine ⟨fw, tw, fN, tN, td, tf', fun h => bw (hd h).1, fun h => bN (hd h).1, fun h => bf (hd h).1, tb', ?_, hlt, hwl⟩
    intro w hw
    rcases all w hw with h | h | h | ⟨h, t, ht, htw⟩
    · exact .inl h
    · exact .inr (.inl h)
    · exact .inr (.inr (.inl (hlo w h)))
    · rcases hp t ht with h1 | h1
      · exact .inr (.inr (.inr ⟨(hd2 hde).trans h, t, h1, htw⟩))
      · rw [h] at h1; cases h1
  | now k w b r ho hf hb hw hp =>
    subst hw; subst ho
    rw [hf, hb]
    simp only [asked, List.append_nil, List.map_cons, List.map_nil] at hN3 ⊢
    have hwW : w ∉ W := fun h => hN3 w h w (by simp) rfl
    refine ⟨?_, ?_, nodup_app fN (by simp) ?_, tN, td, ?_, ?_, fun h => bN (hd h).1, ?_, tb', ?_, hlt, hwl⟩
    all_goals grind
  | join k w b t ho hf hb hcc hw ht hp =>
    subst hw; subst ho
    have hds := hds _ _ _ rfl
    rw [hf, hb]
    simp only [asked, List.append_nil, List.map_nil] at hN3 ⊢
    have hwW : w ∉ W := fun h => hN3 w h w (by simp) rfl
    have mem : ∀ u x, (x ∈ if u = t then wait u ++ [w] else wait u) ↔ x ∈ wait u ∨ (u = t ∧ x = w) := by
      intro u x; split <;> simp [*]
    refine ⟨fun x hx => by simp [fw x hx], ?_, fN, ?_, ?_, ?_, fun h x hx => by simp [bw (hd h).1 x hx], fun h => bN (hd h).1, fun h => bf (hd h).1, ?_, ?_, hlt, hwl⟩
    · intro u x hx
      rcases (mem u x).1 hx with h | ⟨_, rfl⟩
      · simp [tw u x h]
      · simp
    · intro u
      split
      · exact nodup_app (tN u) (by simp) (fun a ha hb => by simp at hb; subst hb; exact hwW (tw u _ ha))
      · exact tN u
    · intro u u' x hx hx'
      rcases (mem u x).1 hx with h | ⟨h, rfl⟩ <;> rcases (mem u' x).1 hx' with h' | ⟨h', h''⟩
      · exact td u u' x h h'
      · subst h''; exact absurd (tw u _ h) hwW
      · exact absurd (tw u' _ h') hwW
      · rw [h, h']
    · intro u hu x hx
      rcases (mem u x).1 hx with h | ⟨h, rfl⟩
      · exact tf' u hu x h
      · exact fun hf => hwW (fw _ hf)
    · intro hdd u hu x hx
      rcases (mem u x).1 hx with h | ⟨h, rfl⟩
      · exact tb' hdd u hu x h
      · exact fun hf => hwW (bw (hd hdd).1 _ hf)
    · have hdd := hd2 (by simp)
      intro x hx
      rcases List.mem_append.1 hx with hx | hx
      · rcases all x hx with h | h | h | ⟨h, u, hu, hux⟩
        · exact .inl h
        · exact .inr (.inl h)
        · exact .inr (.inr (.inl (hlo x h)))
        · exact .inr (.inr (.inr ⟨hdd.trans h, u, hp u hu, (mem u x).2 (.inl hux)⟩))
      · simp only [List.mem_singleton] at hx; subst hx
        exact .inr (.inr (.inr ⟨hdd.trans (hds _ _ _ rfl), t, hp t ht, (mem t x).2 (.inr ⟨rfl, rfl⟩)⟩))
  | start k w b ho hf hb hcc hw hp hb' =>
    subst hw; subst ho
    have hds := hds _ _ _ rfl
    rw [hf, hb]
    simp only [asked, List.append_nil, List.map_nil] at hN3 ⊢
    have hwW : w ∉ W := fun h => hN3 w h w (by simp) rfl
    have mem : ∀ u x, (x ∈ if u = n then wait u ++ [w] else wait u) ↔ x ∈ wait u ∨ (u = n ∧ x = w) := by
      intro u x; split <;> simp [*]
    refine ⟨fun x hx => by simp [fw x hx], ?_, fN, ?_, ?_, ?_, fun h x hx => by simp [bw (hd h).1 x hx], fun h => bN (hd h).1, fun h => bf (hd h).1, ?_, ?_, hlt, hwl⟩
    · intro u x hx
      rcases (mem u x).1 hx with h | ⟨_, rfl⟩
      · simp [tw u x h]
      · simp
    · intro u
      split
      · exact nodup_app (tN u) (by simp) (fun a ha hb => by simp at hb; subst hb; exact hwW (tw u _ ha))
      · exact tN u
    · intro u u' x hx hx'
      rcases (mem u x).1 hx with h | ⟨h, rfl⟩ <;> rcases (mem u' x).1 hx' with h' | ⟨h', h''⟩
      · exact td u u' x h h'
      · subst h''; exact absurd (tw u _ h) hwW
      · exact absurd (tw u' _ h') hwW
      · rw [h, h']
    · intro u hu x hx
      rcases (mem u x).1 hx with h | ⟨h, rfl⟩
      · exact tf' u hu x h
      · exact fun hf => hwW (fw _ hf)
    · intro hdd u hu x hx
      rcases (mem u x).1 hx with h | ⟨h, rfl⟩
      · exact tb' hdd u hu x h
      · exact fun hf => hwW (bw (hd hdd).1 _ hf)
    · have hdd := hd2 (by simp)
      intro x hx
      rcases List.mem_append.1 hx with hx | hx
      · rcases all x hx with h | h | h | ⟨h, u, hu, hux⟩
        · exact .inl h
        · exact .inr (.inl h)
        · exact .inr (.inr (.inl (hlo x h)))
        · exact .inr (.inr (.inr ⟨hdd.trans h, u, hp u hu, (mem u x).2 (.inl hux)⟩))
      · simp only [List.mem_singleton] at hx; subst hx
        rcases hb' with ⟨rfl, h⟩ | ⟨rfl, h⟩
        · exact .inr (.inr (.inr ⟨hdd.trans (hds _ _ _ rfl), n, h, (mem n x).2 (.inr ⟨rfl, rfl⟩)⟩))
        · exact .inr (.inr (.inl (hlo2 k x rfl (by rw [hcc]; simp))))
  | done t r ho ht hdd hf hb hw hp hn =>
    subst hw; subst ho
    rw [hf, hb]
    have hm : List.map (fun x : Nat × Res V E => x.1) ((wait' t).map (fun u => (u, r))) = wait' t := by simp [List.map_map, Function.comp_def]
    simp only [asked, List.append_nil, hm] at hN3 ⊢
    refine ⟨?_, tw, nodup_app fN (tN t) ?_, tN, td, ?_, fun h => bw (hd h).1, fun h => bN (hd h).1, ?_, tb', ?_, hlt, hwl⟩
    · intro x hx
      rcases List.mem_append.1 hx with hx | hx
      · exact fw x hx
      · exact tw t x hx
    · exact fun a ha hb => tf t ht a hb ha
    · intro u hu x hx hf
      rcases List.mem_append.1 hf with hf | hf
      · exact tf' u hu x hx hf
      · exact hn (td u t x hx hf ▸ hu)
    · intro h x hx hf
      rcases List.mem_append.1 hf with hf | hf
      · exact bf (hd h).1 x hx hf
      · exact tb (hd h).1 t ht x hf hx
    · intro x hx
      rcases all x hx with h | h | h | ⟨h, u, hu, hux⟩
      · exact .inl (List.mem_append_left _ h)
      · exact .inr (.inl h)
      · exact .inr (.inr (.inl (hlo x h)))
      · by_cases hut : u = t
        · subst hut; exact .inl (List.mem_append_right _ hux)
        · exact .inr (.inr (.inr ⟨(hd2 (by simp)).trans h, u, hp u hu hut, hux⟩))
  | dropped t ho ht hdd hf hb hw hp hn =>
    subst hw; subst ho
    rw [hf, hb]
    simp only [asked, List.append_nil, List.map_nil] at hN3 ⊢
    refine ⟨fw, tw, fN, tN, td, tf', ?_, fun h => nodup_app (bN (hd h).1) (tN t) ?_, ?_, ?_, ?_, hlt, hwl⟩
    all_goals grind
  | gone ho hdd hf hw hp hb =>
    subst hw; subst ho
    rw [hf]
    simp only [asked, List.append_nil, List.map_nil] at hN3 ⊢
    have hdt : des' ≠ false := fun h => (hd h).2 rfl
    refine ⟨fw, tw, fN, tN, td, tf', fun h => absurd h hdt, fun h => absurd h hdt, fun h => absurd h hdt, fun h => absurd h hdt, ?_, hlt, hwl⟩
    grind

theorem step_des (cfg : Cfg K) (env : Env V) (s : St K V E) (o : Op K V E) (h : (step cfg env s o).1.destroyed = false) :
    s.destroyed = false ∧ o ≠ .destroy := by
  by_cases hd : o = .destroy
  · subst hd; simp [step, destroy] at h
  · rw [step_destroyed cfg env s o hd] at h; exact ⟨h, hd⟩

/-- The accounts after a history. -/
def AccH (cfg : Cfg K) (h : Hist K V E) : Prop :=
  Acc (asked h) (answeredW (outsOf cfg h)) (brokenW (outsOf cfg h)) (ledgerAfter cfg h).wait (stateAfter cfg h).opens (stateAfter cfg h).nextId
    (stateAfter cfg h).destroyed (Lost cfg h)

theorem acc (hc : cfg.Ok) (h : Hist K V E) (hok : HistOk cfg St.init h) (hN : (asked h).Nodup) : AccH cfg h := by
  induction h using snoc_ind with
  | h0 => constructor <;> simp [outsOf, run, answeredW, brokenW, asked, St.init]
  | h1 h p ih =>
    obtain ⟨e, o⟩ := p
    rw [HistOk_append] at hok
    rw [asked_append] at hN
    have A := ih hok.1 (List.nodup_append.1 hN).1
    have g := good_any hc h hok.1 e
    have W := wstep hc g o hok.2.1
    have T := step_tokens cfg e (stateAfter cfg h) o
    have hwl := (good_any hc (h ++ [(e, o)]) (HistOk_append.2 hok) e).g.wf
    rw [stateAfter_snoc, ledgerAfter_snoc] at hwl
    unfold AccH
    rw [asked_append, outsOf_snoc, answeredW_snoc, brokenW_snoc, stateAfter_snoc, ledgerAfter_snoc]
    refine Acc.step A W hN T.1 T.2.1 (fun w hw => hw.snoc _) (fun k w ho hcc => ?_) (step_des cfg e _ o) (step_destroyed cfg e _ o) hwl (fun k w b ho => by have := hok.2.1; rw [ho] at this; exact this.2)
    exact ⟨h, e, k, [], by rw [ho], by rw [ho] at hcc; exact hcc⟩

/-! ## Who waits for what -/

theorem asyncGet_calls (cfg : Cfg K) (env : Env V) (s : St K V E) (k : K) (w : Nat) (b : Beh V E) :
    (asyncGet cfg env s k w b).2.calls = [] ∨ (asyncGet cfg env s k w b).2.calls = [(k, s.nextId)] := by
  simp only [asyncGet]
  split
  · rename_i i l _; left; cases l <;> rfl
  · right
    cases b <;> simp [resolveAsync]

theorem after_wait {L : Ledger K V} {eqv : K → K → Bool} {kind : Kind} {now : Time} {o : Op K V E} {out : Out K V E} {t w : Nat}
    (h : w ∈ (L.after eqv kind now o out).wait t) :
    w ∈ L.wait t ∨ ∃ k b, o = .asyncGet k w b ∧ out.fired = [] ∧ ((∃ p l, out.calls = (p, t) :: l) ∨ out.calls = [] ∧ L.valid k = some t) := by
  cases o with
  | asyncGet k w' b =>
    simp only [Ledger.after] at h
    split at h
    · rename_i hc
      split at h
      · rename_i hf
        split at h
        · rename_i tok hv
          simp only [Ledger.join] at h
          split at h
          · rename_i ht; subst ht
            rcases List.mem_append.1 h with h | h
            · exact .inl h
            · simp at h; subst h
              exact .inr ⟨k, b, rfl, hf, .inr ⟨hc, hv⟩⟩
          · exact .inl h
        · exact .inl h
      · exact .inl h
    · rename_i p tok l hc
      split at h
      · rename_i hf
        simp only [Ledger.join, lookup_wait] at h
        split at h
        · rename_i ht; subst ht
          rcases List.mem_append.1 h with h | h
          · exact .inl h
          · simp at h; subst h
            exact .inr ⟨k, b, rfl, hf, .inl ⟨p, l, hc⟩⟩
        · exact .inl h
      · rw [lookup_wait] at h; exact .inl h
  | getIfExists k => left; simp only [Ledger.after] at h; split at h <;> exact h
  | get k r =>
    left; simp only [Ledger.after] at h; split at h
    · simp only [Ledger.read] at h; split at h <;> exact h
    · exact h
  | getOrEmplace k v f =>
    left; simp only [Ledger.after] at h; split at h
    · exact h
    · split at h <;> exact h
  | complete t r => left; simp only [Ledger.after] at h; split at h <;> exact h
  | drop t => left; simp only [Ledger.after] at h; split at h <;> exact h
  | tick r b =>
    left; simp only [Ledger.after] at h; split at h
    · exact h
    · split at h
      · rw [lookup_wait] at h; exact h
      · exact h
  | _ => exact .inl h

theorem wait_grows (L : Ledger K V) (eqv : K → K → Bool) (kind : Kind) (now : Time) (o : Op K V E) (out : Out K V E) (t : Nat) :
    (L.after eqv kind now o out).wait t = L.wait t ∨ ∃ k w b, o = .asyncGet k w b ∧ (L.after eqv kind now o out).wait t = L.wait t ++ [w] := by
  cases o with
  | asyncGet k w' b =>
    simp only [Ledger.after]
    repeat' split
    all_goals first
      | exact .inl rfl
      | (left; rw [lookup_wait]; done)
      | skip
    · rename_i tok _
      simp only [Ledger.join]
      split
      · exact .inr ⟨k, w', b, rfl, rfl⟩
      · exact .inl rfl
    · simp only [Ledger.join, lookup_wait]
      split
      · exact .inr ⟨k, w', b, rfl, rfl⟩
      · exact .inl rfl
  | getIfExists k => left; simp only [Ledger.after]; split <;> rfl
  | get k r =>
    left; simp only [Ledger.after]; split
    · simp only [Ledger.read]; split <;> rfl
    · rfl
  | getOrEmplace k v f =>
    left; simp only [Ledger.after]; split
    · rfl
    · split <;> rfl
  | complete t r => left; simp only [Ledger.after]; split <;> rfl
  | drop t => left; simp only [Ledger.after]; split <;> rfl
  | tick r b =>
    left; simp only [Ledger.after]; split
    · rfl
    · split
      · rw [lookup_wait]
      · rfl
  | _ => exact .inl rfl

/-- Waiters are listed in the order in which they asked. -/
theorem wait_order (h : Hist K V E) (t : Nat) : ((ledgerAfter cfg h).wait t).Sublist (asked h) := by
  induction h using snoc_ind with
  | h0 => simp
  | h1 h p ih =>
    obtain ⟨e, o⟩ := p
    rw [ledgerAfter_snoc, asked_append]
    rcases wait_grows (ledgerAfter cfg h) cfg.eqv cfg.resolver e.now o (outAt cfg h e o) t with q | ⟨k, w, b, rfl, q⟩
    · rw [q]; exact ih.trans (List.sublist_append_left ..)
    · rw [q]; exact ih.append (by simp [asked])

/-- Waiters of a lookup are those whose gets were registered for it. -/
theorem wait_iff (h : Hist K V E) (t w : Nat) :
    w ∈ (ledgerAfter cfg h).wait t ↔ ∃ h1 e1 o1 h2, h = h1 ++ (e1, o1) :: h2 ∧ Registers cfg w t h1 e1 o1 := by
  constructor
  · intro hw
    induction h using snoc_ind with
    | h0 => simp at hw
    | h1 h p ih =>
      obtain ⟨e, o⟩ := p
      rw [ledgerAfter_snoc] at hw
      rcases after_wait hw with q | ⟨k, b, rfl, hf, q⟩
      · obtain ⟨h1, e1, o1, h2, rfl, hr⟩ := ih q
        exact ⟨h1, e1, o1, h2 ++ [(e, o)], by simp, hr⟩
      · refine ⟨h, e, _, [], rfl, k, b, rfl, hf, ?_⟩
        rcases q with ⟨p, l, q⟩ | q
        · left
          rcases asyncGet_calls cfg e (stateAfter cfg h) k w b with hc | hc
          · rw [show outAt cfg h e (.asyncGet k w b) = (asyncGet cfg e (stateAfter cfg h) k w b).2 from rfl, hc] at q; cases q
          · rw [show outAt cfg h e (.asyncGet k w b) = (asyncGet cfg e (stateAfter cfg h) k w b).2 from rfl, hc] at q ⊢
            cases q; rfl
        · exact .inr q
  · rintro ⟨h1, e1, o1, h2, rfl, k, b, rfl, hf, hr⟩
    induction h2 using snoc_ind with
    | h0 =>
      rw [ledgerAfter_snoc]
      rcases hr with hr | ⟨hr, hv⟩
      · simp only [Ledger.after, hr, hf, Ledger.join, if_true]; simp
      · simp only [Ledger.after, hr, hf, hv, Ledger.join, if_true]; simp
    | h1 h p ih =>
      obtain ⟨e, o⟩ := p
      rw [show h1 ++ (e1, .asyncGet k w b) :: (h ++ [(e, o)]) = (h1 ++ (e1, .asyncGet k w b) :: h) ++ [(e, o)] by simp, ledgerAfter_snoc]
      rcases wait_grows (ledgerAfter cfg (h1 ++ (e1, .asyncGet k w b) :: h)) cfg.eqv cfg.resolver e.now o (outAt cfg _ e o) t with q | ⟨_, _, _, _, q⟩
      · rw [q]; exact ih
      · rw [q]; exact List.mem_append_left _ ih

/-! ## Tokens along histories -/

theorem run_tokens (h : Hist K V E) (s : St K V E) :
    s.nextId ≤ (run cfg s h).1.nextId ∧ (∀ t ∈ (run cfg s h).1.opens, t ∈ s.opens ∨ s.nextId ≤ t) ∧
    (∀ out ∈ (run cfg s h).2, ∀ p ∈ out.calls, s.nextId ≤ p.2 ∧ p.2 < (run cfg s h).1.nextId) := by
  induction h generalizing s with
  | nil => exact ⟨Nat.le_refl _, fun t h => .inl h, by simp [run]⟩
  | cons p h ih =>
    obtain ⟨e, o⟩ := p
    obtain ⟨a1, a2, a3⟩ := step_tokens cfg e s o
    obtain ⟨b1, b2, b3⟩ := ih (step cfg e s o).1
    refine ⟨Nat.le_trans a1 b1, ?_, ?_⟩
    · intro t ht
      rcases b2 t ht with q | q
      · rcases a2 t q with q | ⟨q, _⟩
        · exact .inl q
        · exact .inr (by omega)
      · exact .inr (Nat.le_trans a1 q)
    · intro out hout p hp
      simp only [run, List.mem_cons] at hout
      have hn : (run cfg s ((e, o) :: h)).1.nextId = (run cfg (step cfg e s o).1 h).1.nextId := rfl
      rcases hout with rfl | hout
      · obtain ⟨c1, c2⟩ := a3 p hp
        rw [hn]; omega
      · obtain ⟨c1, c2⟩ := b3 out hout p hp
        rw [hn]; omega

theorem given_lt {tok : Nat} {h : Hist K V E} (hg : Given cfg tok h) : tok < (stateAfter cfg h).nextId := by
  obtain ⟨out, ho, k, hk⟩ := hg
  exact ((run_tokens (cfg := cfg) h St.init).2.2 out ho (k, tok) hk).2

/-- A lookup that was completed or dropped never opens again. -/
theorem consumed {tok : Nat} {h1 h2 : Hist K V E} (hc : cfg.Ok) (hok : HistOk cfg St.init h1) (hg : Given cfg tok h1) {e : Env V} {o : Op K V E}
    (ho : (∃ r, o = .complete tok r) ∨ o = .drop tok) : tok ∉ (stateAfter cfg (h1 ++ (e, o) :: h2)).opens := by
  have hN := (good_any hc h1 hok e).wf2.opN
  have h1' : tok ∉ (stateAfter cfg (h1 ++ [(e, o)])).opens := by
    rw [stateAfter_snoc]
    rcases ho with ⟨r, rfl⟩ | rfl
    · simp only [step, complete_opens]; exact fun hh => (hN.mem_erase_iff.1 hh).1 rfl
    · simp only [step, drop_opens]; exact fun hh => (hN.mem_erase_iff.1 hh).1 rfl
  have hlt := given_lt hg
  have hle : (stateAfter cfg h1).nextId ≤ (stateAfter cfg (h1 ++ [(e, o)])).nextId := by
    rw [stateAfter_snoc]; exact (step_tokens cfg e _ o).1
  intro hh
  rw [show h1 ++ (e, o) :: h2 = (h1 ++ [(e, o)]) ++ h2 by simp, stateAfter_append] at hh
  rcases (run_tokens (cfg := cfg) h2 (stateAfter cfg (h1 ++ [(e, o)]))).2.1 tok hh with q | q
  · exact h1' q
  · omega

theorem starts_given {k : K} {tok : Nat} {h : Hist K V E} {e : Env V} {o : Op K V E} (hs : StartsAt cfg k tok h e o) :
    ∃ p, (p, tok) ∈ (outAt cfg h e o).calls := by
  unfold StartsAt at hs
  cases o with
  | asyncGet k' w b =>
    cases b with
    | later =>
      obtain ⟨_, p, hp, rfl⟩ := hs
      exact ⟨p.1, List.mem_of_mem_head? hp⟩
    | _ => exact hs.elim
  | tick r b =>
    cases b with
    | later =>
      obtain ⟨_, p, hp, rfl, _⟩ := hs
      exact ⟨p.1, List.mem_of_mem_head? hp⟩
    | _ => exact hs.elim
  | _ => exact hs.elim

/-- A lookup is started only once. -/
theorem starts_once {a b : K} {tok : Nat} {h1 h2 : Hist K V E} {e1 e2 : Env V} {o1 o2 : Op K V E}
    (h1s : StartsAt cfg a tok h1 e1 o1) (h2s : StartsAt cfg b tok (h1 ++ (e1, o1) :: h2) e2 o2) : False := by
  obtain ⟨p, hp⟩ := starts_given h1s
  obtain ⟨q, hq⟩ := starts_given h2s
  obtain ⟨x1, x2⟩ := (step_tokens cfg e1 (stateAfter cfg h1) o1).2.2 _ hp
  obtain ⟨y1, y2⟩ := (step_tokens cfg e2 (stateAfter cfg (h1 ++ (e1, o1) :: h2)) o2).2.2 _ hq
  have hle := (run_tokens (cfg := cfg) h2 (stateAfter cfg (h1 ++ [(e1, o1)]))).1
  rw [← stateAfter_append, stateAfter_snoc, show h1 ++ [(e1, o1)] ++ h2 = h1 ++ (e1, o1) :: h2 by simp] at hle
  simp only at x1 y1
  omega

/-! ## Lookups in flight stay in flight -/

theorem after_valid_fwd {L : Ledger K V} {eqv : K → K → Bool} {kind : Kind} {now : Time} {o : Op K V E} {out : Out K V E} {k : K} {tok : Nat}
    (hv : L.valid k = some tok) (hch : ¬ L.Changes eqv kind k o out)
    (hcd : ((∃ r, o = .complete tok r) ∨ o = .drop tok) → out.ret ≠ .bool true)
    (ha : ∀ k' w b, o = .asyncGet k' w b → eqv k k' = true → out.calls = [])
    (ht : ∀ r b p l, o = .tick r b → out.calls = p :: l → eqv k p.1 = false) :
    (L.after eqv kind now o out).valid k = some tok := by
  have hput : ∀ {L : Ledger K V} {k' keep v}, ¬ eqv k k' = true → (L.put eqv now keep k' v).valid k = L.valid k := by
    intro L k' keep v h; simp [Ledger.put, h]
  have hlook : ∀ {L : Ledger K V} {k' rf t} {b : Beh V E}, ¬ eqv k k' = true → (L.lookup eqv now rf k' t b).valid k = L.valid k := by
    intro L k' rf t b h
    cases b with
    | now r => exact hput h
    | later => simp [Ledger.lookup, Ledger.begin, h]
    | drop => simp [Ledger.lookup, Ledger.forget, h]
  cases o with
  | getIfExists k' => simp only [Ledger.after]; split <;> exact hv
  | get k' r =>
    simp only [Ledger.after]; split
    · simp only [Ledger.read]; split <;> exact hv
    · rename_i hc; rw [Ledger.write, hput (fun h => hch ⟨h, by rw [hc]; simp⟩)]; exact hv
  | asyncGet k' w b =>
    by_cases hk : eqv k k' = true
    · have := ha k' w b rfl hk
      simp only [Ledger.after, this]
      repeat' split
      all_goals exact hv
    · simp only [Ledger.after]
      repeat' split
      all_goals first
        | exact hv
        | (simp only [Ledger.join]; rw [hlook hk]; exact hv)
        | (rw [hlook hk]; exact hv)
  | emplace k' v f => simp only [Ledger.after, Ledger.write]; rw [hput hch]; exact hv
  | getOrEmplace k' v f =>
    simp only [Ledger.after, Ledger.write]; split
    · rename_i hm; rw [hput (fun h => hch ⟨h, hm⟩)]; exact hv
    · split <;> exact hv
  | erase k' => simp only [Ledger.after, Ledger.write]; rw [hput hch]; exact hv
  | clear => exact absurd trivial hch
  | destroy => exact absurd trivial hch
  | count => exact hv
  | complete t r =>
    simp only [Ledger.after]; split
    · rename_i hr
      have : L.valid k ≠ some t := fun h => hch ⟨h, hr⟩
      simp only [Ledger.finish, if_neg this]; exact hv
    · exact hv
  | drop t =>
    simp only [Ledger.after]; split
    · rename_i hr
      have : L.valid k ≠ some t := by
        intro h; rw [hv] at h; cases h; exact hcd (.inr rfl) hr
      simp only [Ledger.abandon, if_neg this]; exact hv
    · exact hv
  | tick r b =>
    simp only [Ledger.after]; split
    · exact hv
    · rename_i p t l hc
      have := ht r b _ _ rfl hc
      simp only at this
      split
      · rw [hlook (by simp [this])]; exact hv
      · rw [hput (by simp [this])]; exact hv

theorem starts_valid {L : Ledger K V} {eqv : K → K → Bool} {kind : Kind} {now : Time} {o : Op K V E} {out : Out K V E} {k : K} {tok : Nat}
    (hs : Ledger.Starts eqv kind k tok o out) : (L.after eqv kind now o out).valid k = some tok := by
  cases o with
  | asyncGet k' w b =>
    cases b with
    | later =>
      obtain ⟨hk, p, hp, rfl⟩ := hs
      cases hc : out.calls with
      | nil => rw [hc] at hp; cases hp
      | cons q l =>
        rw [hc] at hp; cases hp
        simp only [Ledger.after, hc]
        split <;> simp [Ledger.join, Ledger.lookup, Ledger.begin, hk]
    | _ => exact hs.elim
  | tick r b =>
    cases b with
    | later =>
      obtain ⟨hka, p, hp, rfl, hk⟩ := hs
      cases hc : out.calls with
      | nil => rw [hc] at hp; cases hp
      | cons q l =>
        rw [hc] at hp; cases hp
        simp only [Ledger.after, hc, hka, if_true]
        simp [Ledger.lookup, Ledger.begin, hk]
    | _ => exact hs.elim
  | _ => exact hs.elim

theorem Mono_prefix {l m : List (Env V)} {a : Env V} (h : Mono (l ++ a :: m)) : Mono (l ++ [a]) := by
  unfold Mono at *
  exact h.sublist (List.Sublist.append_left (by simp) l)

/-- While nothing is written to or removed from a key, its lookup in flight stays in flight until it is completed or dropped. -/
theorem in_flight (hc : cfg.Ok) {k : K} {tok : Nat} {h1 : Hist K V E} {e1 : Env V} {o1 : Op K V E} (hs : StartsAt cfg k tok h1 e1 o1) :
    ∀ (h2 : Hist K V E) (_ : HistOk cfg St.init (h1 ++ (e1, o1) :: h2)) (_ : Mono ((h1 ++ (e1, o1) :: h2).map (·.1)))
    (_ : NoEvictH cfg St.init (h1 ++ (e1, o1) :: h2)) (_ : Kept cfg k (h1 ++ [(e1, o1)]) h2)
    (_ : ∀ p ∈ h2, (∀ r, p.2 ≠ .complete tok r) ∧ p.2 ≠ .drop tok),
    (ledgerAfter cfg (h1 ++ (e1, o1) :: h2)).valid k = some tok := by
  intro h2
  induction h2 using snoc_ind with
  | h0 => intro _ _ _ _ _; rw [ledgerAfter_snoc]; exact starts_valid hs
  | h1 h p ih =>
    intro hok hm hx hk hn
    obtain ⟨e, o⟩ := p
    have hap : h1 ++ (e1, o1) :: (h ++ [(e, o)]) = (h1 ++ (e1, o1) :: h) ++ [(e, o)] := by simp
    rw [hap] at hok hm hx ⊢
    rw [HistOk_append] at hok
    rw [NoEvictH_append] at hx
    obtain ⟨hk1, hk2⟩ := Kept.snoc.1 hk
    rw [show h1 ++ [(e1, o1)] ++ h = h1 ++ (e1, o1) :: h by simp] at hk2
    have hm0 : Mono ((h1 ++ (e1, o1) :: h).map (·.1) ++ [e]) := by simpa using hm
    have hm1 : Mono ((h1 ++ (e1, o1) :: h).map (·.1)) := by
      unfold Mono at *; exact hm0.sublist (List.sublist_append_left ..)
    have hv := ih hok.1 hm1 hx.1 hk1 (fun p hp => hn p (by simp [hp]))
    have g := good_exact hc _ hok.1 e hm0 hx.1
    have hop : o.ok cfg (stateAfter cfg (h1 ++ (e1, o1) :: h)) := hok.2.1
    rw [ledgerAfter_snoc]
    have hno := hn (e, o) (by simp)
    refine after_valid_fwd hv hk2 ?_ ?_ ?_
    · rintro (⟨r, rfl⟩ | rfl)
      · exact absurd rfl (hno.1 r)
      · exact absurd rfl hno.2
    · rintro k' w b rfl hkk
      obtain ⟨_, _, ⟨u, _, q, _⟩ | ⟨⟨_, q, _⟩, _⟩ | ⟨_, q, _⟩⟩ := (asyncGet_ok hc g hop.2 hop.1 k' w b).2
      · exact q
      · exact q
      · have := (g.g.rsp k k' hkk).2.2.2.2.1
        rw [hv] at this
        exact absurd trivial (q tok this.symm)
    · rintro r b p l rfl hcall
      rcases (tick_ok hc g hop.2.2 r b).2 with q | ⟨k', q, _, _, q4, _⟩
      · rw [show outAt cfg (h1 ++ (e1, o1) :: h) e (.tick r b) = _ from q] at hcall; cases hcall
      · rw [show outAt cfg (h1 ++ (e1, o1) :: h) e (.tick r b) = _ from q] at hcall; cases hcall
        cases hkk : cfg.eqv k k'
        · rfl
        · have h5 := (g.g.rsp k k' hkk).2.2.2.2.1
          rw [hv] at h5
          rw [q4 trivial] at h5; cases h5

/-- A lookup in flight that was not there before was started since. -/
theorem start_since {k : K} {tok : Nat} {h1 : Hist K V E} (h0 : (ledgerAfter cfg h1).valid k = none) :
    ∀ h2 : Hist K V E, (ledgerAfter cfg (h1 ++ h2)).valid k = some tok →
      ∃ h3 e3 o3 h4, h2 = h3 ++ (e3, o3) :: h4 ∧ StartsAt cfg k tok (h1 ++ h3) e3 o3 := by
  intro h2
  induction h2 using snoc_ind with
  | h0 => intro h; rw [List.append_nil, h0] at h; cases h
  | h1 h p ih =>
    obtain ⟨e, o⟩ := p
    intro hv
    rw [← List.append_assoc, ledgerAfter_snoc] at hv
    rcases after_valid hv with q | ⟨q, _⟩
    · exact ⟨h, e, o, [], rfl, q⟩
    · obtain ⟨h3, e3, o3, h4, rfl, hs⟩ := ih q
      exact ⟨h3, e3, o3, h4 ++ [(e, o)], by simp, hs⟩

theorem mem_erase_app {l : List Nat} {t : Nat} (n : Nat) (h : t ∈ l) : t ∈ (l ++ [n]).erase n := by
  by_cases hn : t = n
  · subst hn; rw [List.erase_append_left _ h]; simp
  · exact (List.mem_erase_of_ne hn).2 (by simp [h])

theorem resolveAsync_keep (cfg : Cfg K) (env : Env V) (s : St K V E) (k : K) (b : Beh V E) : ∀ t ∈ s.opens, t ∈ (resolveAsync cfg env s k b).1.opens := by
  intro t ht
  cases b with
  | later => simp [resolveAsync, ht]
  | now r => simp only [resolveAsync, complete_opens, link_opens]; exact mem_erase_app _ ht
  | drop => simp only [resolveAsync, drop_opens, link_opens]; exact mem_erase_app _ ht

/-- An open lookup stays open until it is completed or dropped. -/
theorem step_keeps_open (cfg : Cfg K) (env : Env V) (s : St K V E) (o : Op K V E) {t : Nat} (ht : t ∈ s.opens)
    (hn : (∀ r, o ≠ .complete t r) ∧ o ≠ .drop t) : t ∈ (step cfg env s o).1.opens := by
  cases o with
  | getIfExists k => exact ht
  | count => exact ht
  | get k r => simp only [step, get]; split <;> simpa [resolveSync] using ht
  | asyncGet k w b =>
    simp only [step, asyncGet]; split
    · simpa using ht
    · simp only [answer_opens]; exact resolveAsync_keep _ _ _ _ _ t (by simpa using ht)
  | emplace k v f => simp only [step, emplace]; split <;> simpa using ht
  | getOrEmplace k v f =>
    simp only [step, getOrEmplace]; repeat' split
    all_goals simpa using ht
  | erase k => simpa [step, erase] using ht
  | clear => simpa [step] using ht
  | complete t' r =>
    simp only [step, complete_opens]
    exact (List.mem_erase_of_ne (fun h => hn.1 r (by rw [h]))).2 ht
  | drop t' =>
    simp only [step, drop_opens]
    exact (List.mem_erase_of_ne (fun h => hn.2 (by rw [h]))).2 ht
  | tick r b =>
    simp only [step, tick]; split
    · exact ht
    · split
      · exact ht
      · split
        · simp only [refresh]; split
          · exact ht
          · rename_i q hq _ e he hr hx
            by_cases ha : cfg.resolver = .async
            · rw [if_pos ha]
              have hm := resolveAsync_keep cfg env ({ s with delayQ := q } : St K V E) e.key b t ht
              repeat' split
              all_goals simpa using hm
            · rw [if_neg ha]
              repeat' split
              all_goals simpa [resolveSync] using ht
        · exact ht
  | destroy => simpa [step, destroy] using ht

theorem run_keeps_open {t : Nat} (h : Hist K V E) (s : St K V E) (ht : t ∈ s.opens)
    (hn : ∀ p ∈ h, (∀ r, p.2 ≠ .complete t r) ∧ p.2 ≠ .drop t) : t ∈ (run cfg s h).1.opens := by
  induction h generalizing s with
  | nil => exact ht
  | cons p h ih =>
    obtain ⟨e, o⟩ := p
    exact ih _ (step_keeps_open cfg e s o ht (hn (e, o) (by simp))) (fun p hp => hn p (by simp [hp]))

theorem run_des {h : Hist K V E} {s : St K V E} (hd : (run cfg s h).1.destroyed = false) : s.destroyed = false := by
  induction h generalizing s with
  | nil => exact hd
  | cons p h ih =>
    obtain ⟨e, o⟩ := p
    exact (step_des cfg e s o (ih hd)).1

/-- Once the handle was given away, the lookup is open until it is completed or dropped. -/
theorem started_open (hc : cfg.Ok) {k : K} {tok : Nat} {h1 h2 : Hist K V E} {e1 : Env V} {o1 : Op K V E} (hs : StartsAt cfg k tok h1 e1 o1)
    (hok : HistOk cfg St.init (h1 ++ (e1, o1) :: h2)) (hd : (stateAfter cfg (h1 ++ (e1, o1) :: h2)).destroyed = false)
    (hn : ∀ p ∈ h2, (∀ r, p.2 ≠ .complete tok r) ∧ p.2 ≠ .drop tok) : tok ∈ (stateAfter cfg (h1 ++ (e1, o1) :: h2)).opens := by
  rw [show h1 ++ (e1, o1) :: h2 = (h1 ++ [(e1, o1)]) ++ h2 by simp] at *
  rw [stateAfter_append] at *
  refine run_keeps_open h2 _ ?_ hn
  have g := good_any hc _ (HistOk_append.1 hok).1 e1
  refine ((g.p k).c3 (run_des hd) tok ?_).1
  rw [ledgerAfter_snoc]; exact starts_valid hs

/-- A waiter whose lookup was thrown away is never heard of again. -/
theorem lost_forever (hc : cfg.Ok) {h1 : Hist K V E} {e1 : Env V} {k : K} {w : Nat} :
    ∀ (h2 : Hist K V E) (_ : HistOk cfg St.init (h1 ++ (e1, .asyncGet k w .drop) :: h2)) (_ : (asked (h1 ++ (e1, .asyncGet k w .drop) :: h2)).Nodup)
    (_ : (outAt cfg h1 e1 (.asyncGet k w .drop)).calls ≠ []) (_ : (stateAfter cfg (h1 ++ (e1, .asyncGet k w .drop) :: h2)).destroyed = false),
    w ∉ answeredW (outsOf cfg (h1 ++ (e1, .asyncGet k w .drop) :: h2)) ∧ w ∉ brokenW (outsOf cfg (h1 ++ (e1, .asyncGet k w .drop) :: h2)) ∧
    ∃ t, w ∈ (ledgerAfter cfg (h1 ++ (e1, .asyncGet k w .drop) :: h2)).wait t ∧ t ∉ (stateAfter cfg (h1 ++ (e1, .asyncGet k w .drop) :: h2)).opens ∧
      t < (stateAfter cfg (h1 ++ (e1, .asyncGet k w .drop) :: h2)).nextId := by
  intro h2
  induction h2 using snoc_ind with
  | h0 =>
    intro hok hN hcall hd
    rw [HistOk_append] at hok
    have hok' : (Op.asyncGet k w .drop : Op K V E).ok cfg (stateAfter cfg h1) := hok.2.1
    rw [asked_append] at hN
    have A := acc hc h1 hok.1 (List.nodup_append.1 hN).1
    have hwW : w ∉ asked h1 := fun h => (List.nodup_append.1 hN).2.2 w h w (by simp [asked]) rfl
    have g := good_any hc h1 hok.1 e1
    obtain ⟨_, hb, q⟩ := (asyncGet_ok hc g hok'.2 hok'.1 k w .drop).2
    have hcall' : (asyncGet cfg e1 (stateAfter cfg h1) k w .drop).2.calls ≠ [] := hcall
    rcases q with ⟨u, _, q, _⟩ | ⟨⟨_, q, _⟩, _⟩ | ⟨q1, _, _, q2⟩
    · exact absurd q hcall'
    · exact absurd q hcall'
    · have hout : outAt cfg h1 e1 (.asyncGet k w .drop) = (asyncGet cfg e1 (stateAfter cfg h1) k w .drop).2 := rfl
      have q2 : (asyncGet cfg e1 (stateAfter cfg h1) k w .drop).2.fired = [] := q2
      have hb : (asyncGet cfg e1 (stateAfter cfg h1) k w .drop).2.broken = [] := hb
      have q1 : (asyncGet cfg e1 (stateAfter cfg h1) k w .drop).2.calls = [(k, (stateAfter cfg h1).nextId)] := q1
      rw [outsOf_snoc, answeredW_snoc, brokenW_snoc, hout, q2, hb]
      simp only [List.map_nil, List.append_nil]
      refine ⟨fun h => hwW (A.fw w h), fun h => hwW (A.bw hok'.2 w h), (stateAfter cfg h1).nextId, ?_, ?_, ?_⟩
      · rw [ledgerAfter_snoc, hout]
        simp only [Ledger.after, q1, q2, Ledger.join, if_true]; simp
      · rw [stateAfter_snoc]
        have hn := next_not_open g.wf1 g.wf2 hok'.2
        simp only [step]
        rw [(asyncGet_opens cfg e1 (stateAfter cfg h1) k w .drop hn).2 hcall']
        simpa using hn
      · rw [stateAfter_snoc]
        exact ((step_tokens cfg e1 (stateAfter cfg h1) (.asyncGet k w .drop)).2.2 (k, (stateAfter cfg h1).nextId) (by simp [step, q1])).2
  | h1 h p ih =>
    obtain ⟨e, o⟩ := p
    rw [show h1 ++ (e1, .asyncGet k w .drop) :: (h ++ [(e, o)]) = (h1 ++ (e1, .asyncGet k w .drop) :: h) ++ [(e, o)] by simp]
    intro hok hN hcall hd
    rw [HistOk_append] at hok
    rw [asked_append] at hN
    rw [stateAfter_snoc] at hd
    have hd0 := step_des cfg e _ o hd
    obtain ⟨i1, i2, t, i3, i4, i5⟩ := ih hok.1 (List.nodup_append.1 hN).1 hcall hd0.1
    have A := acc hc _ hok.1 (List.nodup_append.1 hN).1
    have g := good_any hc _ hok.1 e
    have hw : w ∈ asked (h1 ++ (e1, .asyncGet k w .drop) :: h) := A.tw t w i3
    have hne : w ∉ asked [(e, o)] := fun hh => (List.nodup_append.1 hN).2.2 w hw w hh rfl
    have W := wstep hc g o hok.2.1
    have T := step_tokens cfg e (stateAfter cfg (h1 ++ (e1, .asyncGet k w .drop) :: h)) o
    rw [outsOf_snoc, answeredW_snoc, brokenW_snoc, ledgerAfter_snoc, stateAfter_snoc]
    have hout : outAt cfg (h1 ++ (e1, .asyncGet k w .drop) :: h) e o = (step cfg e (stateAfter cfg (h1 ++ (e1, .asyncGet k w .drop) :: h)) o).2 := rfl
    rw [hout]
    generalize step cfg e (stateAfter cfg (h1 ++ (e1, .asyncGet k w .drop) :: h)) o = st at *
    generalize hww : ((ledgerAfter cfg (h1 ++ (e1, .asyncGet k w .drop) :: h)).after cfg.eqv cfg.resolver e.now o st.2) = L1 at *
    have i4' : t ∉ st.1.opens := by
      intro hh
      rcases T.2.1 t hh with q | ⟨q, _⟩
      · exact i4 q
      · omega
    have i5' : t < st.1.nextId := Nat.lt_of_lt_of_le i5 T.1
    have i3' : w ∈ L1.wait t := by
      rw [← hww]
      rcases wait_grows (ledgerAfter cfg (h1 ++ (e1, .asyncGet k w .drop) :: h)) cfg.eqv cfg.resolver e.now o st.2 t with q | ⟨_, _, _, _, q⟩
      · rw [q]; exact i3
      · rw [q]; exact List.mem_append_left _ i3
    have f1 : w ∉ st.2.fired.map (·.1) ∧ w ∉ st.2.broken := by
      cases W with
      | quiet _ _ hf hb _ _ => rw [hf, hb]; simp
      | now k' w' b r ho hf hb _ _ =>
        rw [hf, hb]; subst ho
        simp [asked] at hne; simp [hne]
      | join _ _ _ _ _ hf hb _ _ _ _ => rw [hf, hb]; simp
      | start _ _ _ _ hf hb _ _ _ _ => rw [hf, hb]; simp
      | done t' r ho ht _ hf hb _ _ _ =>
        rw [hf, hb]
        refine ⟨?_, by simp⟩
        simp only [List.map_map, List.mem_map, Function.comp_def]
        rintro ⟨x, hx, rfl⟩
        exact i4 (A.td t t' x i3 hx ▸ ht)
      | dropped t' ho ht _ hf hb _ _ _ =>
        rw [hf, hb]
        exact ⟨by simp, fun hx => i4 (A.td t t' w i3 hx ▸ ht)⟩
      | gone ho _ _ _ _ _ => exact absurd ho hd0.2
    exact ⟨by simp only [List.mem_append]; exact fun h => h.elim i1 f1.1, by simp only [List.mem_append]; exact fun h => h.elim i2 f1.2,
      t, i3', i4', i5'⟩

end Hoard
