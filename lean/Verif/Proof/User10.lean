import Verif.Proof.User9
set_option linter.unusedSimpArgs false
/-! # User programs: when nothing can go wrong -/

namespace Origin.Life

/-- A stray wake-up needs two threads besides the main one. -/
theorem stray_three {w : Inst → Bool} {sig : Bool} {s s' : State} {x : Action} (I : Inv w sig s) (h : step sig s x = some s') (hs : Stray s x) :
    3 ≤ s.next := by
  cases x with
  | wake t o =>
    cases o with
    | none => simp [Stray] at hs
    | some j =>
      obtain ⟨k, a, u, hc, hcl⟩ := hs
      simp only [step] at h
      split at h
      case h_2 => cases h
      next T hT =>
      split at h
      case isFalse => cases h
      next hst =>
      simp only [hc] at h
      split at h
      case isFalse => cases h
      next ha =>
      have O := I.ok t T hT
      have G := O.good
      simp only [Good, hst] at G
      have htc : Ev.cleared t ∈ s.log := O.link.cl.mpr ⟨G.1, by rw [hst]; trivial⟩
      obtain ⟨H, hH, haddr, -⟩ := (I.callOk j _ hc).target
      have hH : s.thr u = some H := hH
      have haddr : H.addr = a := haddr
      have hut : u ≠ t := by rintro rfl; exact hcl htc
      have ht0 : t ≠ 0 := by intro h0; have := O.main.1 h0; rw [hst] at this; cases this
      have hu0 : u ≠ 0 := by
        rintro rfl
        exact I.mainAddr H t T hH hT ht0 (by rw [← ha]; exact haddr.symm)
      have h1 : t < s.next := I.lt t T hT
      have h2 : u < s.next := I.lt u H hH
      have hut : (u : Nat) ≠ t := hut
      have ht0 : (t : Nat) ≠ 0 := ht0
      have hu0 : (u : Nat) ≠ 0 := hu0
      have h1 : (t : Nat) < s.next := h1
      have h2 : (u : Nat) < s.next := h2
      show (3 : Nat) ≤ (s.next : Nat)
      generalize (s.next : Nat) = n at *
      unfold Inst at *
      omega
  | _ => simp [Stray] at hs

/-- A late signal needs a detached thread. -/
theorem late_detached {w : Inst → Bool} {sig : Bool} {s s' : State} {x : Action} (I : Inv w sig s) (h : step sig s x = some s') (hs : LateSignal s x) :
    ∃ j u, Ev.detachCall j u ∈ s.log := by
  cases x <;> simp only [LateSignal] at hs
  rename_i t
  obtain ⟨T, hT, hg⟩ := hs
  have O := I.ok t T hT
  have G := O.good
  simp only [Good, hg, DetGone, Released] at G
  obtain ⟨j, hj⟩ := G.1
  exact ⟨j, t, (O.link.dc j).mpr ⟨_, hj⟩⟩

/-- Only `detach` detaches. -/
theorem detach_only {sig : Bool} {s s' : State} {x : Action} (h : step sig s x = some s') (hx : ∀ t u, x ≠ .detach t u) {j u : Inst}
    (hm : Ev.detachCall j u ∈ s'.log) : Ev.detachCall j u ∈ s.log := by
  by_cases hsy : x.sys = true
  · obtain ⟨evs, hl, hev⟩ := (step_eff h hsy).log
    rw [hl] at hm
    rcases List.mem_append.mp hm with hm | hm
    · rcases hev with hq | ⟨t, y, v, evs', rfl, hq, -⟩
      · exact absurd (hq _ hm) (by simp [Ev.quiet])
      · rcases List.mem_cons.mp hm with hm | hm
        · cases hm
        · exact absurd (hq _ hm) (by simp [Ev.quiet])
    · exact hm
  · cases x <;> simp [Action.sys] at hsy <;> simp only [step] at h
    case detach t u => exact absurd rfl (hx t u)
    all_goals
      (repeat' split at h) <;> cases h <;> simp [State.ev, State.faulted, State.setStage, State.modThr, State.setCall, State.setCons] at hm <;> exact hm

end Origin.Life

namespace Origin.User
open Proc (Frame Fn PFinished)
open Whole (userTop running news)

variable {σ C : Type} {pr : Prg σ C} {c : Proc.Cfg} {sig : Bool} {e : State σ C} {a : Abs σ C} {m : σ}

/-- What the lifecycle part of a step of origin's is. -/
theorem whole_life {w w' : Whole.State} {y : Whole.Action} (h : Whole.step c sig w y = some w') :
    match y.life? with
    | some z => ∃ l', Life.step sig w.l z = some l' ∧ w'.l = l'
    | none => w'.l = w.l := by
  unfold Whole.step at h
  split at h
  · cases h
  cases y with
  | life x =>
    simp only [Whole.Action.life?]
    cases x <;> simp only [reduceCtorEq] at h
    all_goals (repeat' split at h) <;> simp only [Option.map_eq_some_iff, reduceCtorEq] at h
    all_goals (obtain ⟨l', h1, rfl⟩ := h; exact ⟨l', h1, next_life _ _ _⟩)
  | proc x =>
    simp only [Whole.Action.life?]
    simp only at h
    (repeat' split at h) <;> simp only [Option.map_eq_some_iff, Option.bind_eq_some_iff, reduceCtorEq] at h
    · obtain ⟨l', h1, rfl⟩ := h; exact next_life _ _ _
    · obtain ⟨l', h1, h⟩ := h; split at h <;> cases h; exact next_life _ _ _
  | create t a tid =>
    simp only [Whole.Action.life?]
    simp only [Option.map_eq_some_iff, Option.bind_eq_some_iff] at h
    obtain ⟨l', h1, p', h2, rfl⟩ := h
    exact ⟨l', h1, next_life _ _ _⟩
  | ret t v =>
    simp only [Whole.Action.life?]
    simp only at h
    split at h
    case isFalse => cases h
    simp only [Option.map_eq_some_iff, Option.bind_eq_some_iff] at h
    obtain ⟨l', h1, p', h2, rfl⟩ := h
    exact ⟨l', h1, next_life _ _ _⟩
  | release t =>
    simp only [Whole.Action.life?]
    simp only [Option.bind_eq_some_iff] at h
    obtain ⟨l', h1, p', h2, h⟩ := h
    split at h <;> cases h
    exact ⟨l', h1, next_life _ _ _⟩

/-- A program that never calls `detach`. -/
def NoDetach (pr : Prg σ C) : Prop := ∀ cd u k, pr.op cd ≠ .detach u k

theorem Reach.no_detach {P : Life.State → Life.Action → Prop} (hn : NoDetach pr) (R : Reach pr c sig m P e) (j u : Nat) :
    Life.Ev.detachCall j u ∉ e.w.l.log := by
  induction R with
  | init ad tid => simp [User.init, Whole.init, Life.init]
  | step R hp hs ih =>
    rename_i e x e'
    rcases step_w hs with ⟨h, -⟩ | ⟨y, h1, h2⟩
    · rw [h]; exact ih
    · have := whole_life h2
      intro hm
      split at this
      · next z hz =>
        obtain ⟨l', hl, hle⟩ := this
        refine ih (Life.detach_only hl ?_ (hle ▸ hm))
        rintro t v rfl
        cases x with
        | sys x =>
          cases h1
          cases y <;> simp [Whole.Action.life?] at hz
          subst hz
          cases hs
        | user t' ad tid =>
          simp only [Action.whole, State.op, Option.bind_eq_some_iff, Option.map_eq_some_iff] at h1
          obtain ⟨o, ⟨cd, -, rfl⟩, ha⟩ := h1
          cases hop : pr.op cd <;> simp only [hop, Op.action, Option.some.injEq, reduceCtorEq] at ha
          case ret => subst ha; split at hz <;> simp [Whole.Action.life?] at hz
          case detach u' k => exact hn cd u' k hop
          all_goals (subst ha; simp [Whole.Action.life?] at hz)
      · exact ih (this ▸ hm)

/-- A program that has only one thread besides the main one cannot meet a stray wake-up. -/
theorem Reach.one_step (hok : c.Ok pr.ctors.length pr.finis.length) (hone : ∀ a, AReach pr (locks c) m a → a.thr.length ≤ 2)
    (hsig : sig = true ∨ NoDetach pr) (ih : Reach pr c sig m (Life.Orderly sig) e) {x : Action} {e' : State σ C} (hs : User.step pr c sig e x = some e') :
    ∀ y z, x.whole pr e = some y → y.life? = some z → Life.Orderly sig e.w.l z := by
  intro y z hy hz
  have K := ih.calm
  obtain ⟨a, A, RR⟩ := sim_reach hok ih
  have hlen := hone a A
  rw [RR.len, ← K.linked.next] at hlen
  rcases step_w hs with ⟨-, h⟩ | ⟨y', h1, h2⟩
  · rw [h] at hy; cases hy
  rw [hy] at h1; cases h1
  have := whole_life h2
  rw [hz] at this
  obtain ⟨l', hl, -⟩ := this
  refine ⟨fun hst => ?_, hsig.imp id fun hn hla => ?_⟩
  · have := Life.stray_three (K.for 0) hl hst
    exact absurd (Nat.le_trans this hlen) (by decide)
  · obtain ⟨j, u, hd⟩ := Life.late_detached (K.for 0) hl hla
    exact ih.no_detach hn j u hd

theorem Reach.one (hok : c.Ok pr.ctors.length pr.finis.length) (hone : ∀ a, AReach pr (locks c) m a → a.thr.length ≤ 2)
    (hsig : sig = true ∨ NoDetach pr) (R : Reach pr c sig m (fun _ _ => True) e) : Reach pr c sig m (Life.Orderly sig) e := by
  induction R with
  | init ad tid ht => exact .init ad tid ht
  | step R hp hs ih => exact .step ih (ih.one_step hok hone hsig hs) hs

end Origin.User
