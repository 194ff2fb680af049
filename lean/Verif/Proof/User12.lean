import Verif.Proof.User11
set_option linter.unusedSimpArgs false
/-! # User programs: those that create their threads before they wait for any -/

namespace Origin.Life

/-- A joined thread's memory is gone only once `join` has returned. -/
def FreedOk (s : State) : Prop := ∀ h j, s.cons h = some (j, .join, .freed) → ∃ v, Ev.joined j h v ∈ s.log

theorem FreedOk.mono {s s' : State} (F : FreedOk s) (hc : ∀ h j, s'.cons h = some (j, .join, .freed) → s.cons h = some (j, .join, .freed))
    (hl : ∀ x ∈ s.log, x ∈ s'.log) : FreedOk s' := fun h j hh => by
  obtain ⟨v, hv⟩ := F h j (hc h j hh)
  exact ⟨v, hl _ hv⟩

theorem FreedOk.finish {s : State} (F : FreedOk s) (t : Inst) (k : Kind) (h : Inst) (v : Nat) : FreedOk (s.finish t k h v) := by
  intro h' j hh
  cases k
  all_goals
    simp only [State.finish, State.setCons, State.ev, State.setCall] at hh ⊢
    split at hh
    · next he => subst he; cases hh; try exact ⟨v, List.mem_cons_self⟩
    · obtain ⟨w, hw⟩ := F h' j hh
      exact ⟨w, List.mem_cons_of_mem _ hw⟩

theorem FreedOk.step {sig : Bool} {s s' : State} {x : Action} (F : FreedOk s) (h : step sig s x = some s') : FreedOk s' := by
  have call : ∀ t r c s', callStep s t r c = some s' → FreedOk s' := by
    intro t r c s' h
    cases c <;> simp only [callStep] at h
    case drop => split at h <;> cases h; · exact F.mono (fun _ _ h => h) fun _ h => h
                 · exact F.finish _ _ _ _
    case unmap  =>
      cases h
      exact FreedOk.finish (s := (s.setRec _ none).ev _) (F.mono (fun _ _ h => h) fun _ h => List.mem_cons_of_mem _ h) _ _ _ _
    all_goals
      (repeat' split at h) <;> cases h <;> refine F.mono ?_ ?_
      all_goals simp only [State.setCons, State.setCall, State.setRec, State.ev]
      all_goals first | (intro _ _ h; exact h) | (intro _ h; exact h) | (intro _ h; exact List.mem_cons_of_mem _ h) | (intro h j hh; split at hh; cases hh; exact hh)
  unfold Life.step at h
  split at h
  all_goals (repeat' split at h)
  all_goals first | (cases h; done) | (exact call _ _ _ _ h) | skip
  all_goals try unfold ownStep at h
  all_goals (repeat' split at h) <;> cases h <;> refine F.mono ?_ ?_
  all_goals try simp only [State.setCons, State.setCall, State.setRec, State.ev, State.faulted, State.modThr, State.setStage]
  all_goals first | (intro _ _ h; exact h) | (intro _ h; exact h) | (intro _ h; exact List.mem_cons_of_mem _ h) | (intro h j hh; split at hh; cases hh; exact hh)

/-- Somebody has been joined or detached. -/
def Waited (l : List Ev) : Prop := (∃ j h v, Ev.joined j h v ∈ l) ∨ ∃ j h, Ev.detachCall j h ∈ l

theorem gone_phase {w : Inst → Bool} {sig : Bool} {s : State} (I : Inv w sig s) {h : Inst} {T : Thr} (hT : s.thr h = some T)
    (hv : s.view T.addr h = none) : (∃ j k, s.cons h = some (j, k, .freed)) ∨ ∃ j, s.cons h = some (j, .detach, .released) := by
  have O := I.ok h T hT
  have lo : ∀ {w}, Lost w (s.cons h) (s.view T.addr h) → (∃ j k, s.cons h = some (j, k, .freed)) ∨ ∃ j, s.cons h = some (j, .detach, .released) :=
    fun ⟨_, _, j, k, hc⟩ => .inl ⟨j, k, hc⟩
  have rl : Released (s.cons h) → (∃ j k, s.cons h = some (j, k, .freed)) ∨ ∃ j, s.cons h = some (j, .detach, .released) := .inr
  have lv : Live (w h) T (s.cons h) (s.view T.addr h) → (∃ j k, s.cons h = some (j, k, .freed)) ∨ ∃ j, s.cons h = some (j, .detach, .released) := by
    rintro ⟨-, h | ⟨r, hr, -⟩⟩
    · exact lo h
    · rw [hv] at hr; cases hr
  have ab : Aband (w h) T (s.cons h) (s.view T.addr h) → (∃ j k, s.cons h = some (j, k, .freed)) ∨ ∃ j, s.cons h = some (j, .detach, .released) := by
    rintro ⟨-, h | ⟨r, hr, -⟩⟩
    · exact lo h
    · rw [hv] at hr; cases hr
  have ov : Over (w h) T (s.cons h) (s.view T.addr h) → (∃ j k, s.cons h = some (j, k, .freed)) ∨ ∃ j, s.cons h = some (j, .detach, .released) := by
    rintro ⟨-, ⟨-, j, k, h⟩ | ⟨r, hr, -⟩⟩
    · exact .inl ⟨j, k, h⟩
    · rw [hv] at hr; cases hr
  have G := O.good
  unfold Good at G
  split at G
  · exact lv G.1
  · exact lv G.1
  · exact lv G.1
  · exact lv G.1
  · exact ab G.1
  · exact rl G.1.1
  · exact rl G.1.1
  · exact rl G.1.1
  · exact rl G.1.1
  · exact rl G.1.1
  · exact rl G.1
  · exact ab G.1
  · exact G.elim (fun G => ab G.1) fun G => rl G.1
  · exact ov G
  · exact G.elim ov fun G => G.elim (fun G => rl G.1) fun G => ab G.2.1

theorem gone_waited {w : Inst → Bool} {sig : Bool} {s : State} (I : Inv w sig s) (F : FreedOk s) {h : Inst} {T : Thr} (hT : s.thr h = some T)
    (hv : s.view T.addr h = none) : Waited s.log := by
  have O := I.ok h T hT
  rcases gone_phase I hT hv with ⟨j, k, hc⟩ | ⟨j, hc⟩
  · cases k with
    | join => obtain ⟨v, h⟩ := F h j hc; exact .inl ⟨_, _, _, h⟩
    | detach => exact .inr ⟨j, h, (O.link.dc j).mpr ⟨_, hc⟩⟩
  · exact .inr ⟨j, h, (O.link.dc j).mpr ⟨_, hc⟩⟩

/-- A thread that detaches itself does not wait. -/
theorem no_self_wait {sig : Bool} {s : State} {h : Inst} (I : Inv (only h) sig s) {ad : Nat} (hc : s.call h = some (.blocked .detach ad h)) : False := by
  have C := I.callOk h _ hc
  obtain ⟨T, hT, hu⟩ := C.actor
  have hcons : s.cons h = some (h, .detach, .waiting) := C.cons
  have O := I.ok h T hT
  have lv : ¬ Live (only h h) T (s.cons h) (s.view T.addr h) := by
    rintro ⟨-, ⟨-, -, j, k, h⟩ | ⟨r, -, -, ⟨-, h⟩ | ⟨-, j, h⟩⟩⟩
    · rw [hcons] at h; cases h
    · simp [hcons, Pending] at h
    · rw [hcons] at h; cases h
  have G := O.good
  unfold Good at G
  cases hst : T.stage <;> simp only [hst, Stage.user] at hu G
  · exact lv G.1
  · exact lv G.1

end Origin.Life

namespace Origin.Life

/-- What can make a thread waited for. -/
theorem waited_new {sig : Bool} {s s' : State} {x : Action} (h : step sig s x = some s') (hd : ∀ t u, x ≠ .detach t u) (hs : x.sys = false)
    (hw : Waited s'.log) : Waited s.log := by
  have key : ∀ {s1 : State} {e : Ev}, s1.log = e :: s.log → (∀ j h v, e ≠ .joined j h v) → (∀ j h, e ≠ .detachCall j h) → Waited s1.log → Waited s.log := by
    intro s1 e he h1 h2 hw
    rw [he] at hw
    rcases hw with ⟨j, h, v, hm⟩ | ⟨j, h, hm⟩
    · rcases List.mem_cons.mp hm with hm | hm
      · exact absurd hm.symm (h1 _ _ _)
      · exact .inl ⟨_, _, _, hm⟩
    · rcases List.mem_cons.mp hm with hm | hm
      · exact absurd hm.symm (h2 _ _)
      · exact .inr ⟨_, _, hm⟩
  cases x <;> simp [Action.sys] at hs <;> simp only [step] at h
  case detach t u => exact absurd rfl (hd t u)
  all_goals
    (repeat' split at h) <;> cases h <;> first
      | exact key rfl (by simp) (by simp) hw
      | exact hw

end Origin.Life

namespace Origin.User
open Proc (Frame Fn PFinished)
open Whole (userTop running news)

variable {σ C : Type} {pr : Prg σ C} {c : Proc.Cfg} {sig : Bool} {e : State σ C} {a : Abs σ C} {m : σ}

theorem AReachW.reach {lk : Bool} {w : Option Nat} (A : AReachW pr lk m w a) : AReach pr lk m a := by
  induction A with
  | init tid => exact .init tid
  | step A h ih => exact ih.step h

theorem AReach.noting {lk : Bool} (A : AReach pr lk m a) : ∃ w, AReachW pr lk m w a := by
  induction A with
  | init tid => exact ⟨_, .init tid⟩
  | step A h ih => obtain ⟨w, ih⟩ := ih; exact ⟨_, ih.step h⟩

/-- `sim_step`, saying what the abstract step is when somebody is joined or detached. -/
theorem sim_stepW (hok : c.Ok pr.ctors.length pr.finis.length) (RR : Rel pr c e a) (K0 : Calm c sig e.w) {x : Action} {e' : State σ C}
    (hs : step pr c sig e x = some e') (K : Calm c sig e'.w) :
    ∃ a', ((a' = a ∧ (Life.Waited e'.w.l.log → Life.Waited e.w.l.log)) ∨
      ∃ t r x, astep pr (locks c) a t r x = some a' ∧ (a.waits pr t = true ∨ (Life.Waited e'.w.l.log → Life.Waited e.w.l.log))) ∧ Rel pr c e' a' := by
  have go : (Life.Waited e'.w.l.log → Life.Waited e.w.l.log) →
      ∃ a', ((a' = a ∧ (Life.Waited e'.w.l.log → Life.Waited e.w.l.log)) ∨
      ∃ t r x, astep pr (locks c) a t r x = some a' ∧ (a.waits pr t = true ∨ (Life.Waited e'.w.l.log → Life.Waited e.w.l.log))) ∧ Rel pr c e' a' := by
    intro hmono
    obtain ⟨a', h, RR'⟩ := sim_step hok RR K0 hs K
    rcases h with rfl | ⟨t, r, x, h⟩
    · exact ⟨_, .inl ⟨rfl, hmono⟩, RR'⟩
    · exact ⟨_, .inr ⟨t, r, x, h, .inr hmono⟩, RR'⟩
  rcases step_w hs with ⟨h, -⟩ | ⟨y, h1, h2⟩
  · exact go (by rw [h]; exact id)
  have hl := whole_life h2
  split at hl
  case h_2 => exact go (by rw [hl]; exact id)
  next z hz =>
  obtain ⟨l', hl, hle⟩ := hl
  by_cases hsy : z.sys = true
  · -- a step of origin's
    cases x with
    | user t ad tid =>
      simp only [Action.whole, State.op, Option.bind_eq_some_iff, Option.map_eq_some_iff] at h1
      obtain ⟨o, ⟨cd, -, rfl⟩, ha⟩ := h1
      cases hop : pr.op cd <;> simp only [hop, Op.action, Option.some.injEq, reduceCtorEq] at ha
      case ret => subst ha; split at hz <;> simp [Whole.Action.life?] at hz; subst hz; simp [Life.Action.sys] at hsy
      all_goals (subst ha; simp [Whole.Action.life?] at hz; try (subst hz; simp [Life.Action.sys] at hsy))
    | sys x =>
      cases h1
      cases y with
      | proc x => simp [Whole.Action.life?] at hz
      | create => simp [Whole.Action.life?] at hz; subst hz; simp [Life.Action.sys] at hsy
      | ret => simp [Whole.Action.life?] at hz; subst hz; simp [Life.Action.sys] at hsy
      | release t =>
        simp [Whole.Action.life?] at hz; subst hz; simp [Life.Action.sys] at hsy
      | life x =>
        simp only [Whole.Action.life?, Option.some.injEq] at hz
        subst hz
        have hal := alive h2
        simp only [step] at hs
        split at hs
        case isFalse => cases hs
        next hsys =>
        rw [Option.map_eq_some_iff] at hs
        obtain ⟨w', hs, rfl⟩ := hs
        have hww : w' = e.w.next l' e.w.p := by
          simp only [Whole.step, hal, Bool.or_self, Bool.false_eq_true, if_false] at hs
          cases x <;> simp [isSys] at hsys <;> simp [Option.map_eq_some_iff, hl] at hs <;> exact hs.symm
        subst hww
        rw [absorb_w] at K
        obtain ⟨a', h, RR'⟩ := sim_sysW RR hal.1 (Life.step_eff hl hsy) K
        rcases h with ⟨rfl, evs, hlog, hq⟩ | ⟨t, r, x, h, hwt⟩
        · refine ⟨_, .inl ⟨rfl, fun h => ?_⟩, RR'⟩
          rw [absorb_w, next_life, hlog] at h
          rcases h with ⟨j, h, v, hm⟩ | ⟨j, h, hm⟩
          · rcases List.mem_append.mp hm with hm | hm
            · exact absurd (hq _ hm) (by simp [Life.Ev.quiet])
            · exact .inl ⟨_, _, _, hm⟩
          · rcases List.mem_append.mp hm with hm | hm
            · exact absurd (hq _ hm) (by simp [Life.Ev.quiet])
            · exact .inr ⟨_, _, hm⟩
        · exact ⟨_, .inr ⟨t, r, x, h, .inl hwt.1⟩, RR'⟩
  · by_cases hd : ∃ t u, z = .detach t u
    · obtain ⟨t, u, rfl⟩ := hd
      have hyd : y = .life (.detach t u) := by cases y <;> simp [Whole.Action.life?] at hz; rw [hz]
      subst hyd
      cases x with
      | sys x => cases h1; simp [step, isSys] at hs
      | user t' ad tid =>
        simp only [step] at hs
        split at hs
        · cases hs
        next cd cs hcd =>
        simp only [Action.whole, State.op, hcd, List.head?_cons, Option.map_some, Option.bind_some] at h1
        cases hop : pr.op cd <;> simp only [hop, Op.action, Option.some.injEq, reduceCtorEq] at h1
        case ret => split at h1 <;> cases h1
        all_goals (cases h1; try skip)
        simp only [hop, Op.action, Option.bind_some, Option.map_eq_some_iff] at hs
        obtain ⟨w', h, rfl⟩ := hs
        rw [absorb_w] at K
        obtain ⟨a', ⟨r, x, h, hwt⟩, RR'⟩ := sim_detachW RR K0.known.proc hcd hop h K
        exact ⟨_, .inr ⟨_, r, x, h, .inl hwt⟩, RR'⟩
    · exact go (by rw [hle]; exact Life.waited_new hl (fun t u h => hd ⟨t, u, h⟩) (by simpa using hsy))

theorem Reach.freed {P : Life.State → Life.Action → Prop} (R : Reach pr c sig m P e) : Life.FreedOk e.w.l := by
  induction R with
  | init ad tid _ => intro h j hh; cases hh
  | step R hp hs ih =>
    rcases step_w hs with ⟨h, -⟩ | ⟨y, h1, h2⟩
    · rw [h]; exact ih
    have hl := whole_life h2
    split at hl
    case h_2 => rw [hl]; exact ih
    obtain ⟨l', hl, hle⟩ := hl
    rw [hle]; exact ih.step hl

theorem astep_len {lk : Bool} {t x : Nat} {r : Option Nat} {a' : Abs σ C} (h : astep pr lk a t r x = some a') : a.thr.length ≤ a'.thr.length := by
  unfold astep at h
  split at h
  · cases h
  split at h
  · cases h
  split at h
  · next cd k hp =>
    cases hop : pr.op cd <;> simp only [hop, opStep] at h
    all_goals (repeat' split at h) <;> cases h <;> simp [Abs.setThr]
  · unfold nextStep at h
    (repeat' split at h) <;> cases h <;> simp [Abs.setThr]
  · cases h

theorem AReachW.le {lk : Bool} {n : Nat} (A : AReachW pr lk m (some n) a) : n ≤ a.thr.length := by
  generalize hw : some n = w at A
  induction A with
  | init => cases hw
  | step A h ih =>
    rename_i w a t r x a'
    have := astep_len h
    cases w with
    | some n' => cases hw; exact Nat.le_trans (ih rfl) this
    | none =>
      simp only [noteWait] at hw
      split at hw <;> cases hw
      exact this

/-- The history grows; `create` adds one creation, `detach` one detachment, other actions none. -/
theorem step_log {s s' : Life.State} {x : Life.Action} (h : Life.step sig s x = some s') :
    (∀ ev ∈ s.log, ev ∈ s'.log) ∧
    (∀ p u b i, .created p u b i ∈ s'.log → .created p u b i ∈ s.log ∨ ((s.recs b).isNone = true ∧ u = s.next ∧ s'.next = s.next + 1)) ∧
    (∀ j u, .detachCall j u ∈ s'.log → .detachCall j u ∈ s.log ∨ (x = .detach j u ∧ ∃ U, s.thr u = some U)) := by
  by_cases hsy : x.sys = true
  · obtain ⟨evs, hlog, hev⟩ := (Life.step_eff h hsy).log
    have key : ∀ ev : Life.Ev, ev.quiet = false → (∀ t y v, ev ≠ .joined t y v) → ev ∈ s'.log → ev ∈ s.log := by
      intro ev hq' hj hm
      rw [hlog] at hm
      rcases List.mem_append.mp hm with hm | hm
      · rcases hev with hq | ⟨t, y, v, evs', rfl, hq, -⟩
        · rw [hq _ hm] at hq'; cases hq'
        · rcases List.mem_cons.mp hm with hm | hm
          · exact absurd hm (hj _ _ _)
          · rw [hq _ hm] at hq'; cases hq'
      · exact hm
    exact ⟨fun ev he => by rw [hlog]; exact List.mem_append_right _ he, fun p u b i hm => .inl (key _ rfl (by simp) hm),
      fun j u hm => .inl (key _ rfl (by simp) hm)⟩
  · have one : ∀ {s1 : Life.State} {e : Life.Ev}, s1.log = e :: s.log → (∀ ev ∈ s.log, ev ∈ s1.log) := by
      intro s1 e he ev hm; rw [he]; exact List.mem_cons_of_mem _ hm
    cases x <;> simp [Life.Action.sys] at hsy <;> simp only [Life.step] at h
    case detach t u =>
      (repeat' split at h) <;> cases h
      · exact ⟨one rfl, fun _ _ _ _ hm => .inl (by simpa [Life.State.faulted, Life.State.ev] using hm),
          fun _ _ hm => .inl (by simpa [Life.State.faulted, Life.State.ev] using hm)⟩
      · next hH _ _ =>
        refine ⟨one rfl, fun _ _ _ _ hm => .inl (by simpa [Life.State.setCons, Life.State.setCall, Life.State.ev] using hm), fun j v hm => ?_⟩
        simp only [Life.State.ev, List.mem_cons, Life.Ev.detachCall.injEq] at hm
        rcases hm with ⟨rfl, rfl⟩ | hm
        · exact .inr ⟨rfl, _, hH⟩
        · exact .inl hm
    case create t ad tid =>
      (repeat' split at h) <;> cases h
      · exact ⟨one rfl, fun _ _ _ _ hm => .inl (by simpa [Life.State.faulted, Life.State.ev] using hm),
          fun _ _ hm => .inl (by simpa [Life.State.faulted, Life.State.ev] using hm)⟩
      · next hcond _ =>
        refine ⟨one rfl, fun p v b i hm => ?_, fun j v hm => .inl (by simpa [Life.State.ev] using hm)⟩
        simp only [Life.State.ev, List.mem_cons, Life.Ev.created.injEq] at hm
        rcases hm with ⟨-, rfl, rfl, -⟩ | hm
        · exact .inr ⟨hcond.2.1, rfl, rfl⟩
        · exact .inl hm
    all_goals
      (repeat' split at h) <;> cases h <;>
      refine ⟨fun ev hm => ?_, fun _ _ _ _ hm => .inl ?_, fun _ _ hm => .inl ?_⟩
      all_goals
        simp [Life.State.ev, Life.State.faulted, Life.State.setStage, Life.State.modThr, Life.State.setCall, Life.State.setCons] at hm ⊢
        first | exact hm | exact .inr hm

/-- What is known while only early threads are waited for. -/
structure EarlyInv (pr : Prg σ C) (e : State σ C) (w : Option Nat) : Prop where
  waited : Life.Waited e.w.l.log → w ≠ none
  ord : ∀ p u ad x p' u' x', Life.Ev.created p u ad x ∈ e.w.l.log → Life.Ev.created p' u' ad x' ∈ e.w.l.log → (u : Nat) < u' →
    (∃ j, Life.Ev.unmap u j ∈ e.w.l.log) ∧ ∃ n, w = some n ∧ n ≤ (u' : Nat)
  det : ∀ j u, Life.Ev.detachCall j u ∈ e.w.l.log → u = j ∨ ∃ n, w = some n ∧ (u : Nat) < n

theorem EarlyInv.no_stray {w : Option Nat} (E : EarlyInv pr e w) (RR : Rel pr c e a) (A : AReachW pr (locks c) m w a)
    (hearly : EarlyOnly pr (locks c) m) (K : Calm c sig e.w) {x : Life.Action} {l' : Life.State} (h : Life.step sig e.w.l x = some l') :
    ¬ Life.Stray e.w.l x := by
  intro hs
  cases x with
  | wake t o =>
    cases o with
    | none => simp [Life.Stray] at hs
    | some j =>
      obtain ⟨k, ad, u, hc, hcl⟩ := hs
      have I := K.for u
      simp only [Life.step] at h
      split at h
      case h_2 => cases h
      next T hT =>
      split at h
      case isFalse => cases h
      next hst =>
      simp only [hc] at h
      split at h
      case isFalse => cases h
      next ha =>
      have O := I.ok t T hT
      have G := O.good
      simp only [Life.Good, hst] at G
      have htc : Life.Ev.cleared t ∈ e.w.l.log := O.link.cl.mpr ⟨G.1, by rw [hst]; trivial⟩
      have hut : (u : Nat) ≠ t := by intro h; exact hcl (h ▸ htc)
      have C := I.callOk j _ hc
      obtain ⟨H, hH, haddr, -⟩ := C.target
      have hH : e.w.l.thr u = some H := hH
      have haddr : H.addr = ad := haddr
      have hcons : e.w.l.cons u = some (j, k, .waiting) := C.cons
      have OH := I.ok u H hH
      obtain ⟨p, hp⟩ := O.link.cr
      obtain ⟨p', hp'⟩ := OH.link.cr
      rw [haddr] at hp'
      rw [← ha] at hp
      rcases Nat.lt_or_gt_of_ne hut with hlt | hlt
      · obtain ⟨hum, -⟩ := E.ord _ _ _ _ _ _ _ hp' hp hlt
        have := OH.link.um.mp hum
        rcases Life.gone_phase I hH this with ⟨j', k', h'⟩ | ⟨j', h'⟩ <;> rw [hcons] at h' <;> cases h'
      · obtain ⟨-, n, rfl, hn⟩ := E.ord _ _ _ _ _ _ _ hp hp' hlt
        have hlen : (u : Nat) < a.thr.length := by
          rw [RR.len, ← K.linked.next]; exact I.lt u H hH
        cases k with
        | detach =>
          have hdc := (OH.link.dc j).mpr ⟨_, hcons⟩
          rcases E.det j u hdc with rfl | ⟨n', hn', hlt'⟩
          · exact Life.no_self_wait I hc
          · cases hn'; exact absurd hlt' (Nat.not_lt.mpr hn)
        | join =>
          obtain ⟨fn, rest, cd, cs, hstk, hcd, hop⟩ := RR.call j _ hc
          obtain ⟨k, hop⟩ := hop rfl
          obtain ⟨T', hT'⟩ := RR.thread K.known.proc (t := j) (by rw [hstk]; simp)
          have hpos := (RR.thr j T' hT').pos
          rw [hstk, hcd] at hpos
          simp only [posOf] at hpos
          obtain ⟨cd', cs', kk, hcd', hTp⟩ := posU_run hpos
          cases hcd'
          have := hearly n a j A
          unfold Abs.early at this
          rw [hT'] at this
          cases T'
          simp only at hTp
          subst hTp
          simp only [hop] at this
          exact absurd (this hlen) (Nat.not_lt.mpr hn)
  | _ => simp [Life.Stray] at hs

/-- A program that waits only for early threads meets no stray wake-up. -/
theorem Reach.early {P : Life.State → Life.Action → Prop} (hok : c.Ok pr.ctors.length pr.finis.length) (hearly : EarlyOnly pr (locks c) m)
    (hsig : NoDetach pr ∨ ∀ s x, P s x → sig = true ∨ ¬ Life.LateSignal s x) (R : Reach pr c sig m P e) :
    Reach pr c sig m (Life.Orderly sig) e ∧ ∃ a w, AReachW pr (locks c) m w a ∧ Rel pr c e a ∧ EarlyInv pr e w := by
  induction R with
  | init ad tid ht =>
    refine ⟨.init ad tid ht, _, _, .init tid, Rel.init ad tid, by simp [Life.Waited, User.init, Whole.init, Life.init], ?_, ?_⟩
    · intro p u b x p' u' x' h h' hlt
      simp [User.init, Whole.init, Life.init] at h h'
      rw [h.2.1, h'.2.1] at hlt
      exact absurd hlt (Nat.lt_irrefl _)
    · intro j u h
      simp [User.init, Whole.init, Life.init] at h
  | step R hp hs ih =>
    rename_i e x e'
    obtain ⟨ih, a, w, A, RR, E⟩ := ih
    have K := ih.calm
    have I := K.for 0
    have R' : Reach pr c sig m (Life.Orderly sig) e' := by
      refine .step ih ?_ hs
      intro y z hy hz
      have hpz := hp y z hy hz
      rcases step_w hs with ⟨-, h⟩ | ⟨y', h1, h2⟩
      · rw [h] at hy; cases hy
      rw [hy] at h1; cases h1
      have := whole_life h2
      rw [hz] at this
      obtain ⟨l', hl, -⟩ := this
      refine ⟨E.no_stray RR A hearly K hl, ?_⟩
      rcases hsig with hn | hsig
      · refine .inr fun hla => ?_
        obtain ⟨j, u, hd⟩ := Life.late_detached I hl hla
        exact ih.no_detach hn j u hd
      · exact hsig _ _ hpz
    refine ⟨R', ?_⟩
    obtain ⟨a', h, RR'⟩ := sim_stepW hok RR K hs R'.calm
    -- the new state of the abstract machine
    obtain ⟨w', A', hmono, hw'⟩ : ∃ w', AReachW pr (locks c) m w' a' ∧ (∀ n, w = some n → w' = some n) ∧
        (Life.Waited e'.w.l.log → w = none → w' = some a.thr.length) := by
      rcases h with ⟨rfl, hmn⟩ | ⟨t, r, x, h, hwt⟩
      · exact ⟨w, A, fun _ h => h, fun hw hn => absurd hn (E.waited (hmn hw))⟩
      · refine ⟨_, A.step h, ?_, ?_⟩
        · rintro n rfl; rfl
        · rintro hw rfl
          rcases hwt with hwt | hmn
          · simp [noteWait, hwt]
          · exact absurd rfl (E.waited (hmn hw))
    refine ⟨a', w', A', RR', ?_, ?_, ?_⟩
    · intro hw hn
      cases w with
      | none => rw [hw' hw rfl] at hn; cases hn
      | some n => rw [hmono n rfl] at hn; cases hn
    · -- addresses
      intro p u b x p' u' x' hm hm' hlt
      have hE : Life.Ev.created p u b x ∈ e.w.l.log → Life.Ev.created p' u' b x' ∈ e.w.l.log → (∀ ev ∈ e.w.l.log, ev ∈ e'.w.l.log) →
          (∃ j, Life.Ev.unmap u j ∈ e'.w.l.log) ∧ ∃ n, w' = some n ∧ n ≤ (u' : Nat) := by
        intro h1 h2 hg
        obtain ⟨⟨j, hj⟩, n, hn, hle⟩ := E.ord _ _ _ _ _ _ _ h1 h2 hlt
        exact ⟨⟨j, hg _ hj⟩, n, hmono n hn, hle⟩
      rcases step_w hs with ⟨h, -⟩ | ⟨y, h1, h2⟩
      · rw [h] at hm hm' hE ⊢; exact hE hm hm' fun _ h => h
      have hl := whole_life h2
      split at hl
      case h_2 => rw [hl] at hm hm' hE ⊢; exact hE hm hm' fun _ h => h
      obtain ⟨l', hl, hle⟩ := hl
      rw [hle] at hm hm' hE ⊢
      obtain ⟨hg, hcr, -⟩ := step_log hl
      have lt : ∀ p v b x, Life.Ev.created p v b x ∈ e.w.l.log → (v : Nat) < e.w.l.next := by
        intro p v b x hm
        obtain ⟨T, hT⟩ := I.logThr _ hm
        exact I.lt v T hT
      rcases hcr _ _ _ _ hm with hm | ⟨-, rfl, -⟩ <;> rcases hcr _ _ _ _ hm' with hm' | ⟨hnone, rfl, -⟩
      · exact hE hm hm' hg
      · -- the new thread is where `u` was
        obtain ⟨T, hT⟩ := I.logThr _ hm
        have hT : e.w.l.thr u = some T := hT
        obtain ⟨rfl, -⟩ := (I.ok u T hT).link.cr1 _ _ _ hm
        have hv : e.w.l.view T.addr u = none := by
          unfold Life.State.view
          cases hr : e.w.l.recs T.addr with
          | none => rfl
          | some r => rw [hr] at hnone; cases hnone
        obtain ⟨j, hj⟩ := (I.ok u T hT).link.um.mpr hv
        have hwt := E.waited (Life.gone_waited I ih.freed hT hv)
        cases w with
        | none => exact absurd rfl hwt
        | some n =>
          refine ⟨⟨j, hg _ hj⟩, n, hmono n rfl, ?_⟩
          rw [K.linked.next, ← RR.len]
          exact A.le
      · exact absurd (Nat.lt_trans hlt (lt _ _ _ _ hm')) (Nat.lt_irrefl _)
      · exact absurd hlt (Nat.lt_irrefl _)
    · -- `detach` calls
      intro j u hd
      have hE : Life.Ev.detachCall j u ∈ e.w.l.log → u = j ∨ ∃ n, w' = some n ∧ (u : Nat) < n := by
        intro h1
        rcases E.det j u h1 with h | ⟨n, hn, hlt⟩
        · exact .inl h
        · exact .inr ⟨n, hmono n hn, hlt⟩
      rcases step_w hs with ⟨h, -⟩ | ⟨y, h1, h2⟩
      · rw [h] at hd; exact hE hd
      have hl := whole_life h2
      split at hl
      case h_2 => rw [hl] at hd; exact hE hd
      next z hz =>
      obtain ⟨l', hl, hle⟩ := hl
      have hd' := hd
      rw [hle] at hd
      rcases (step_log hl).2.2 j u hd with hd | ⟨rfl, U, hU⟩
      · exact hE hd
      have hlen : (u : Nat) < a.thr.length := by
        rw [RR.len, ← K.linked.next]; exact I.lt u U hU
      cases w with
      | none => exact .inr ⟨_, hw' (.inr ⟨j, u, hd'⟩) rfl, hlen⟩
      | some n =>
        have hyd : y = .life (.detach j u) := by cases y <;> simp [Whole.Action.life?] at hz; rw [hz]
        subst hyd
        cases x with
        | sys x => cases h1; simp [User.step, isSys] at hs
        | user t' ad tid =>
          simp only [User.step] at hs
          split at hs
          · cases hs
          next cd cs hcd =>
          simp only [Action.whole, State.op, hcd, List.head?_cons, Option.map_some, Option.bind_some] at h1
          cases hop : pr.op cd <;> simp only [hop, Op.action, Option.some.injEq, reduceCtorEq] at h1
          case ret => split at h1 <;> cases h1
          all_goals (cases h1; try skip)
          have hal := alive h2
          have hut : userTop e.w.p j = true := by
            simp only [Whole.step, hal, Bool.or_self, Bool.false_eq_true, if_false] at h2
            split at h2
            · assumption
            · cases h2
          obtain ⟨fn, rest, hstk⟩ := userTop_stk hut
          obtain ⟨T', hT'⟩ := RR.thread K.known.proc (t := j) (by rw [hstk]; simp)
          have hpos := (RR.thr j T' hT').pos
          rw [hstk, hcd] at hpos
          simp only [posOf] at hpos
          obtain ⟨cd', cs', kk, hcd', hTp⟩ := posU_run hpos
          cases hcd'
          have := hearly n a j A
          unfold Abs.early at this
          rw [hT'] at this
          cases T'
          simp only at hTp
          subst hTp
          simp only [hop] at this
          rcases this hlen with h | h
          · exact .inr ⟨n, hmono n rfl, h⟩
          · exact .inl h

theorem Reach.early_step {P : Life.State → Life.Action → Prop} (hok : c.Ok pr.ctors.length pr.finis.length) (hearly : EarlyOnly pr (locks c) m)
    (hsig : NoDetach pr ∨ ∀ s x, P s x → sig = true ∨ ¬ Life.LateSignal s x) (R : Reach pr c sig m P e) {x : Action} {e' : State σ C}
    (hp : ∀ y z, x.whole pr e = some y → y.life? = some z → P e.w.l z) (hs : User.step pr c sig e x = some e') :
    ∀ y z, x.whole pr e = some y → y.life? = some z → Life.Orderly sig e.w.l z := by
  obtain ⟨ih, a, w, A, RR, E⟩ := R.early hok hearly hsig
  have K := ih.calm
  intro y z hy hz
  have hpz := hp y z hy hz
  rcases step_w hs with ⟨-, h⟩ | ⟨y', h1, h2⟩
  · rw [h] at hy; cases hy
  rw [hy] at h1; cases h1
  have := whole_life h2
  rw [hz] at this
  obtain ⟨l', hl, -⟩ := this
  refine ⟨E.no_stray RR A hearly K hl, ?_⟩
  rcases hsig with hn | hsig
  · refine .inr fun hla => ?_
    obtain ⟨j, u, hd⟩ := Life.late_detached (K.for 0) hl hla
    exact ih.no_detach hn j u hd
  · exact hsig _ _ hpz

end Origin.User
