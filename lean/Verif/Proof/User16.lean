import Verif.Proof.User15
import Verif.Props.Fair
set_option linter.unusedSimpArgs false
/-! # Programs on fair schedules: ids of finished threads; registering functions -/

namespace Origin.Proc

/-- Where functions are registered. -/
theorem nextF_reg {c : Cfg} {s s' : State} {x : Action} (h : step c s x = some s') (hn : s'.nextF ≠ s.nextF) :
    x = .regThr x.tid ∨ (x = .step x.tid ∧ ∃ rest, s.stk x.tid = .regPush :: rest) := by
  unfold step at h
  split at h
  · cases h
  · split at h
    · cases h
    · next fn rest hs =>
      generalize hxt : x.tid = t at h hs
      unfold userStep at h
      split at h <;> (try split at h) <;> (try split at h) <;> (try cases h) <;>
        first
        | (refine absurd ?_ hn; simp [State.ev, State.setStk, State.setTd, State.beginExit]; done)
        | (rw [← hxt]; exact .inl rfl)
        | exact .inl rfl
    · next fr rest hnu hs =>
      split at h
      · next hx =>
        refine .inr ⟨hx, ?_⟩
        generalize x.tid = u at *
        cases fr <;> simp only [frameStep] at h <;> (try split at h) <;> (try cases h) <;> (try rw [Option.map_eq_some_iff] at h) <;>
          (try (obtain ⟨s1, h1, h2⟩ := h; subst h2)) <;>
          first
          | exact ⟨_, hs⟩
          | (refine absurd ?_ hn; simp [State.ev, State.setStk, State.setTd, State.beginExit]; done)
          | (refine absurd ?_ hn; simp [State.ev, State.setStk, State.setTd, State.beginExit, acquire_fields h1]; done)
          | (refine absurd ?_ hn; simp [State.ev, State.setStk, State.setTd, State.beginExit, release_eq]; done)
      · cases h

end Origin.Proc

namespace Origin.User
open Proc (Frame Fn PFinished)
open Whole (userTop running news)

variable {σ C : Type} {pr : Prg σ C} {c : Proc.Cfg} {sig : Bool} {e : State σ C} {a : Abs σ C} {m : σ}
variable {st : Nat → State σ C} {act : Nat → Option Action} {P : Life.State → Life.Action → Prop}
variable {ab : Nat → Abs σ C} {who : Nat → Option Nat} {us : Nat → List Nat}

/-- A function is registered only where the abstract machine registers one. -/
theorem Tracks.registers (T : Tracks pr c m st act ab who us) (X : IsExec pr c sig m (Life.Orderly sig) st act) {n : Nat}
    (h : (st (n + 1)).w.p.nextF ≠ (st n).w.p.nextF) : ∃ t, who n = some t ∧ (ab n).registers pr t = true := by
  have K0 := (X.reach n).calm
  have XP := X.whole.proc fun k => (X.reach k).calm.up
  cases hy : (wact pr st act n).bind Whole.Action.proc? with
  | none => exact absurd (congrArg Proc.State.nextF (XP.idle n hy)) h
  | some y =>
    have hs := XP.next n y hy
    have hwho : ∀ x t, act n = some x → ¬ Unseen pr (st n) x (st (n + 1)) → (∀ u, Actor pr (ab n) (st n) x (st (n + 1)) u → u = t) → who n = some t := by
      intro x t ha hu hac
      cases hw : who n with
      | none => exact absurd ((T.idle n hw).2.2 x ha) hu
      | some u =>
        obtain ⟨-, -, x', hx', h'⟩ := T.next n u hw
        rw [ha] at hx'; cases hx'
        rw [hac u h']
    cases ha : act n with
    | none => simp [wact, ha] at hy
    | some x =>
    simp only [wact, ha, Option.bind_some] at hy
    rcases Proc.nextF_reg hs h with h1 | ⟨h1, rest, h2⟩
    · generalize y.tid = t at h1
      subst h1
      cases x with
      | sys z => cases z <;> simp [Action.whole, Whole.Action.proc?] at hy; subst hy; have := (X.next n _ ha).2; simp [step, isSys] at this
      | user u ad tid =>
        simp only [Action.whole, Option.bind_eq_some_iff] at hy
        obtain ⟨z, ⟨o, ho, hz⟩, hy⟩ := hy
        have : u = t ∧ ∃ g k, o = .atExitT g k := by
          cases o <;> simp [Op.action] at hz
          case ret => split at hz <;> subst hz <;> simp [Whole.Action.proc?] at hy
          all_goals (subst hz; simp [Whole.Action.proc?] at hy)
          exact ⟨hy, _, _, rfl⟩
        obtain ⟨rfl, g, k, rfl⟩ := this
        refine ⟨u, hwho _ u ha (by simp [Unseen, ho]) fun v hv => hv.symm, ?_⟩
        have hstk : ∃ fn rest, (st n).w.p.stk u = .user fn :: rest := by
          have hs : Proc.step c (st n).w.p (.regThr u) = some _ := hs
          unfold Proc.step at hs
          simp only [Proc.Action.tid] at hs
          split at hs
          · cases hs
          split at hs
          · cases hs
          · exact ⟨_, _, by assumption⟩
          · cases hs
        obtain ⟨fn, rest, hstk⟩ := hstk
        obtain ⟨T', cd, cs, kk, hT, hcd, hp⟩ := (T.rel n).at_user K0.known.proc hstk
        simp only [State.op, hcd, List.head?_cons, Option.map_some, Option.some.injEq] at ho
        obtain ⟨p, f, i⟩ := T'
        simp only at hp; subst hp
        simp [Abs.registers, hT, ho]
    · generalize y.tid = t at h1 h2
      subst h1
      have key : x = .sys (.proc (.step t)) ∨ x = .sys (.release t) := by
        cases x with
        | sys y => cases y <;> simp [Action.whole, Whole.Action.proc?] at hy <;> simp [hy]
        | user u ad tid =>
          exfalso
          simp only [Action.whole, Option.bind_eq_some_iff] at hy
          obtain ⟨y, ⟨o, -, ho⟩, hy⟩ := hy
          cases o <;> simp [Op.action] at ho
          case ret => split at ho <;> subst ho <;> simp [Whole.Action.proc?] at hy
          all_goals (subst ho; simp [Whole.Action.proc?] at hy)
      have hw : who n = some t := by
        rcases key with rfl | rfl
        · refine hwho _ t ha ?_ fun v hv => hv.1.symm
          rintro ⟨fr, rest', q1, q2⟩
          rw [h2] at q1; cases q1
          simp [silent] at q2
        · exact hwho _ t ha (by simp [Unseen]) fun v hv => hv.1.symm
      refine ⟨t, hw, ?_⟩
      obtain ⟨T', hT⟩ := (T.rel n).thread K0.known.proc (t := t) (by rw [h2]; simp)
      have hpos := ((T.rel n).thr t _ hT).pos
      rw [h2] at hpos
      cases rest with
      | nil => simp [posOf, contOf] at hpos
      | cons fr rest =>
      cases fr <;> simp [posOf, contOf] at hpos
      obtain ⟨hat, hpos⟩ := hpos
      obtain ⟨cd, cs, k, hcd, hTp⟩ := posU_run hpos
      rw [hcd] at hat
      simp only [atReg] at hat
      cases hop : pr.op cd <;> simp [hop] at hat
      obtain ⟨p, f, i⟩ := T'
      simp only at hTp; subst hTp
      simp [Abs.registers, hT, hop]

/-- If the abstract machine registers functions only finitely often, so does the program. -/
theorem Tracks.many (T : Tracks pr c m st act ab who us) (X : IsExec pr c sig m (Life.Orderly sig) st act) {N : Nat}
    (h : ∀ n t, N ≤ n → who n = some t → (ab n).registers pr t = false) : Proc.FinitelyMany (fun n => (st n).w.p) := by
  have XP := X.whole.proc fun k => (X.reach k).calm.up
  have hst : ∀ n, N ≤ n → (st n).w.p.nextF = (st N).w.p.nextF := by
    intro n hn
    induction n with
    | zero => rw [show N = 0 by omega]
    | succ n ih =>
      by_cases hN : N = n + 1
      · rw [hN]
      rw [← ih (by omega)]
      refine Classical.byContradiction fun hne => ?_
      obtain ⟨t, h1, h2⟩ := T.registers X hne
      rw [h n t (by omega) h1] at h2; cases h2
  refine ⟨(st N).w.p.nextF, fun n f hf => ?_⟩
  have hf' : Proc.Regd (st (max n N)).w.p.log f := by
    rcases hf with ⟨t, ht⟩ | ⟨t, ht⟩
    · exact .inl ⟨t, XP.toSteps.log_stays (Nat.le_max_left _ _) ht⟩
    · exact .inr ⟨t, XP.toSteps.log_stays (Nat.le_max_left _ _) ht⟩
  have R := (X.reach (max n N)).calm.known.proc
  rw [← hst (max n N) (Nat.le_max_right _ _)]
  rcases hf' with hf' | ⟨t, ht⟩
  · exact R.pinv.fresh f hf'
  · exact R.tinv.fresh t f ht

/-- The ids of finished threads. -/
theorem Tracks.ids (T : Tracks pr c m st act ab who us) (hok : c.Ok pr.ctors.length pr.finis.length)
    (X : IsExec pr c sig m (Life.Orderly sig) st act) (F : Fair pr c sig st act) : AIds pr (locks c) ab who := by
  obtain ⟨ls, rs, xs, hA, hP⟩ := T.answers
  refine ⟨ls, rs, xs, hA, ?_⟩
  intro u n v l i hdn
  by_cases hup : ∀ k, (st k).w.p.dead = false
  · have hc : ∀ k, (st k).w.crashed = false := fun k => (X.reach k).calm.up
    obtain ⟨N, hN, hD, -⟩ := X.whole.life.toSteps.finished_exits (h := u) (F.whole.life hup hc) (fun k => (X.reach k).calm.for u)
      (Life.finished_rank.mpr (Stuck.tfinished T hok X hdn))
    have hdead : ∀ k, N ≤ k → ∃ H, (st k).w.l.thr u = some H ∧ H.stage = .dead := fun k hk =>
      X.whole.life.toSteps.stays (Q := fun s => ∃ H, s.thr u = some H ∧ H.stage = .dead) hD (fun m x _ ha hD => by
        obtain ⟨H, hH, hs⟩ := hD
        obtain ⟨T', hT', hr'⟩ := Life.rank_step ((X.reach m).calm.for u) hH (by rw [hs]; simp [Life.Stage.rank]) (X.whole.life.next m x ha).2
        refine ⟨T', hT', ?_⟩
        rw [hs] at hr'
        cases hg : T'.stage <;> simp [hg, Life.Stage.rank] at hr' ⊢) k hk
    refine ⟨N, fun k t hk hw hask => hP k t u hw hask ?_⟩
    obtain ⟨H, hH, hHd⟩ := hdead k hk
    exact ⟨H, hH, by rw [hHd]; trivial⟩
  · obtain ⟨N, hN⟩ := Classical.not_forall.mp hup
    have hN : (st N).w.p.dead = true := by simpa using hN
    refine ⟨N, fun k t hk hw _ => ?_⟩
    obtain ⟨⟨r, x, hst⟩, -⟩ := T.next k t hw
    obtain ⟨t', x', v', hg⟩ := dead_group (X.reach N).calm.known.proc hN
    have := (T.rel k).ended t' x' v' ((X.whole.proc fun k => (X.reach k).calm.up).toSteps.log_stays hk hg)
    simp [astep, this] at hst

end Origin.User
