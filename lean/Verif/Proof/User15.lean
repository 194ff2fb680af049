import Verif.Proof.User14
set_option linter.unusedSimpArgs false
/-! # Programs on fair schedules: no thread that can go on is passed over for ever -/

namespace Origin.Life

/-- Calls begin with `join` and `detach`. -/
theorem call_begins {sig : Bool} {s s' : State} {x : Action} (h : step sig s x = some s') {t : Inst} (hn : s.call t = none) :
    s'.call t = none ∨ ∃ u, x = .join t u ∨ x = .detach t u := by
  by_cases hsy : x.sys = true
  · cases hc : s'.call t with
    | none => exact .inl rfl
    | some cl =>
      obtain ⟨cl', h1, -⟩ := (step_eff h hsy).call t cl hc
      rw [hn] at h1; cases h1
  · cases x <;> simp [Action.sys] at hsy <;> simp only [step] at h
    case join j u =>
      by_cases hj : j = t
      · subst hj; exact .inr ⟨u, .inl rfl⟩
      · left
        (repeat' split at h) <;> cases h <;> simp [State.ev, State.faulted, State.setCall, State.setCons, Ne.symm hj, hn]
    case detach j u =>
      by_cases hj : j = t
      · subst hj; exact .inr ⟨u, .inr rfl⟩
      · left
        (repeat' split at h) <;> cases h <;> simp [State.ev, State.faulted, State.setCall, State.setCons, Ne.symm hj, hn]
    all_goals
      left
      (repeat' split at h) <;> cases h <;> simpa [State.ev, State.faulted, State.setStage, State.modThr] using hn

end Origin.Life

namespace Origin.User
open Proc (Frame Fn PFinished)
open Whole (userTop running news)

variable {σ C : Type} {pr : Prg σ C} {c : Proc.Cfg} {sig : Bool} {m : σ} {e : State σ C}
variable {st : Nat → State σ C} {act : Nat → Option Action} {ab : Nat → Abs σ C} {who : Nat → Option Nat} {us : Nat → List Nat}

/-- An execution in which thread `t`, from `n` on, could always go on and never does. -/
structure Stuck (pr : Prg σ C) (c : Proc.Cfg) (sig : Bool) (m : σ) (st : Nat → State σ C) (act : Nat → Option Action)
    (ab : Nat → Abs σ C) (who : Nat → Option Nat) (us : Nat → List Nat) (t n : Nat) : Prop where
  ok : c.Ok pr.ctors.length pr.finis.length
  exec : IsExec pr c sig m (Life.Orderly sig) st act
  fair : Fair pr c sig st act
  tracks : Tracks pr c m st act ab who us
  settled : ∀ k, n ≤ k → (st k).w.p.nextF = (st n).w.p.nextF
  able : ∀ k, n ≤ k → ∃ r x, astep pr (locks c) (ab k) t r x ≠ none
  off : ∀ k, n ≤ k → who k ≠ some t
  proper : Proper pr c m

namespace Stuck
variable {t n : Nat} (S : Stuck pr c sig m st act ab who us t n)
include S

theorem status {k : Nat} (hk : n ≤ k) : (ab k).status = none := by
  obtain ⟨r, x, h⟩ := S.able k hk
  cases hs : (ab k).status with
  | none => rfl
  | some v => exact absurd (by simp [astep, hs]) h

theorem up (k : Nat) : (st k).w.p.dead = false := by
  cases hd : (st k).w.p.dead with
  | false => rfl
  | true =>
    obtain ⟨u, x, v, hg⟩ := ((S.exec.reach k).calm.known.proc.ended).mp hd
    have := S.exec.whole.log_stays (Nat.le_max_left k n) (((S.exec.reach k).calm.known.inv.inr _).mpr hg)
    have := ((S.exec.reach (max k n)).calm.known.inv.inr _).mp this
    have := (S.tracks.rel (max k n)).ended _ _ _ this
    rw [S.status (Nat.le_max_right k n)] at this; cases this

theorem calm (k : Nat) : Calm c sig (st k).w := (S.exec.reach k).calm

theorem prun : Proc.IsExec c (fun n => (st n).w.p) (fun n => (wact pr st act n).bind Whole.Action.proc?) :=
  S.exec.whole.proc fun k => (S.calm k).up

theorem pfair : Proc.Fair c (fun n => (st n).w.p) (fun n => (wact pr st act n).bind Whole.Action.proc?) :=
  S.fair.whole.proc S.exec.whole

theorem lfair : Life.Fair sig (fun n => (st n).w.l) (fun n => (wact pr st act n).bind Whole.Action.life?) :=
  S.fair.whole.life S.up fun k => (S.calm k).up

theorem keeps {k : Nat} (hk : n ≤ k) : (ab k).keeps pr c (us k) t := S.proper _ _ _ (S.tracks.reach k) (S.status hk)

/-- Where `t` is on the abstract machine. -/
theorem thread {k : Nat} (hk : n ≤ k) : ∃ T, (ab k).thr[t]? = some T ∧ TRel pr c (st k) t T := by
  obtain ⟨r, x, h⟩ := S.able k hk
  cases hT : (ab k).thr[t]? with
  | none => exact absurd (by simp [astep, hT, S.status hk]) h
  | some T => exact ⟨T, rfl, (S.tracks.rel k).thr t T hT⟩

/-- An action of `t`'s is one the abstract machine does not see. -/
theorem unseen {k : Nat} (hk : n ≤ k) {x : Action} (ha : act k = some x) (h : ∀ u, Actor pr (ab k) (st k) x (st (k + 1)) u → u = t) :
    Unseen pr (st k) x (st (k + 1)) := by
  cases hw : who k with
  | none => exact (S.tracks.idle k hw).2.2 x ha
  | some u =>
    obtain ⟨-, -, y, hy, hac⟩ := S.tracks.next k u hw
    rw [ha] at hy; cases hy
    exact absurd (hw.trans (by rw [h u hac])) (S.off k hk)

/-- A step of origin's, on the call stack of `t`, is one the abstract machine does not see. -/
theorem silent_step {k : Nat} (hk : n ≤ k) (h : (wact pr st act k).bind Whole.Action.proc? = some (.step t)) {fr : Frame} {rest : List Frame}
    (hs : (st k).w.p.stk t = fr :: rest) : silent fr = true ∧ act k = some (.sys (.proc (.step t))) := by
  have key : act k = some (.sys (.proc (.step t))) ∨ act k = some (.sys (.release t)) := by
    unfold wact at h
    cases ha : act k with
    | none => simp [ha] at h
    | some x =>
      simp only [ha, Option.bind_some] at h
      cases x with
      | sys y => cases y <;> simp [Action.whole, Whole.Action.proc?] at h <;> simp [h]
      | user u ad tid =>
        exfalso
        simp only [Action.whole, Option.bind_eq_some_iff] at h
        obtain ⟨y, ⟨o, -, ho⟩, hy⟩ := h
        cases o <;> simp [Op.action] at ho
        case ret => split at ho <;> subst ho <;> simp [Whole.Action.proc?] at hy
        all_goals (subst ho; simp [Whole.Action.proc?] at hy)
  rcases key with ha | ha
  · have := S.unseen hk ha fun u hu => hu.1.symm
    obtain ⟨fr', rest', h1, h2⟩ := this
    rw [hs] at h1; cases h1
    exact ⟨h2, ha⟩
  · exact (S.unseen hk ha fun u hu => hu.1.symm).elim

/-- Its stack is not empty. -/
theorem busy {k : Nat} (hk : n ≤ k) : (st k).w.p.stk t ≠ [] := by
  intro hs
  obtain ⟨T, hT, R⟩ := S.thread hk
  have := R.pos
  rw [hs] at this
  simp only [posOf, Option.some.injEq] at this
  obtain ⟨r, x, h⟩ := S.able k hk
  exact h (by simp [astep, S.status hk, hT, ← this])

/-- L1: frames of origin's whose step the program sees. -/
theorem not_loud {k : Nat} (hk : n ≤ k) {fr : Frame} {rest : List Frame} (hs : (st k).w.p.stk t = fr :: rest) (hu : ∀ fn, fr ≠ .user fn)
    (hq : silent fr = false) : False := by
  obtain ⟨j, hj, h | ⟨h1, h2⟩⟩ := Proc.goes_on S.prun.run.toRun0 S.pfair hs hu (by cases fr <;> simp [silent, Proc.Frame.waits] at hq ⊢)
  · rw [S.up j] at h; cases h
  · have := (S.silent_step (Nat.le_trans hk hj) h1 h2).1
    rw [hq] at this; cases this

/-- What a step of origin's does to the stack. -/
theorem framed {k : Nat} (h : (wact pr st act k).bind Whole.Action.proc? = some (.step t)) {fr : Frame} {rest : List Frame}
    (hs : (st k).w.p.stk t = fr :: rest) (hu : ∀ fn, fr ≠ .user fn) : Proc.frameStep c (st k).w.p t rest fr = some (st (k + 1)).w.p :=
  (Proc.step_own (S.prun.next k _ h) hs hu).2

/-- L2: waiting for the lock. -/
theorem not_waiting {k : Nat} (hk : n ≤ k) {fr : Frame} {rest : List Frame} (hs : (st k).w.p.stk t = fr :: rest)
    (hf : fr = .regLock ∨ ∃ e v, fr = .exitLock e v) : False := by
  have hu : ∀ fn, fr ≠ .user fn := by rintro fn rfl; simp at hf
  obtain ⟨j, hj, h⟩ := Proc.gets_on S.prun.run S.pfair (N := n) S.settled hk hs hu
  have at_j : (∃ i, k ≤ i ∧ (wact pr st act i).bind Whole.Action.proc? = some (.step t) ∧ (st i).w.p.stk t = fr :: rest) ∨
      ((st j).w.p.stk t = fr :: rest ∧ fr.waits c ∧ PFinished (st j).w.p.log) := by
    rcases h with h | ⟨h1, h2⟩ | ⟨h1, h2⟩
    · rw [S.up j] at h; cases h
    · rcases Proc.hold_until (P := fun m => (st m).w.p.stk t = fr :: rest)
        (Q := fun m => (wact pr st act m).bind Whole.Action.proc? = some (.step t)) hj hs
        (fun m _ hm => Proc.stays_until S.prun.run.toRun0 hu m hm) with ⟨i, q1, q2, q3⟩ | q
      · exact .inl ⟨i, q1, q3, q2⟩
      · exact .inr ⟨q, h1, h2⟩
    · exact .inl ⟨j, hj, h1, h2⟩
  rcases at_j with ⟨i, hi, h1, h2⟩ | ⟨h1, h2, h3⟩
  · have hfs := S.framed h1 h2 hu
    have hi' : n ≤ i + 1 := by omega
    rcases hf with rfl | ⟨e, v, rfl⟩
    · simp only [Proc.frameStep, Option.map_eq_some_iff] at hfs
      obtain ⟨s1, -, hfs⟩ := hfs
      exact S.not_loud hi' (fr := .regPush) (rest := rest) (by rw [← hfs]; simp [Proc.State.setStk]) (by simp) rfl
    · simp only [Proc.frameStep] at hfs
      split at hfs
      · simp only [Option.map_eq_some_iff] at hfs
        obtain ⟨s1, -, hfs⟩ := hfs
        exact S.not_loud hi' (fr := .exitPop e v) (rest := rest) (by rw [← hfs]; simp [Proc.State.setStk]) (by simp) rfl
      · injection hfs with hfs
        exact S.not_loud hi' (fr := .exitFini e v c.finiFirst) (rest := rest) (by rw [← hfs]; simp [Proc.State.setStk, Proc.State.ev]) (by simp) rfl
  · have hjn : n ≤ j := Nat.le_trans hk hj
    obtain ⟨T, hT, TR⟩ := S.thread hjn
    obtain ⟨r, x, hen⟩ := S.able j hjn
    have hpos := TR.pos
    rw [h1] at hpos
    have kp := S.keeps hjn
    unfold Abs.keeps at kp
    rw [hT] at kp
    have hcl : locks c = true → (ab j).closed = true := fun hl => (S.tracks.rel j).closed.mpr ⟨hl, h3⟩
    have hth := S.status hjn
    cases T with
    | mk pos fns tid =>
    simp only at hpos kp
    rcases hf with rfl | ⟨e, v, rfl⟩
    · cases rest with
      | nil => simp [posOf, contOf] at hpos
      | cons fr' rest' =>
        cases fr' <;> simp only [posOf, contOf, Option.map_none, reduceCtorEq] at hpos
        next fn =>
        split at hpos
        case isFalse => cases hpos
        next hreg =>
        obtain ⟨cd, cs, k', h4, rfl⟩ := posU_run hpos
        rw [h4] at hreg
        simp only [atReg] at hreg
        split at hreg
        case h_2 => cases hreg
        next g k2 hop =>
        simp only [hop] at kp
        refine hen ?_
        simp [astep, hth, hT, opStep, hop, hcl (by simp [locks, kp]; exact h2)]
    · simp only [posOf, contOf, Option.map_some, Option.some.injEq] at hpos
      subst hpos
      refine hen ?_
      simp [astep, hth, hT, nextStep, hcl (by simp [locks, h2.1, h2.2])]

/-- A call in progress has not returned. -/
theorem not_fin {k : Nat} {j : Nat} {cl : Life.Call} (hc : (st k).w.l.call j = some cl) : ¬ Life.Fin (st k).w.l j cl.kind cl.target := by
  intro hf
  have I := (S.calm k).for 0
  have co := I.callOk j cl hc
  obtain ⟨H, hH, -⟩ := co.target
  have L := (I.ok _ H hH).link
  have hph : cl.phase = .start ∨ cl.phase = .waiting ∨ cl.phase = .freeing := by cases cl <;> simp [Life.Call.phase]
  cases hk : cl.kind with
  | join =>
    rw [hk] at hf
    obtain ⟨v, hv⟩ := hf
    have := L.jd j v hv
    rw [co.cons] at this
    injection this with this
    simp only [Prod.mk.injEq] at this
    rcases hph with h | h | h <;> rw [h] at this <;> simp at this
  | detach =>
    rw [hk] at hf
    have := (L.dd j).mp hf
    rw [co.cons] at this
    simp only [Option.some.injEq, Prod.mk.injEq] at this
    rcases hph with h | h | h <;> rw [h] at this <;> simp at this

/-- What happens to origin's part. -/
theorem lifeStep {k : Nat} {x : Life.Action} (h : (wact pr st act k).bind Whole.Action.life? = some x) :
    Life.step sig (st k).w.l x = some (st (k + 1)).w.l := (S.exec.whole.life.next k x h).2

/-- A call that has what it waits for returns. -/
theorem call_ends {k : Nat} {cl : Life.Call} (hc : (st k).w.l.call t = some cl)
    (hj : cl.kind = .join → ∃ T, (st k).w.l.thr cl.target = some T ∧ T.stage.rank ≤ 10) :
    ∃ i cl', k ≤ i ∧ (st i).w.l.call t = some cl' ∧ cl'.kind = cl.kind ∧ cl'.target = cl.target ∧
      Life.Fin (st (i + 1)).w.l t cl.kind cl.target ∧ (st (i + 1)).w.l.call t = none := by
  obtain ⟨j, hkj, hfin⟩ := Life.call_returns S.exec.whole.life.toSteps S.lfair (w := Life.only t) (fun k => (S.calm k).for t)
    (fun k => (Life.reach_noFork (S.calm k).known.life).1 cl.target) (Life.only_self t) (n := k) hc rfl rfl fun h => ⟨k, hj h⟩
  -- until it returns it is in progress
  have := Proc.hold_until (n := k) (k := j) (P := fun i => ∃ cl', (st i).w.l.call t = some cl' ∧ cl'.kind = cl.kind ∧ cl'.target = cl.target)
    (Q := fun i => Life.Fin (st (i + 1)).w.l t cl.kind cl.target) hkj ⟨cl, hc, rfl, rfl⟩ (by
      rintro i - ⟨cl', h1, h2, h3⟩
      cases hx : (wact pr st act i).bind Whole.Action.life? with
      | none => rw [show (st (i + 1)).w.l = (st i).w.l from S.exec.whole.life.idle i hx]; exact .inr ⟨cl', h1, h2, h3⟩
      | some x =>
        rcases Life.call_keep ((S.calm i).for t) h1 (S.lifeStep hx) with h | ⟨cl2, q1, q2, q3, -⟩
        · rw [h2, h3] at h; exact .inl h
        · exact .inr ⟨cl2, q1, q3.trans h2, q2.trans h3⟩)
  rcases this with ⟨i, hi, ⟨cl', h1, h2, h3⟩, hq⟩ | ⟨cl', h1, h2, h3⟩
  · refine ⟨i, cl', hi, h1, h2, h3, hq, ?_⟩
    have clash : ∀ cl2, (st (i + 1)).w.l.call t = some cl2 → cl2.kind = cl'.kind → cl2.target = cl'.target → False := by
      intro cl2 q1 q2 q3
      exact S.not_fin q1 (by rw [q2, q3, h2, h3]; exact hq)
    cases hx : (wact pr st act i).bind Whole.Action.life? with
    | none =>
      exact (clash cl' (by rw [show (st (i + 1)).w.l = (st i).w.l from S.exec.whole.life.idle i hx]; exact h1) rfl rfl).elim
    | some x =>
      rcases Life.call_frame ((S.calm i).for t) h1 (S.lifeStep hx) with q | ⟨-, r, -, q⟩ | ⟨k', a, y, rfl, q⟩
      · exact (clash _ q rfl rfl).elim
      · cases hn : (st (i + 1)).w.l.call t with
        | none => rfl
        | some cl2 =>
          obtain ⟨cl3, q1, q2, q3⟩ := (Life.callStep_eff h1 q).call t cl2 hn
          rw [h1] at q1; cases q1
          exact (clash _ hn q2 q3).elim
      · rcases q with q | q
        · exact (clash _ q rfl rfl).elim
        · exact (clash _ q (by cases k' <;> rfl) (by cases k' <;> rfl)).elim
  · exact (S.not_fin h1 (by rw [h2, h3]; exact hfin)).elim

omit S in
theorem posU_ne {v w : Nat} {fn : Fn} {rest : List Frame} {l : List C} (hp : posU pr c v fn rest l = some (.done w)) : False := by
  obtain ⟨cd, cs, k', -, h2⟩ := posU_run hp
  cases h2

omit S in
theorem done_stk {v w : Nat} {f : Nat → Option C} {s : List Frame} {l : List C} (h : posOf pr c v f s l = some (.done w)) : s = [] := by
  unfold posOf at h
  split at h
  · rfl
  · exact (posU_ne h).elim
  · split at h
    · exact (posU_ne h).elim
    · cases h
  · split at h
    · exact (posU_ne h).elim
    · cases h
  · exact (posU_ne h).elim
  · cases h
  · cases h
  · simp at h
  · simp at h
  · cases h
  · simp at h

omit S in
/-- A thread that the abstract machine has done has finished. -/
theorem tfinished (T : Tracks pr c m st act ab who us) (hok : c.Ok pr.ctors.length pr.finis.length)
    (X : IsExec pr c sig m (Life.Orderly sig) st act) {k u v : Nat} {fns : List C} {tid : Nat} (h : (ab k).thr[u]? = some ⟨.done v, fns, tid⟩) :
    ∃ U, (st k).w.l.thr u = some U ∧ U.stage.rank ≤ 10 := by
  have TR := (T.rel k).thr u _ h
  have hstk : (st k).w.p.stk u = [] := done_stk TR.pos
  obtain ⟨U, hT, -⟩ := TR.tid
  have L := ((X.reach k).calm).linked
  have h0 : u ≠ 0 := by
    rintro rfl
    obtain ⟨b, hb, -⟩ := (((X.reach k).calm).known.proc.binv hok).base
    rw [hstk] at hb; cases hb
  refine ⟨U, hT, ?_⟩
  cases hg : U.stage with
  | born => have := L.run u h0 (by simp [Life.clsOf, hT, hg, Life.Stage.cls]); rw [hstk] at this; cases this
  | body => have := L.run u h0 (by simp [Life.clsOf, hT, hg, Life.Stage.cls]); rw [hstk] at this; cases this
  | dtors w => have := L.dtors u h0 (by simp [Life.clsOf, hT, hg, Life.Stage.cls]); rw [hstk] at this; cases this
  | _ => simp [Life.Stage.rank]

/-- The same. -/
theorem finished {k u v : Nat} {fns : List C} {tid : Nat} (h : (ab k).thr[u]? = some ⟨.done v, fns, tid⟩) :
    ∃ T, (st k).w.l.thr u = some T ∧ T.stage.rank ≤ 10 := tfinished S.tracks S.ok S.exec h

/-- L3: in `join`. -/
theorem not_joining {k : Nat} (hk : n ≤ k) {cl : Life.Call} (hc : (st k).w.l.call t = some cl) (hj : cl.kind = .join) : False := by
  obtain ⟨fn, rest, cd, cs, hs, hcd, hop⟩ := (S.tracks.rel k).call t cl hc
  obtain ⟨k', hop⟩ := hop hj
  obtain ⟨T, cd', cs', k2, hT, hcd', hp⟩ := (S.tracks.rel k).at_user (S.calm k).known.proc hs
  rw [hcd] at hcd'; cases hcd'
  have hfin : ∃ T, (st k).w.l.thr cl.target = some T ∧ T.stage.rank ≤ 10 := by
    obtain ⟨r, x, hen⟩ := S.able k hk
    rw [astep_run (S.status hk) hT hp, hop] at hen
    simp only [opStep] at hen
    split at hen
    · next v fns tid hU => exact S.finished hU
    · exact absurd rfl hen
  obtain ⟨i, cl', hi, h1, h2, h3, h4, -⟩ := S.call_ends hc fun _ => hfin
  have hn := S.not_fin h1
  rw [h2, h3] at hn
  rw [hj] at hn h4
  obtain ⟨v, hv⟩ := h4
  have hvn : Life.Ev.joined t cl.target v ∉ (st i).w.l.log := fun h => hn ⟨v, h⟩
  cases ha : act i with
  | none => rw [S.exec.idle i ha] at hv; exact hvn hv
  | some x =>
    obtain ⟨⟨z, rfl⟩, -⟩ := step_joined (S.tracks.rel i) (S.calm i) (S.exec.next i x ha).2 hv hvn
    exact hvn (S.unseen (Nat.le_trans hk hi) ha (fun u hu => (hu.1 t cl.target v hv hvn).symm) t cl.target v hv)

/-- `t` is in user code, has begun, and has no call in progress. -/
def Ready (e : State σ C) (t : Nat) : Prop :=
  (∃ fn rest, e.w.p.stk t = .user fn :: rest) ∧ e.w.l.call t = none ∧ ∀ T, e.w.l.thr t = some T → T.stage ≠ .born

omit S in
theorem ready_of (h : running e.w.l t = true) (hu : userTop e.w.p t = true) : Ready e t := by
  obtain ⟨L, hL, hcall, hst, -⟩ := Whole.running_iff h
  refine ⟨userTop_stk hu, hcall, fun T hT hb => ?_⟩
  rw [hL] at hT; cases hT
  rw [hb] at hst; exact hst

theorem lt {k : Nat} (hk : n ≤ k) : t < (st k).w.l.next := by
  rw [(S.calm k).linked.next]
  exact Nat.lt_of_not_le fun h => S.busy hk ((S.calm k).known.proc.sinv.new t h)

/-- The stack of `t` changes only by its own actions. -/
theorem stack_stays {k : Nat} (hk : n ≤ k) {fn : Fn} {rest : List Frame} (hs : (st k).w.p.stk t = .user fn :: rest) :
    (∃ ad tid, act k = some (.user t ad tid)) ∨ (st (k + 1)).w.p.stk t = .user fn :: rest := by
  cases hx : (wact pr st act k).bind Whole.Action.proc? with
  | none => right; rw [show (st (k + 1)).w.p = (st k).w.p from S.prun.idle k hx]; exact hs
  | some y =>
    have hst := S.prun.next k y hx
    by_cases hy : y.tid = t
    · left
      unfold wact at hx
      cases ha : act k with
      | none => simp [ha] at hx
      | some x =>
        simp only [ha, Option.bind_some] at hx
        have bad : y ≠ .step t := by
          rintro rfl
          simp [Proc.step, hs, Proc.userStep, Proc.Action.tid] at hst
        cases x with
        | sys z =>
          exfalso
          have hsys : isSys z = true := by
            have := (S.exec.next k _ ha).2
            simp only [step] at this
            split at this
            · assumption
            · cases this
          simp only [Action.whole, Option.bind_some] at hx
          cases z <;> simp [Whole.Action.proc?] at hx
          case proc z => subst hx; cases z <;> simp [isSys] at hsys; exact bad (by rw [← hy]; rfl)
          case create => simp [isSys] at hsys
          case ret => simp [isSys] at hsys
          case release => subst hx; exact bad (by rw [← hy]; rfl)
        | user u ad tid =>
          simp only [Action.whole, Option.bind_eq_some_iff] at hx
          obtain ⟨z, ⟨o, -, ho⟩, hz⟩ := hx
          have : u = t := by
            cases o <;> simp [Op.action] at ho
            case ret => split at ho <;> subst ho <;> simp [Whole.Action.proc?] at hz <;> subst hz <;> exact hy
            all_goals (subst ho; simp [Whole.Action.proc?] at hz; try (subst hz; exact hy))
          subst this
          exact ⟨ad, tid, rfl⟩
    · right
      rw [(Proc.stk_other (S.prun.run.sinv k) hst hy (S.busy hk)).1]; exact hs

theorem ready_stays {k : Nat} (hk : n ≤ k) (h : Ready (st k) t) : (∃ ad tid, act k = some (.user t ad tid)) ∨ Ready (st (k + 1)) t := by
  obtain ⟨⟨fn, rest, hs⟩, hc, hb⟩ := h
  rcases S.stack_stays hk hs with h | h
  · exact .inl h
  cases hx : (wact pr st act k).bind Whole.Action.life? with
  | none =>
    right
    have e : (st (k + 1)).w.l = (st k).w.l := S.exec.whole.life.idle k hx
    exact ⟨⟨fn, rest, h⟩, by rw [e]; exact hc, by rw [e]; exact hb⟩
  | some y =>
    have hst := S.lifeStep hx
    have hb' : ∀ T, (st (k + 1)).w.l.thr t = some T → T.stage ≠ .born := by
      intro T hT hbT
      rcases Life.born_from hst hT hbT with ⟨T0, h1, h2⟩ | ⟨h1, -⟩
      · exact hb T0 h1 h2
      · exact absurd (S.lt hk) (by rw [← h1]; exact Nat.lt_irrefl _)
    rcases Life.call_begins hst hc with h1 | ⟨u, h1⟩
    · exact .inr ⟨⟨fn, rest, h⟩, h1, hb'⟩
    · left
      unfold wact at hx
      cases ha : act k with
      | none => simp [ha] at hx
      | some x =>
        simp only [ha, Option.bind_some] at hx
        cases x with
        | sys z =>
          exfalso
          have hsys : isSys z = true := by
            have := (S.exec.next k _ ha).2
            simp only [step] at this
            split at this
            · assumption
            · cases this
          simp only [Action.whole, Option.bind_some] at hx
          rcases h1 with rfl | rfl <;> cases z <;> simp [Whole.Action.life?] at hx <;> subst hx <;> simp [isSys] at hsys
        | user v ad tid =>
          simp only [Action.whole, Option.bind_eq_some_iff] at hx
          obtain ⟨z, ⟨o, -, ho⟩, hz⟩ := hx
          have : v = t := by
            cases o <;> simp [Op.action] at ho
            case ret => split at ho <;> subst ho <;> simp [Whole.Action.life?] at hz <;> subst hz <;> simp at h1
            all_goals (subst ho; simp [Whole.Action.life?] at hz; try (subst hz; simp at h1; try (exact h1.1)))
          subst this
          exact ⟨ad, tid, rfl⟩

/-- L4: user code that could go on. -/
theorem not_ready {k : Nat} (hk : n ≤ k) (h : Ready (st k) t) : False := by
  obtain ⟨j, hj, hf⟩ := S.fair.user t k
  have : ∃ i, k ≤ i ∧ Ready (st i) t ∧ ((∃ ad tid, act i = some (.user t ad tid)) ∨ ∀ ad tid, step pr c sig (st i) (.user t ad tid) = none) := by
    rcases Proc.hold_until (P := fun i => Ready (st i) t) (Q := fun i => n ≤ i → ∃ ad tid, act i = some (.user t ad tid)) hj h
      (fun i hi hr => (S.ready_stays (Nat.le_trans hk hi) hr).imp (fun q _ => q) id) with ⟨i, q1, q2, q3⟩ | q
    · exact ⟨i, q1, q2, .inl (q3 (Nat.le_trans hk q1))⟩
    · exact ⟨j, hj, q, hf⟩
  obtain ⟨i, hi, ⟨⟨fn, rest, hs⟩, hc, hb⟩, hcase⟩ := this
  have hin : n ≤ i := Nat.le_trans hk hi
  rcases hcase with ⟨ad, tid, ha⟩ | hdis
  · have hun := S.unseen hin ha fun u hu => hu.symm
    have hstep := (S.exec.next i _ ha).2
    simp only [Unseen] at hun
    cases hcd : (st i).code t with
    | nil => simp [State.op, hcd] at hun
    | cons cd cs =>
      simp only [State.op, hcd, List.head?_cons, Option.map_some] at hun
      cases hop : pr.op cd <;> simp only [hop] at hun
      case join u k' =>
        have hx : (wact pr st act i).bind Whole.Action.life? = some (.join t u) := by
          simp [wact, ha, Action.whole, State.op, hcd, hop, Op.action, Whole.Action.life?]
        have hl := S.lifeStep hx
        simp only [Life.step] at hl
        (repeat' split at hl)
        · injection hl with hl
          exact absurd (by rw [← hl]; simp [Life.State.faulted, Life.State.ev]) (no_fault (S.calm (i + 1)).known.life t t)
        · next H _ _ _ _ =>
          injection hl with hl
          exact S.not_joining (k := i + 1) (by omega) (cl := .load .join H.addr u)
            (by rw [← hl]; simp [Life.State.setCall, Life.State.setCons, Life.State.ev]) rfl
        · cases hl
        · cases hl
      case atExitP g k' =>
        have hx : (wact pr st act i).bind Whole.Action.proc? = some (.regProg t) := by
          simp [wact, ha, Action.whole, State.op, hcd, hop, Op.action, Whole.Action.proc?]
        have hp := S.prun.next i _ hx
        simp only [Proc.step, S.up i, Proc.Action.tid, hs, Proc.userStep, Bool.false_eq_true, if_false] at hp
        split at hp
        · injection hp with hp
          exact S.not_waiting (k := i + 1) (by omega) (fr := .regLock) (rest := .user fn :: rest) (by rw [← hp]; simp [Proc.State.setStk]) (.inl rfl)
        · cases hp
  · obtain ⟨r, x, hen⟩ := S.able i hin
    obtain ⟨ad, tid, h⟩ := enabled (S.exec.reach i) (S.tracks.rel i) (S.tracks.joined i) (S.tracks.detached i) (S.up i) hs
      ((S.exec.reach i).runs hs hc hb) (S.keeps hin) hen
    exact h (hdis ad tid)

/-- A frame of origin's that does not wait makes its step. -/
theorem steps {k : Nat} (hk : n ≤ k) {fr : Frame} {rest : List Frame} (hs : (st k).w.p.stk t = fr :: rest) (hu : ∀ fn, fr ≠ .user fn)
    (hw : ¬ fr.waits c) : ∃ j, n ≤ j ∧ (st j).w.p.stk t = fr :: rest ∧ Proc.frameStep c (st j).w.p t rest fr = some (st (j + 1)).w.p ∧
      running (st (j + 1)).w.l t = true := by
  obtain ⟨j, hj, h | ⟨h1, h2⟩⟩ := Proc.goes_on S.prun.run.toRun0 S.pfair hs hu hw
  · rw [S.up j] at h; cases h
  · have hjn := Nat.le_trans hk hj
    refine ⟨j, hjn, h2, S.framed h1 h2 hu, ?_⟩
    have ha := (S.silent_step hjn h1 h2).2
    have hwa : wact pr st act j = some (.proc (.step t)) := by simp [wact, ha, Action.whole]
    obtain ⟨l', p', h3, Q⟩ := Whole.step_parts (S.exec.whole.next j _ hwa).2
    have hl : (st (j + 1)).w.l = (st j).w.l := S.exec.whole.life.idle j (by simp [hwa, Whole.Action.life?])
    rw [hl]
    exact (Q.own _ rfl).1

/-- L7: frames of origin's whose step the program does not see. -/
theorem not_calling {k : Nat} (hk : n ≤ k) {e : Proc.Exit} {v : Int} {f : Proc.FnId} {rest : List Frame} (hs : (st k).w.p.stk t = .exitCall e v f :: rest) : False := by
  obtain ⟨j, hj, h1, h2, h3⟩ := S.steps hk hs (by simp) (by simp [Proc.Frame.waits])
  simp only [Proc.frameStep, Option.some.injEq] at h2
  exact S.not_ready (k := j + 1) (by omega) (ready_of h3 (by rw [← h2]; simp [userTop, Proc.State.setStk, Proc.State.ev]))

theorem not_silent {k : Nat} (hk : n ≤ k) {fr : Frame} {rest : List Frame} (hs : (st k).w.p.stk t = fr :: rest) (hu : ∀ fn, fr ≠ .user fn) : False := by
  cases hq : silent fr with
  | false => exact S.not_loud hk hs hu hq
  | true =>
    cases fr <;> simp [silent] at hq
    case regLock => exact S.not_waiting hk hs (.inl rfl)
    case exitLock => exact S.not_waiting hk hs (.inr ⟨_, _, rfl⟩)
    case exitCall => exact S.not_calling hk hs
    case exitUnlock =>
      obtain ⟨j, hj, h1, h2, -⟩ := S.steps hk hs (by simp) (by simp [Proc.Frame.waits])
      simp only [Proc.frameStep, Option.some.injEq] at h2
      exact S.not_calling (k := j + 1) (by omega) (by rw [← h2]; simp only [Proc.State.setStk, if_true]; rfl)
    case entry =>
      obtain ⟨j, hj, h1, h2, -⟩ := S.steps hk hs (by simp) (by simp [Proc.Frame.waits])
      simp only [Proc.frameStep, Option.some.injEq] at h2
      exact S.not_loud (k := j + 1) (by omega) (fr := .init c.initFirst) (rest := rest) (by rw [← h2]; simp [Proc.State.setStk, Proc.State.ev]) (by simp) rfl
    case regUnlock f =>
      obtain ⟨j, hj, h1, h2, h3⟩ := S.steps hk hs (by simp) (by simp [Proc.Frame.waits])
      simp only [Proc.frameStep, Option.some.injEq] at h2
      obtain ⟨T, hT, TR⟩ := S.thread hj
      have hpos := TR.pos
      rw [h1] at hpos
      cases rest with
      | nil => simp [posOf, contOf] at hpos
      | cons fr' rest' =>
        cases fr' <;> simp only [posOf, contOf, Option.map_none, reduceCtorEq] at hpos
        exact S.not_ready (k := j + 1) (by omega) (ready_of h3 (by rw [← h2]; simp [userTop, Proc.State.setStk, Proc.State.ev]))

/-- L4 and L7 together. -/
theorem not_idle {k : Nat} (hk : n ≤ k) (hc : (st k).w.l.call t = none) (hb : ∀ T, (st k).w.l.thr t = some T → T.stage ≠ .born) : False := by
  cases hs : (st k).w.p.stk t with
  | nil => exact S.busy hk hs
  | cons fr rest =>
    cases fr with
    | user fn => exact S.not_ready hk ⟨⟨fn, rest, hs⟩, hc, hb⟩
    | _ => exact S.not_silent hk hs (by simp)

/-- L5: a thread that has not begun. -/
theorem not_born {k : Nat} (hk : n ≤ k) {T : Life.Thr} (hT : (st k).w.l.thr t = some T) (hb : T.stage = .born) : False := by
  have nocall : ∀ i T, (st i).w.l.thr t = some T → T.stage = .born → (st i).w.l.call t = none := by
    intro i T hT hb
    cases hc : (st i).w.l.call t with
    | none => rfl
    | some cl =>
      obtain ⟨T', h1, h2⟩ := (((S.calm i).for t).callOk t cl hc).actor
      rw [hT] at h1; cases h1
      rw [hb] at h2; exact h2.elim
  obtain ⟨j, hj, hf⟩ := S.lfair.threads t k
  have keep : ∀ i, n ≤ i → (∃ T, (st i).w.l.thr t = some T ∧ T.stage = .born) → (∃ T, (st (i + 1)).w.l.thr t = some T ∧ T.stage = .born) := by
    rintro i hi ⟨T, hT, hb⟩
    refine Classical.byContradiction fun hno => ?_
    have hnb : ∀ T, (st (i + 1)).w.l.thr t = some T → T.stage ≠ .born := fun T h1 h2 => hno ⟨T, h1, h2⟩
    have hcn : (st (i + 1)).w.l.call t = none := by
      have h0 := nocall i T hT hb
      cases hx : (wact pr st act i).bind Whole.Action.life? with
      | none => rw [show (st (i + 1)).w.l = (st i).w.l from S.exec.whole.life.idle i hx]; exact h0
      | some y =>
        have hl := S.lifeStep hx
        rcases Life.call_begins hl h0 with h | ⟨u, h | h⟩
        · exact h
        · subst h
          exfalso
          simp only [Life.step, hT] at hl
          (repeat' split at hl)
          all_goals first | (cases hl; done) | skip
          all_goals (next hT' _ h1 _ => cases hT'; simp [Life.State.inUser, hb] at h1)
        · subst h
          exfalso
          simp only [Life.step, hT] at hl
          (repeat' split at hl)
          all_goals first | (cases hl; done) | skip
          all_goals (next hT' _ h1 _ => cases hT'; simp [Life.State.inUser, hb] at h1)
    exact S.not_idle (k := i + 1) (by omega) hcn hnb
  have all : ∃ T, (st j).w.l.thr t = some T ∧ T.stage = .born := by
    rcases Proc.hold_until (P := fun i => ∃ T, (st i).w.l.thr t = some T ∧ T.stage = .born) (Q := fun _ => False) hj ⟨T, hT, hb⟩
      (fun i hi h => .inr (keep i (Nat.le_trans hk hi) h)) with ⟨i, -, -, h⟩ | h
    · exact h.elim
    · exact h
  obtain ⟨T, hT, hb⟩ := all
  have I := (S.calm j).for t
  have hg := (I.ok t T hT).good
  unfold Life.Good at hg
  rw [hb] at hg
  obtain ⟨r, hr, -⟩ := hg.1.2.resolve_left (by simp [Life.Lost, Life.only])
  have hstep : Life.step sig (st j).w.l (.step t) = some (((st j).w.l.setRec T.addr (some { r with tid := T.tid })).setStage t .body) := by
    simp [Life.step, hT, hb, hr, nocall j T hT hb, Life.ownStep]
  rcases hf with hf | hf
  · obtain ⟨T', hT', hb'⟩ := keep j (Nat.le_trans hk hj) ⟨T, hT, hb⟩
    have := S.lifeStep hf
    rw [hstep] at this
    injection this with this
    rw [← this] at hT'
    simp [Life.State.setStage, Life.State.modThr, Life.State.setRec, hT] at hT'
    rw [← hT'] at hb'; cases hb'
  · rw [hstep] at hf; cases hf

/-- L6: in `detach`; and altogether. -/
theorem absurd : False := by
  cases hc : (st n).w.l.call t with
  | none =>
    by_cases hb : ∃ T, (st n).w.l.thr t = some T ∧ T.stage = .born
    · obtain ⟨T, h1, h2⟩ := hb; exact S.not_born (Nat.le_refl n) h1 h2
    · exact S.not_idle (Nat.le_refl n) hc fun T h1 h2 => hb ⟨T, h1, h2⟩
  | some cl =>
    cases hk : cl.kind with
    | join => exact S.not_joining (Nat.le_refl n) hc hk
    | detach =>
      obtain ⟨i, cl', hi, h1, h2, h3, h4, h5⟩ := S.call_ends hc fun h => by rw [hk] at h; cases h
      by_cases hb : ∃ T, (st (i + 1)).w.l.thr t = some T ∧ T.stage = .born
      · obtain ⟨T, q1, q2⟩ := hb; exact S.not_born (k := i + 1) (by omega) q1 q2
      · exact S.not_idle (k := i + 1) (by omega) h5 fun T q1 q2 => hb ⟨T, q1, q2⟩

end Stuck
end Origin.User

namespace Origin.User
open Proc (Frame Fn PFinished)

variable {σ C : Type} {pr : Prg σ C} {c : Proc.Cfg} {sig : Bool} {m : σ}
variable {st : Nat → State σ C} {act : Nat → Option Action} {ab : Nat → Abs σ C} {who : Nat → Option Nat} {us : Nat → List Nat}

/-- The run of the abstract machine in step with a fair execution is fair. -/
theorem Tracks.fair (T : Tracks pr c m st act ab who us) (hok : c.Ok pr.ctors.length pr.finis.length)
    (X : IsExec pr c sig m (Life.Orderly sig) st act) (F : Fair pr c sig st act) (hp : Proper pr c m)
    (hm : Proc.FinitelyMany (fun n => (st n).w.p)) : AFair pr (locks c) ab who := by
  intro t n
  refine Classical.byContradiction fun hno => ?_
  obtain ⟨N, hN⟩ := Proc.nextF_settles (X.whole.proc fun k => (X.reach k).calm.up).toSteps hm
  have S : Stuck pr c sig m st act ab who us t (max n N) :=
    { ok := hok, exec := X, fair := F, tracks := T, proper := hp
      settled := fun k hk => by
        rw [show (st k).w.p.nextF = _ from hN k (by omega), show (st (max n N)).w.p.nextF = _ from hN _ (by omega)]
      able := fun k hk => Classical.byContradiction fun h => hno ⟨k, by omega, .inr fun r x => Classical.byContradiction fun h' => h ⟨r, x, h'⟩⟩
      off := fun k hk h => hno ⟨k, by omega, .inl h⟩ }
  exact S.absurd

/-- What `Tracks` says of the state at `n`. -/
theorem Tracks.run (T : Tracks pr c m st act ab who us) (h0 : ∃ tid, ab 0 = ainit pr m tid) : ARun pr (locks c) m ab who :=
  ⟨h0, fun n h => (T.idle n h).1, fun n t h => (T.next n t h).1⟩

/-- The same for executions restricted in another way. -/
theorem IsExec.orderly {P : Life.State → Life.Action → Prop} (X : IsExec pr c sig m P st act)
    (h : ∀ {e x e'}, Reach pr c sig m P e → Reach pr c sig m (Life.Orderly sig) e →
      (∀ y z, x.whole pr e = some y → y.life? = some z → P e.w.l z) → step pr c sig e x = some e' →
      ∀ y z, x.whole pr e = some y → y.life? = some z → Life.Orderly sig e.w.l z) : IsExec pr c sig m (Life.Orderly sig) st act := by
  have R : ∀ n, Reach pr c sig m (Life.Orderly sig) (st n) := by
    intro n
    induction n with
    | zero => obtain ⟨a, tid, h1, h2⟩ := X.start; rw [h2]; exact .init a tid h1
    | succ n ih =>
      cases ha : act n with
      | none => rw [X.idle n ha]; exact ih
      | some x => exact .step ih (h (X.reach n) ih (X.next n x ha).1 (X.next n x ha).2) (X.next n x ha).2
  exact ⟨X.start, X.idle, fun n x ha => ⟨h (X.reach n) (R n) (X.next n x ha).1 (X.next n x ha).2, (X.next n x ha).2⟩⟩

end Origin.User
