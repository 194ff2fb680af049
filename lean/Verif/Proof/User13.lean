import Verif.Proof.User18
import Verif.Props.FairWhole
import Verif.Spec.FairUser
set_option linter.unusedSimpArgs false
/-! # Programs on fair schedules: following an execution on the abstract machine -/

namespace Origin.Life

/-- `join` returns only by a step of origin's. -/
theorem joined_new {sig : Bool} {s s' : State} {x : Action} (h : step sig s x = some s') (hs : x.sys = false) {j u v : Nat}
    (hw : Ev.joined j u v ∈ s'.log) : Ev.joined j u v ∈ s.log := by
  have key : ∀ {s1 : State} {e : Ev}, s1.log = e :: s.log → (∀ j h v, e ≠ .joined j h v) → Ev.joined j u v ∈ s1.log → Ev.joined j u v ∈ s.log := by
    intro s1 e he h1 hm
    rw [he] at hm
    rcases List.mem_cons.mp hm with hm | hm
    · exact absurd hm.symm (h1 _ _ _)
    · exact hm
  cases x <;> simp [Action.sys] at hs <;> simp only [step] at h
  all_goals
    (repeat' split at h) <;> cases h <;> first
      | exact key rfl (by simp) hw
      | exact hw

/-- A thread being joined has somebody joining it. -/
def WaitOk (s : State) : Prop :=
  ∀ h j ph, s.cons h = some (j, .join, ph) → ph = .freed ∨ ∃ cl, s.call j = some cl ∧ cl.kind = .join ∧ cl.target = h

/-- `join` is called only by `join`. -/
theorem join_only {sig : Bool} {s s' : State} {x : Action} (h : step sig s x = some s') {j u : Nat} (hm : Ev.joinCall j u ∈ s'.log) :
    Ev.joinCall j u ∈ s.log ∨ ∃ cl, s'.call j = some cl ∧ cl.kind = .join ∧ cl.target = u := by
  by_cases hsy : x.sys = true
  · have key : ∀ evs, s'.log = evs ++ s.log → Ev.joinCall j u ∉ evs → Ev.joinCall j u ∈ s.log := by
      intro evs he hn
      rw [he] at hm
      exact (List.mem_append.mp hm).resolve_left hn
    have call : ∀ t r c, callStep s t r c = some s' → Ev.joinCall j u ∈ s.log := by
      intro t r c h
      cases c with
      | drop k _ _ _ o => cases k <;> simp only [callStep, State.finish] at h <;> split at h <;> cases h <;>
          first | exact key [_] rfl (by simp) | exact key [] rfl (by simp)
      | unmap k => cases k <;> simp only [callStep, State.finish] at h <;> cases h <;> exact key [_, _] rfl (by simp)
      | _ => simp only [callStep] at h; (repeat' split at h) <;> cases h <;> first | exact key [_] rfl (by simp) | exact key [] rfl (by simp)
    left
    cases x <;> simp [Action.sys] at hsy <;> simp only [step] at h
    all_goals (repeat' split at h)
    all_goals first | (cases h; done) | (exact call _ _ _ h) | skip
    all_goals try unfold ownStep at h
    all_goals (repeat' split at h) <;> cases h <;> first | exact key [_] rfl (by simp) | exact key [] rfl (by simp)
  · cases x <;> simp [Action.sys] at hsy <;> simp only [step] at h
    case join t v =>
      (repeat' split at h) <;> cases h
      · exact .inl (by simpa [State.faulted, State.ev] using hm)
      · simp only [State.ev, List.mem_cons, Ev.joinCall.injEq] at hm
        rcases hm with ⟨rfl, rfl⟩ | hm
        · exact .inr ⟨_, by simp [State.ev, State.setCons, State.setCall]; rfl, rfl, rfl⟩
        · exact .inl hm
    all_goals
      (repeat' split at h) <;> cases h <;> left <;>
        simpa [State.ev, State.faulted, State.setStage, State.modThr, State.setCall, State.setCons] using hm

theorem WaitOk.step {w : Inst → Bool} {sig : Bool} {s s' : State} {x : Action} (W : WaitOk s) (F : FreedOk s) (I : Inv w sig s) (I' : Inv w sig s')
    (h : step sig s x = some s') : WaitOk s' := by
  intro u j ph hc
  obtain ⟨T, hT⟩ : ∃ T, s'.thr u = some T := Option.ne_none_iff_exists'.mp (I'.consThr u (by rw [hc]; simp))
  have L := (I'.ok u T hT).link
  rcases join_only h ((L.jc j).mpr ⟨ph, hc⟩) with hm | hcl
  · obtain ⟨T0, hT0⟩ := I.logThr _ hm
    obtain ⟨ph0, hc0⟩ := ((I.ok u T0 hT0).link.jc j).mp hm
    rcases W u j ph0 hc0 with rfl | ⟨cl, hcl, hk, ht⟩
    · obtain ⟨v, hv⟩ := F u j hc0
      have := L.jd j v (log_mono h hv)
      rw [hc] at this; cases this; exact .inl rfl
    · rcases call_keep I hcl h with hf | ⟨cl', h1, h2, h3, -⟩
      · rw [hk, ht] at hf
        obtain ⟨v, hv⟩ := hf
        have := L.jd j v hv
        rw [hc] at this; cases this; exact .inl rfl
      · exact .inr ⟨cl', h1, h3.trans hk, h2.trans ht⟩
  · exact .inr hcl

end Origin.Life

namespace Origin.User
open Proc (Frame Fn PFinished)
open Whole (userTop running news)

variable {σ C : Type} {pr : Prg σ C} {c : Proc.Cfg} {sig : Bool} {e : State σ C} {a : Abs σ C} {m : σ}

theorem Reach.waitOk (R : Reach pr c sig m (Life.Orderly sig) e) : Life.WaitOk e.w.l := by
  induction R with
  | init ad tid _ => intro h j ph hh; cases hh
  | step R hp hs ih =>
    have I' := (R.step hp hs).calm.for 0
    rcases step_w hs with ⟨h, -⟩ | ⟨y, h1, h2⟩
    · rw [h]; exact ih
    have hl := whole_life h2
    split at hl
    case h_2 => rw [hl]; exact ih
    obtain ⟨l', hl, hle⟩ := hl
    rw [hle] at I' ⊢
    exact ih.step R.freed (R.calm.for 0) I' hl

/-- A handle that has been given up was given up by a `join` that has returned or is in progress, or by a `detach`. -/
theorem Reach.given (R : Reach pr c sig m (Life.Orderly sig) e) {u : Nat} (h : e.w.l.cons u ≠ none) :
    (∃ j v, Life.Ev.joined j u v ∈ e.w.l.log) ∨ (∃ j, Life.Ev.detachCall j u ∈ e.w.l.log) ∨
      ∃ j cl, e.w.l.call j = some cl ∧ cl.kind = .join ∧ cl.target = u := by
  have I := R.calm.for 0
  obtain ⟨⟨j, k, ph⟩, hc⟩ := Option.ne_none_iff_exists'.mp h
  obtain ⟨T, hT⟩ := Option.ne_none_iff_exists'.mp (I.consThr u h)
  cases k with
  | join =>
    rcases R.waitOk u j ph hc with rfl | ⟨cl, h1, h2, h3⟩
    · obtain ⟨v, hv⟩ := R.freed u j hc
      exact .inl ⟨j, v, hv⟩
    · exact .inr (.inr ⟨j, cl, h1, h2, h3⟩)
  | detach => exact .inr (.inl ⟨j, ((I.ok u T hT).link.dc j).mpr ⟨ph, hc⟩⟩)

theorem uses_at {t u : Nat} {T : AThr C} {cd : C} {k : After C} (hT : a.thr[t]? = some T) (hp : T.pos = .run cd k)
    (ho : (∃ k, pr.op cd = .join u k) ∨ ∃ k, pr.op cd = .detach u k) : a.uses pr t = some u := by
  unfold Abs.uses
  rw [hT]
  cases T
  simp only at hp
  subst hp
  rcases ho with ⟨k, h⟩ | ⟨k, h⟩ <;> simp [h]

/-- A thread in `join(u)` uses `u`. -/
theorem Rel.uses_call (R : Rel pr c e a) (Rp : Proc.Reach c e.w.p) {t : Nat} {cl : Life.Call} (h : e.w.l.call t = some cl) (hk : cl.kind = .join) :
    a.uses pr t = some cl.target := by
  obtain ⟨fn, rest, cd, cs, hs, hcd, hop⟩ := R.call t cl h
  obtain ⟨T, cd', cs', k, hT, hcd', hp⟩ := R.at_user Rp hs
  rw [hcd] at hcd'; cases hcd'
  exact uses_at hT hp (.inl (hop hk))

/-- What a step that joins somebody is. -/
theorem step_joined (R : Rel pr c e a) (K0 : Calm c sig e.w) {x : Action} {e' : State σ C}
    (hs : step pr c sig e x = some e') {j u v : Nat} (hm : Life.Ev.joined j u v ∈ e'.w.l.log) (hn : Life.Ev.joined j u v ∉ e.w.l.log) :
    (∃ z, x = .sys (.life z)) ∧ a.uses pr j = some u := by
  rcases step_w hs with ⟨h, -⟩ | ⟨y, h1, h2⟩
  · rw [h] at hm; exact absurd hm hn
  have hl := whole_life h2
  split at hl
  case h_2 => rw [hl] at hm; exact absurd hm hn
  next z hz =>
  obtain ⟨l', hl, hle⟩ := hl
  rw [hle] at hm
  have hsy : z.sys = true := by
    cases hsy : z.sys with
    | true => rfl
    | false => exact absurd (Life.joined_new hl hsy hm) hn
  refine ⟨?_, ?_⟩
  · cases x with
    | user t ad tid =>
      simp only [Action.whole, State.op, Option.bind_eq_some_iff, Option.map_eq_some_iff] at h1
      obtain ⟨o, ⟨cd, -, rfl⟩, ha⟩ := h1
      cases hop : pr.op cd <;> simp only [hop, Op.action, Option.some.injEq, reduceCtorEq] at ha
      case ret => subst ha; split at hz <;> simp [Whole.Action.life?] at hz; subst hz; simp [Life.Action.sys] at hsy
      all_goals (subst ha; simp [Whole.Action.life?] at hz; try (subst hz; simp [Life.Action.sys] at hsy))
    | sys x =>
      cases h1
      cases y with
      | proc x => simp [Whole.Action.life?] at hz
      | create => simp [Whole.Action.life?] at hz; subst hz; simp [Life.Action.sys] at hsy
      | ret => simp [Whole.Action.life?] at hz; subst hz; simp [Life.Action.sys] at hsy
      | release t => simp [Whole.Action.life?] at hz; subst hz; simp [Life.Action.sys] at hsy
      | life x => exact ⟨x, rfl⟩
  · obtain ⟨evs, hlog, hev⟩ := (Life.step_eff hl hsy).log
    rw [hlog] at hm
    have hm := (List.mem_append.mp hm).resolve_right hn
    rcases hev with hq | ⟨t, h, v', evs', rfl, hq, -, cl, hcl, hk, htg⟩
    · exact absurd (hq _ hm) (by simp [Life.Ev.quiet])
    · rcases List.mem_cons.mp hm with hm | hm
      · cases hm
        rw [R.uses_call K0.known.proc hcl hk, htg]
      · exact absurd (hq _ hm) (by simp [Life.Ev.quiet])

/-- What a step that detaches somebody is. -/
theorem step_detach (R : Rel pr c e a) (K0 : Calm c sig e.w) {x : Action} {e' : State σ C}
    (hs : step pr c sig e x = some e') {j u : Nat} (hm : Life.Ev.detachCall j u ∈ e'.w.l.log) (hn : Life.Ev.detachCall j u ∉ e.w.l.log) :
    (∃ ad tid k, x = .user j ad tid ∧ e.op pr j = some (.detach u k)) ∧ a.uses pr j = some u := by
  rcases step_w hs with ⟨h, -⟩ | ⟨y, h1, h2⟩
  · rw [h] at hm; exact absurd hm hn
  have hl := whole_life h2
  split at hl
  case h_2 => rw [hl] at hm; exact absurd hm hn
  next z hz =>
  obtain ⟨l', hl, hle⟩ := hl
  rw [hle] at hm
  rcases (step_log hl).2.2 j u hm with hd | ⟨rfl, U, hU⟩
  · exact absurd hd hn
  have hyd : y = .life (.detach j u) := by cases y <;> simp [Whole.Action.life?] at hz; rw [hz]
  subst hyd
  cases x with
  | sys x => cases h1; simp [User.step, isSys] at hs
  | user t' ad tid =>
    simp only [User.step] at hs
    split at hs
    · cases hs
    next cd cs hcd =>
    simp only [Action.whole, State.op, hcd, List.head?_cons, Option.map_some, Option.bind_some] at h1
    cases hop : pr.op cd <;> simp only [hop, Op.action, Option.some.injEq, reduceCtorEq] at h1
    case ret => split at h1 <;> cases h1
    all_goals (cases h1; try skip)
    have hal := alive h2
    have hut : userTop e.w.p j = true := by
      simp only [Whole.step, hal, Bool.or_self, Bool.false_eq_true, if_false] at h2
      split at h2
      · assumption
      · cases h2
    obtain ⟨fn, rest, hstk⟩ := userTop_stk hut
    obtain ⟨T, cd', cs', k, hT, hcd', hp⟩ := R.at_user K0.known.proc hstk
    rw [hcd] at hcd'; cases hcd'
    exact ⟨⟨ad, tid, _, rfl, by simp [State.op, hcd, hop]; rfl⟩, uses_at hT hp (.inr ⟨_, hop⟩)⟩

/-! ## The run of the abstract machine -/

/-- Dependent choice. -/
theorem choice {α : Type} {I : Nat → α → Prop} {Q : Nat → α → α → Prop} (h0 : ∃ a, I 0 a) (hs : ∀ n a, I n a → ∃ a', I (n + 1) a' ∧ Q n a a') :
    ∃ f : Nat → α, (∀ n, I n (f n)) ∧ ∀ n, Q n (f n) (f (n + 1)) := by
  let F : (n : Nat) → { a : α // I n a } := fun n => Nat.rec ⟨Classical.choose h0, Classical.choose_spec h0⟩
    (fun n p => ⟨Classical.choose (hs n p.1 p.2), (Classical.choose_spec (hs n p.1 p.2)).1⟩) n
  exact ⟨fun n => (F n).1, fun n => (F n).2, fun n => (Classical.choose_spec (hs n (F n).1 (F n).2)).2⟩

variable {st : Nat → State σ C} {act : Nat → Option Action}

theorem IsExec.reach {P : Life.State → Life.Action → Prop} (X : IsExec pr c sig m P st act) : ∀ n, Reach pr c sig m P (st n)
  | 0 => by obtain ⟨a, tid, h1, h2⟩ := X.start; rw [h2]; exact .init a tid h1
  | n + 1 => by
    cases h : act n with
    | none => rw [X.idle n h]; exact X.reach n
    | some x => exact .step (X.reach n) (X.next n x h).1 (X.next n x h).2

/-- An execution and a run of the abstract machine in step with it. -/
structure Tracks (pr : Prg σ C) (c : Proc.Cfg) (m : σ) (st : Nat → State σ C) (act : Nat → Option Action)
    (ab : Nat → Abs σ C) (who : Nat → Option Nat) (us : Nat → List Nat) : Prop where
  rel : ∀ n, Rel pr c (st n) (ab n)
  reach : ∀ n, AReachU pr (locks c) m (us n) (ab n)
  joined : ∀ n j u v, Life.Ev.joined j u v ∈ (st n).w.l.log → u ∈ us n
  detached : ∀ n j u, Life.Ev.detachCall j u ∈ (st n).w.l.log → u ∈ us n
  idle : ∀ n, who n = none → ab (n + 1) = ab n ∧ us (n + 1) = us n ∧ ∀ x, act n = some x → Unseen pr (st n) x (st (n + 1))
  next : ∀ n t, who n = some t → (∃ r x, astep pr (locks c) (ab n) t r x = some (ab (n + 1))) ∧ us (n + 1) = ((ab n).uses pr t).toList ++ us n ∧
    ∃ x, act n = some x ∧ Actor pr (ab n) (st n) x (st (n + 1)) t
  answers : ∃ ls rs xs, AAnswers pr (locks c) ab who ls rs xs ∧
    ∀ n t u, who n = some t → (ab n).asks pr t = some u → Life.Past (st n).w.l u → rs n = none

/-- What is chosen along a run: the abstract state, the threads used, those that are gone, who makes the step that leads here, and the answers. -/
structure Pick (σ C : Type) where
  ab : Abs σ C
  us : List Nat
  ls : List Nat
  who : Option Nat
  r : Option Nat
  x : Nat

theorem IsExec.tracks (hok : c.Ok pr.ctors.length pr.finis.length) (X : IsExec pr c sig m (Life.Orderly sig) st act) :
    ∃ ab who us, Tracks pr c m st act ab who us ∧ ∃ tid, ab 0 = ainit pr m tid := by
  obtain ⟨f, hI, hQ⟩ := choice (α := Pick σ C)
    (I := fun n s => Rel pr c (st n) s.ab ∧ AReachU pr (locks c) m s.us s.ab ∧
      (∀ j u v, Life.Ev.joined j u v ∈ (st n).w.l.log → u ∈ s.us) ∧ (∀ j u, Life.Ev.detachCall j u ∈ (st n).w.l.log → u ∈ s.us) ∧
      (∀ u ∈ s.ls, Life.Past (st n).w.l u) ∧ (n = 0 → s.ls = [] ∧ ∃ tid, s.ab = ainit pr m tid))
    (Q := fun n s s' =>
      (s'.who = none → s'.ab = s.ab ∧ s'.us = s.us ∧ s'.ls = s.ls ∧ ∀ x, act n = some x → Unseen pr (st n) x (st (n + 1))) ∧
      ∀ t, s'.who = some t → astep pr (locks c) s.ab t s'.r s'.x = some s'.ab ∧ s'.us = (s.ab.uses pr t).toList ++ s.us ∧
        s'.ls = s.ab.gone pr t s'.r s'.x ++ s.ls ∧ (∀ u, s.ab.asks pr t = some u → Life.Past (st n).w.l u → s'.r = none) ∧
        ∃ x, act n = some x ∧ Actor pr s.ab (st n) x (st (n + 1)) t)
    (by
      obtain ⟨ad, tid, h1, h2⟩ := X.start
      refine ⟨⟨ainit pr m tid, [], [], none, none, 0⟩, ?_, .init tid, ?_, ?_, by simp, fun _ => ⟨rfl, tid, rfl⟩⟩
      · rw [h2]; exact Rel.init ad tid
      · intro j u v h; rw [h2] at h; simp [User.init, Whole.init, Life.init] at h
      · intro j u h; rw [h2] at h; simp [User.init, Whole.init, Life.init] at h)
    (by
      rintro n ⟨a, l, ls, w0, r0, x0⟩ ⟨RR, A, hj, hd, hls, -⟩
      simp only at RR A hj hd hls
      cases ha : act n with
      | none =>
        refine ⟨⟨a, l, ls, none, none, 0⟩, ⟨?_, A, ?_, ?_, ?_, by simp⟩, fun _ => ⟨rfl, rfl, rfl, by simp⟩, by simp⟩ <;> rw [X.idle n ha] <;> assumption
      | some x =>
        have hs := (X.next n x ha).2
        have K0 := (X.reach n).calm
        have K := (X.reach (n + 1)).calm
        obtain ⟨a', ⟨rfl, hu⟩ | ⟨t, r, y, hst, hac, hp, hg⟩, RR'⟩ := sim_stepI hok RR K0 hs K
        · refine ⟨⟨a', l, ls, none, none, 0⟩, ⟨RR', A, ?_, ?_, fun u hu => past_mono K0 hs (hls u hu), by simp⟩,
            fun _ => ⟨rfl, rfl, rfl, fun x' h => by injection h with h; subst h; exact hu⟩, by simp⟩
          · intro j u v hm
            refine Classical.byContradiction fun hul => ?_
            have hn : Life.Ev.joined j u v ∉ (st n).w.l.log := fun h => hul (hj _ _ _ h)
            obtain ⟨⟨z, rfl⟩, -⟩ := step_joined RR K0 hs hm hn
            exact hn (hu _ _ _ hm)
          · intro j u hm
            refine Classical.byContradiction fun hul => ?_
            have hn : Life.Ev.detachCall j u ∉ (st n).w.l.log := fun h => hul (hd _ _ h)
            obtain ⟨⟨ad, tid, k, rfl, ho⟩, -⟩ := step_detach RR K0 hs hm hn
            simp [Unseen, ho] at hu
        · refine ⟨⟨a', (a.uses pr t).toList ++ l, a.gone pr t r y ++ ls, some t, r, y⟩, ⟨RR', A.step hst, ?_, ?_, ?_, by simp⟩, by simp, ?_⟩
          · intro j u v hm
            by_cases hn : Life.Ev.joined j u v ∈ (st n).w.l.log
            · exact List.mem_append_right _ (hj _ _ _ hn)
            obtain ⟨⟨z, rfl⟩, hu⟩ := step_joined RR K0 hs hm hn
            have := hac.1 j u v hm hn
            subst this
            simp [hu]
          · intro j u hm
            by_cases hn : Life.Ev.detachCall j u ∈ (st n).w.l.log
            · exact List.mem_append_right _ (hd _ _ hn)
            obtain ⟨⟨ad, tid, k, rfl, ho⟩, hu⟩ := step_detach RR K0 hs hm hn
            have : j = t := hac
            subst this
            simp [hu]
          · intro u hu
            rcases List.mem_append.mp hu with hu | hu
            · exact past_mono K0 hs (hg u hu)
            · exact past_mono K0 hs (hls u hu)
          · rintro t' ht'
            injection ht' with ht'; subst ht'
            exact ⟨hst, rfl, rfl, hp, x, rfl, hac⟩)
  refine ⟨fun n => (f n).ab, fun n => (f (n + 1)).who, fun n => (f n).us,
    ⟨fun n => (hI n).1, fun n => (hI n).2.1, fun n => (hI n).2.2.1, fun n => (hI n).2.2.2.1, fun n h => ?_, fun n t h => ?_,
      fun n => (f n).ls, fun n => (f (n + 1)).r, fun n => (f (n + 1)).x, ⟨?_, ?_, ?_, ?_⟩, ?_⟩, ((hI 0).2.2.2.2.2 rfl).2⟩
  · obtain ⟨h1, h2, -, h3⟩ := (hQ n).1 h
    exact ⟨h1, h2, h3⟩
  · obtain ⟨h1, h2, -, -, h3⟩ := (hQ n).2 t h
    exact ⟨⟨_, _, h1⟩, h2, h3⟩
  · exact ((hI 0).2.2.2.2.2 rfl).1
  · exact fun n h => ((hQ n).1 h).2.2.1
  · exact fun n t h => ⟨((hQ n).2 t h).1, ((hQ n).2 t h).2.2.1⟩
  · exact fun n t u h ha hu => ((hQ n).2 t h).2.2.2.1 u ha ((hI n).2.2.2.2.1 u hu)
  · exact fun n t u h ha hu => ((hQ n).2 t h).2.2.2.1 u ha hu

end Origin.User
