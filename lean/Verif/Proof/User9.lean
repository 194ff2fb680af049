import Verif.Proof.User8
set_option linter.unusedSimpArgs false
/-! # User programs: every history is a history of the abstract machine -/

namespace Origin.User
open Proc (Frame Fn PFinished)
open Whole (userTop running news)

variable {σ C : Type} {pr : Prg σ C} {c : Proc.Cfg} {sig : Bool} {e : State σ C} {a : Abs σ C} {m : σ}

theorem react_w (e : State σ C) (x : Whole.Ev) : (react pr c e x).w = e.w := by
  unfold react State.call
  (repeat' split) <;> rfl

theorem react_mem (e : State σ C) (x : Whole.Ev) : (react pr c e x).mem = e.mem := by
  unfold react State.call
  (repeat' split) <;> rfl

theorem absorb_w (e : State σ C) (w' : Whole.State) : (e.absorb pr c w').w = w' := by
  unfold State.absorb
  generalize (news e.w.log w'.log).reverse = l
  have : ∀ (l : List Whole.Ev) (e : State σ C), (l.foldl (react pr c) e).w = e.w := by
    intro l
    induction l with
    | nil => intro e; rfl
    | cons x xs ih => intro e; rw [List.foldl_cons, ih, react_w]
  rw [this]

/-- What a step of a program is, in origin. -/
theorem step_w {e' : State σ C} {x : Action} (h : step pr c sig e x = some e') :
    (e'.w = e.w ∧ x.whole pr e = none) ∨ ∃ y, x.whole pr e = some y ∧ Whole.step c sig e.w y = some e'.w := by
  cases x with
  | sys x =>
    simp only [step] at h
    split at h
    case isFalse => cases h
    rw [Option.map_eq_some_iff] at h
    obtain ⟨w', h1, rfl⟩ := h
    exact .inr ⟨x, rfl, by rw [absorb_w]; exact h1⟩
  | user t ad tid =>
    simp only [step] at h
    split at h
    · cases h
    · next cd cs hcd =>
      have hwh : (Action.user t ad tid).whole pr e = (pr.op cd).action e.w.p t ad tid := by simp [Action.whole, State.op, hcd]
      rw [hwh]
      split at h
      · next f hop =>
        split at h <;> cases h
        exact .inl ⟨rfl, by rw [hop]; rfl⟩
      · next v hop =>
        rw [Option.bind_eq_some_iff] at h
        obtain ⟨y, h1, h2⟩ := h
        rw [Option.map_eq_some_iff] at h2
        obtain ⟨w', h2, rfl⟩ := h2
        exact .inr ⟨y, by rw [hop]; exact h1, by rw [absorb_w]; exact h2⟩
      · rw [Option.bind_eq_some_iff] at h
        obtain ⟨y, h1, h2⟩ := h
        rw [Option.map_eq_some_iff] at h2
        obtain ⟨w', h2, rfl⟩ := h2
        exact .inr ⟨y, h1, by rw [absorb_w]; exact h2⟩

/-- Origin's part of a program's history is a history of origin's. -/
theorem Reach.whole {P : Life.State → Life.Action → Prop} (R : Reach pr c sig m P e) : Whole.Reach c sig P e.w := by
  induction R with
  | init ad tid ht => exact .init ad tid ht
  | step R hp hs ih =>
    rcases step_w hs with ⟨h, -⟩ | ⟨y, h1, h2⟩
    · rw [h]; exact ih
    · exact .step ih (fun z hz => hp y z h1 hz) h2

theorem crash_fault {P : Life.State → Life.Action → Prop} {w : Whole.State} (R : Whole.Reach c sig P w) (h : w.crashed = true) :
    ∃ t x, Life.Ev.fault t x ∈ w.l.log := by
  have key : ∀ (s : Whole.State) l' p', (s.next l' p').crashed = true → ∃ t x, Life.Ev.fault t x ∈ (s.next l' p').l.log := by
    intro s l' p' hc
    obtain ⟨h1, h2⟩ := Whole.next_cases (s := s) l' p'
    unfold Whole.State.next at hc ⊢
    split at hc
    · next ha =>
      rw [if_pos ha]
      obtain ⟨x, hx, hf⟩ := List.any_eq_true.mp ha
      cases x <;> simp [Whole.isFault] at hf
      exact ⟨_, _, List.mem_of_mem_take hx⟩
    · cases hc
  cases R with
  | init => cases h
  | step R hp hs =>
    unfold Whole.step at hs
    split at hs
    · cases hs
    · (repeat' split at hs) <;> simp only [Option.map_eq_some_iff, Option.bind_eq_some_iff, reduceCtorEq] at hs
      all_goals
        first
        | (obtain ⟨l', -, rfl⟩ := hs; exact key _ _ _ h)
        | (obtain ⟨l', -, p', -, rfl⟩ := hs; exact key _ _ _ h)
        | (obtain ⟨l', -, hs⟩ := hs; split at hs <;> cases hs; exact key _ _ _ h)
        | (obtain ⟨l', -, p', -, hs⟩ := hs; split at hs <;> cases hs; exact key _ _ _ h)

theorem Reach.calm (R : Reach pr c sig m (Life.Orderly sig) e) : Calm c sig e.w := by
  have RW := R.whole
  have K := RW.known (o := none) (fun _ h => by cases h)
  refine ⟨K, ?_⟩
  cases hx : e.w.crashed with
  | false => rfl
  | true =>
    obtain ⟨t, x, hf⟩ := crash_fault RW hx
    exact absurd hf (no_fault K.life t x)

theorem Rel.init (ad tid : Nat) : Rel pr c (User.init m ad tid) (ainit pr m tid) := by
  refine ⟨rfl, rfl, ?_, rfl, fun _ _ => rfl, ?_, fun _ => rfl, ?_, ?_⟩
  · intro t T hT
    have : t = 0 := by
      cases t with
      | zero => rfl
      | succ n => simp [ainit] at hT
    subst this
    simp [ainit] at hT
    subst hT
    exact ⟨rfl, rfl, _, rfl, rfl⟩
  · simp [ainit, User.init, Whole.init, Proc.init, PFinished]
  · intro t x st h; cases h
  · intro t cl h; cases h

/-- What the abstract machine need not see: steps of origin's own code between the visible ones, the beginning of `program::at_exit` and `join`, and
what happens in threads' exits and waits until a `join` returns. -/
def Unseen (pr : Prg σ C) (e : State σ C) (x : Action) (e' : State σ C) : Prop :=
  match x with
  | .user t _ _ => match e.op pr t with | some (.join ..) | some (.atExitP ..) => True | _ => False
  | .sys (.proc (.step t)) => ∃ fr rest, e.w.p.stk t = fr :: rest ∧ silent fr = true
  | .sys (.life _) => ∀ t u v, Life.Ev.joined t u v ∈ e'.w.l.log → Life.Ev.joined t u v ∈ e.w.l.log
  | _ => False

/-- Whose step it is. -/
def Actor (pr : Prg σ C) (a : Abs σ C) (e : State σ C) (x : Action) (e' : State σ C) (t : Nat) : Prop :=
  match x with
  | .user t' _ _ => t' = t
  | .sys (.release t') | .sys (.proc (.step t')) => t' = t ∧ a.asks pr t = none ∧ a.creates pr t = false
  | .sys (.life _) => (∀ t' u v, Life.Ev.joined t' u v ∈ e'.w.l.log → Life.Ev.joined t' u v ∉ e.w.l.log → t' = t) ∧ a.waits pr t = true
  | _ => False

theorem SimT.seen {t : Nat} {x : Action} {e' : State σ C} (h : SimT pr c a t False e') (ha : Actor pr a e x e' t) :
    ∃ a', ((a' = a ∧ Unseen pr e x e') ∨ ∃ t r y, astep pr (locks c) a t r y = some a' ∧ Actor pr a e x e' t) ∧ Rel pr c e' a' := by
  obtain ⟨a', h | ⟨r, y, h⟩, R⟩ := h
  · exact absurd h.2 id
  · exact ⟨a', .inr ⟨t, r, y, h, ha⟩, R⟩

theorem SimT.unseen {t : Nat} {q : Prop} {x : Action} {e' : State σ C} (h : SimT pr c a t q e') (hu : Unseen pr e x e') (ha : Actor pr a e x e' t) :
    ∃ a', ((a' = a ∧ Unseen pr e x e') ∨ ∃ t r y, astep pr (locks c) a t r y = some a' ∧ Actor pr a e x e' t) ∧ Rel pr c e' a' := by
  obtain ⟨a', h | ⟨r, y, h⟩, R⟩ := h
  · exact ⟨a', .inl ⟨h.1, hu⟩, R⟩
  · exact ⟨a', .inr ⟨t, r, y, h, ha⟩, R⟩

theorem sim_stepT (hok : c.Ok pr.ctors.length pr.finis.length) (R : Rel pr c e a) (K0 : Calm c sig e.w) {x : Action} {e' : State σ C}
    (h : step pr c sig e x = some e') (K : Calm c sig e'.w) :
    ∃ a', ((a' = a ∧ Unseen pr e x e') ∨ ∃ t r y, astep pr (locks c) a t r y = some a' ∧ Actor pr a e x e' t) ∧ Rel pr c e' a' := by
  have Rp := K0.known.proc
  cases x with
  | sys x =>
    simp only [step] at h
    split at h
    case isFalse => cases h
    next hsy =>
    rw [Option.map_eq_some_iff] at h
    obtain ⟨w', h, rfl⟩ := h
    rw [absorb_w] at K
    cases x with
    | life x =>
      have hal := alive h
      have : x.sys = true := by cases x <;> simp [isSys] at hsy <;> rfl
      obtain ⟨l', hl, rfl⟩ : ∃ l', Life.step sig e.w.l x = some l' ∧ e.w.next l' e.w.p = w' := by
        simp only [Whole.step, hal, Bool.or_self, Bool.false_eq_true, if_false] at h
        cases x <;> simp [isSys] at hsy <;> simpa [Option.map_eq_some_iff] using h
      obtain ⟨a', ⟨h1, h2⟩ | ⟨t, r, y, h1, hw, u, v, evs, h2, h3⟩, RR⟩ := sim_sysW R hal.1 (Life.step_eff hl this) K
      · refine ⟨a', .inl ⟨h1, ?_⟩, RR⟩
        obtain ⟨evs, h2, h3⟩ := h2
        intro t u v hm
        rw [absorb_w, next_life, h2] at hm
        rcases List.mem_append.mp hm with hm | hm
        · exact absurd (h3 _ hm) (by simp [Life.Ev.quiet])
        · exact hm
      · refine ⟨a', .inr ⟨t, r, y, h1, fun t' u' v' hm hn => ?_, hw⟩, RR⟩
        rw [absorb_w, next_life, h2] at hm
        rcases List.mem_append.mp hm with hm | hm
        · rcases List.mem_cons.mp hm with hm | hm
          · cases hm; rfl
          · exact absurd (h3 _ hm) (by simp [Life.Ev.quiet])
        · exact absurd hm hn
    | proc x =>
      cases x <;> simp [isSys] at hsy
      rename_i t
      obtain ⟨hd, hcall, p', hq, rfl, hne⟩ := whole_proc h
      unfold Proc.step at hq
      simp only [hd, Bool.false_eq_true, if_false, Proc.Action.tid] at hq
      split at hq
      · cases hq
      · cases hq
      · next fr rest hnu hs =>
        simp only [if_true] at hq
        obtain ⟨a', ⟨h1, h2⟩ | ⟨r, y, h1, h2⟩, RR⟩ := sim_frame hok R Rp hs hcall hd hq (hne t rfl)
        · exact ⟨a', .inl ⟨h1, fr, rest, hs, h2⟩, RR⟩
        · exact ⟨a', .inr ⟨t, r, y, h1, rfl, h2⟩, RR⟩
    | release t => exact (sim_release R K0 h K).1.seen ⟨rfl, (sim_release R K0 h K).2⟩
    | create => simp [isSys] at hsy
    | ret => simp [isSys] at hsy
  | user t ad tid =>
    simp only [step] at h
    split at h
    · cases h
    next cd cs hcd =>
    cases hop : pr.op cd with
    | mem f =>
      simp only [hop] at h
      split at h
      case isFalse => cases h
      next hc =>
      cases h
      simp only [Bool.and_eq_true, Bool.not_eq_true'] at hc
      exact (sim_mem R Rp hcd hop hc.1.1.1 hc.1.2 hc.2).seen rfl
    | ret v =>
      simp only [hop, Op.action, Option.bind_some, Option.map_eq_some_iff] at h
      obtain ⟨w', h, rfl⟩ := h
      rw [absorb_w] at K
      split at h
      · exact (sim_start R K0 hcd hop h K).seen rfl
      · next hns => exact (sim_ret R Rp hcd hop hns h).seen rfl
    | atExitT g k =>
      simp only [hop, Op.action, Option.bind_some, Option.map_eq_some_iff] at h
      obtain ⟨w', h, rfl⟩ := h
      exact (sim_regThr R Rp hcd hop h).seen rfl
    | atExitP g k =>
      simp only [hop, Op.action, Option.bind_some, Option.map_eq_some_iff] at h
      obtain ⟨w', h, rfl⟩ := h
      exact (sim_regProg R Rp hcd hop h).unseen (by simp [Unseen, State.op, hcd, hop]) rfl
    | create g k =>
      simp only [hop, Op.action, Option.bind_some, Option.map_eq_some_iff] at h
      obtain ⟨w', h, rfl⟩ := h
      rw [absorb_w] at K
      exact (sim_create R K0 hcd hop h K).seen rfl
    | join u k =>
      simp only [hop, Op.action, Option.bind_some, Option.map_eq_some_iff] at h
      obtain ⟨w', h, rfl⟩ := h
      rw [absorb_w] at K
      exact (sim_join R hcd hop h K).unseen (by simp [Unseen, State.op, hcd, hop]) rfl
    | detach u k =>
      simp only [hop, Op.action, Option.bind_some, Option.map_eq_some_iff] at h
      obtain ⟨w', h, rfl⟩ := h
      rw [absorb_w] at K
      exact (sim_detach R Rp hcd hop h K).seen rfl
    | id u k =>
      simp only [hop, Op.action, Option.bind_some, Option.map_eq_some_iff] at h
      obtain ⟨w', h, rfl⟩ := h
      rw [absorb_w] at K
      exact (sim_id R K0 hcd hop h K).seen rfl
    | exit st =>
      simp only [hop, Op.action, Option.bind_some, Option.map_eq_some_iff] at h
      obtain ⟨w', h, rfl⟩ := h
      exact (sim_exit R Rp hcd hop h).seen rfl
    | immExit st =>
      simp only [hop, Op.action, Option.bind_some, Option.map_eq_some_iff] at h
      obtain ⟨w', h, rfl⟩ := h
      exact (sim_immExit R Rp hcd hop h).seen rfl

theorem sim_step (hok : c.Ok pr.ctors.length pr.finis.length) (R : Rel pr c e a) (K0 : Calm c sig e.w) {x : Action} {e' : State σ C}
    (h : step pr c sig e x = some e') (K : Calm c sig e'.w) : Sim pr c a e' := by
  obtain ⟨a', h | ⟨t, r, y, h, -⟩, RR⟩ := sim_stepT hok R K0 h K
  · exact ⟨a', .inl h.1, RR⟩
  · exact ⟨a', .inr ⟨t, r, y, h⟩, RR⟩

theorem sim_reach (hok : c.Ok pr.ctors.length pr.finis.length) (R : Reach pr c sig m (Life.Orderly sig) e) :
    ∃ a, AReach pr (locks c) m a ∧ Rel pr c e a := by
  induction R with
  | init ad tid _ => exact ⟨_, .init tid, Rel.init ad tid⟩
  | step R hp hs ih =>
    obtain ⟨a, A, RR⟩ := ih
    obtain ⟨a', h, RR'⟩ := sim_step hok RR R.calm hs (Reach.step R hp hs).calm
    rcases h with rfl | ⟨t, r, x, h⟩
    · exact ⟨_, A, RR'⟩
    · exact ⟨_, A.step h, RR'⟩

/-- The process has ended: some thread has ended it. -/
theorem dead_group {s : Proc.State} (R : Proc.Reach c s) (h : s.dead = true) : ∃ t x st, Proc.Ev.group t x st ∈ s.log := by
  cases R with
  | init => cases h
  | step R hs =>
    obtain ⟨hd, tr⟩ := Proc.step_tr hs
    cases tr
    case group t rest x st h1 h2 => exact ⟨t, x, st, List.mem_cons_self⟩
    case regLock u rest s1 h1 h2 => rw [acquire_log h2] at h; exact absurd (hd.symm.trans h) (by simp)
    case exitLock u rest x st s1 h1 h2 h3 => rw [acquire_log h3] at h; exact absurd (hd.symm.trans h) (by simp)
    case regUnlock => rw [release_eq] at h; exact absurd (hd.symm.trans h) (by simp)
    case exitUnlock => rw [release_eq] at h; exact absurd (hd.symm.trans h) (by simp)
    all_goals exact absurd (hd.symm.trans h) (by simp)

end Origin.User
