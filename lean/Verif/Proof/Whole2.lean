import Verif.Proof.Whole
import Verif.Spec.Whole
set_option linter.unusedSimpArgs false
/-! # Lifecycle and process model together: invariant -/

namespace Origin.Life

/-- A thread whose memory is gone, or whose `join` has returned, is beyond its `at_exit` functions. -/
theorem late_of_gone {sig : Bool} {s : State} {h : Inst} (I : Inv (only h) sig s)
    (hg : (∃ j v, Ev.joined j h v ∈ s.log) ∨ (∃ j, Ev.unmap h j ∈ s.log)) : clsOf s h = some .late ∧ h ≠ 0 := by
  obtain ⟨T, hT⟩ : ∃ T, s.thr h = some T := by
    rcases hg with ⟨j, v, h⟩ | ⟨j, h⟩ <;> exact I.logThr _ h
  have O := I.ok h T hT
  have hu : ∃ j, Ev.unmap h j ∈ s.log := by
    rcases hg with ⟨j, v, h⟩ | h
    · obtain ⟨old, h1, h2⟩ := trace_mem I.trace h
      exact ⟨j, h2 _ h1.2⟩
    · exact h
  have hm := O.link.um.mp hu
  have G := O.good
  rw [only_self] at G
  have hl : T.stage.cls = .late := by
    cases hs : T.stage <;> simp only [Good, hs, Live, Lost] at G <;> simp [Stage.cls] <;> grind
  refine ⟨by simp [clsOf, hT, hl], ?_⟩
  rintro rfl
  rw [O.main.1 rfl] at hl
  cases hl

/-- In its `at_exit` functions, a thread's function has returned. -/
theorem returned_of_dtors {w : Inst → Bool} {sig : Bool} {s : State} {h : Inst} (I : Inv w sig s) (hc : clsOf s h = some .dtors) :
    ∃ v, Ev.returned h v ∈ s.log := by
  unfold clsOf at hc
  rw [Option.map_eq_some_iff] at hc
  obtain ⟨T, hT, hc⟩ := hc
  have O := I.ok h T hT
  have G := O.good
  cases hs : T.stage <;> rw [hs] at hc <;> simp [Stage.cls] at hc
  simp only [Good, hs] at G
  rename_i v
  exact ⟨v, (O.link.ret v).mpr (by grind)⟩

end Origin.Life

namespace Origin.Whole
open Proc (TraceOk)

variable {c : Proc.Cfg} {sig : Bool} {s s' : State}

theorem news_append {α : Type} (evs l : List α) : news l (evs ++ l) = evs := by simp [news]

/-- What must have happened before an event. -/
def JOk (o : Option Nat) (e : Ev) (old : List Ev) : Prop :=
  match e with
  | .inl (.joined _ h _) | .inl (.unmap h _) => o = some h → AllCalled old h
  | .inr x => (∀ h, o = some h → x.on = some h → ¬ Joined old h ∧ ¬ Unmapped old h) ∧
      ∀ t f, x = .tCall t none f → ∃ v, .inl (.returned t v) ∈ old
  | _ => True

/-- The two models agree on where the threads are. -/
structure Linked (s : State) : Prop where
  next : s.l.next = s.p.nextT
  full : ∀ u, u < s.l.next → Life.clsOf s.l u ≠ none
  run : ∀ u, u ≠ 0 → Life.clsOf s.l u = some .run → (s.p.stk u).getLast? = some (.user .start)
  dtors : ∀ u, u ≠ 0 → Life.clsOf s.l u = some .dtors → (s.p.stk u).getLast? = some .thrLoop
  late : ∀ u, u ≠ 0 → Life.clsOf s.l u = some .late → .released u ∈ s.p.log
  main : Proc.special (s.p.stk 0).getLast? = false

structure Inv (o : Option Nat) (s : State) : Prop where
  linked : s.crashed = false → Linked s
  inl : ∀ e, .inl e ∈ s.log ↔ e ∈ s.l.log
  inr : ∀ e, .inr e ∈ s.log ↔ e ∈ s.p.log
  trace : TraceOk (JOk o) s.log

theorem Linked.init (a tid : Nat) : Linked (init a tid) := by
  constructor
  · rfl
  · intro u hu; have : u = 0 := by simp [Whole.init, Life.init] at hu; exact hu
    subst this; simp [Whole.init, Life.clsOf, Life.init]
  · intro u hu h; simp [Whole.init, Life.clsOf, Life.init, hu] at h
  · intro u hu h; simp [Whole.init, Life.clsOf, Life.init, hu] at h
  · intro u hu h; simp [Whole.init, Life.clsOf, Life.init, hu] at h
  · rfl

/-- the next state's parts -/
theorem next_cases (l' : Life.State) (p' : Proc.State) :
    (s.next l' p').l = l' ∧
    (((s.next l' p').crashed = true ∧ (s.next l' p').p = s.p ∧ (s.next l' p').log = (news s.l.log l'.log).map .inl ++ s.log) ∨
     ((s.next l' p').crashed = false ∧ (news s.l.log l'.log).any isFault = false ∧ (s.next l' p').p = p' ∧
        (s.next l' p').log = (news s.p.log p'.log).map .inr ++ (news s.l.log l'.log).map .inl ++ s.log)) := by
  unfold State.next
  split
  · exact ⟨rfl, .inl ⟨rfl, rfl, rfl⟩⟩
  · next h => exact ⟨rfl, .inr ⟨rfl, by simpa using h, rfl, rfl⟩⟩

/-- Putting a step together. -/
theorem Inv.next {o : Option Nat} (I : Inv o s) {l' : Life.State} {p' : Proc.State} {le : List Life.Ev} {pe : List Proc.Ev}
    (hl : l'.log = le ++ s.l.log) (hp : p'.log = pe ++ s.p.log)
    (hk : (s.next l' p').crashed = false → Linked (s.next l' p'))
    (h1 : ∀ e ∈ le, ∀ old, (∀ y ∈ s.log, y ∈ old) → (∀ y ∈ old, ∀ z, y = .inr z → y ∈ s.log) → JOk o (.inl e) old)
    (h2 : (s.next l' p').crashed = false → ∀ e ∈ pe, ∀ old, (∀ y ∈ s.log, y ∈ old) → (∀ y ∈ old, ∀ z, y = .inl z → z ∈ l'.log) → JOk o (.inr e) old) :
    Inv o (s.next l' p') := by
  have hn := next_cases (s := s) l' p'
  rw [hl, hp, news_append, news_append] at hn
  have t1 : ∀ suf pre, le = pre ++ suf → TraceOk (JOk o) (suf.map Sum.inl ++ s.log) := by
    intro suf
    induction suf with
    | nil => intro _ _; exact I.trace
    | cons y ys ih =>
      intro pre he
      refine ⟨h1 y (by rw [he]; simp) _ (fun z hz => List.mem_append_right _ hz) ?_, ih (pre ++ [y]) (by rw [he]; simp)⟩
      intro a ha z hz
      subst hz
      rcases List.mem_append.mp ha with h | h
      · simp at h
      · exact h
  have t1 := t1 le [] rfl
  obtain ⟨e1, ⟨e2, e3, e4⟩ | ⟨e2, -, e3, e4⟩⟩ := hn
  · refine ⟨hk, ?_, ?_, by rw [e4]; exact t1⟩
    · intro e; rw [e4, e1, hl]; simp [I.inl]
    · intro e; rw [e4, e3]; simp [I.inr]
  · refine ⟨hk, ?_, ?_, ?_⟩
    · intro e; rw [e4, e1, hl]; simp [I.inl]
    · intro e; rw [e4, e3, hp]; simp [I.inr]
    · rw [e4, List.append_assoc]
      have t2 : ∀ suf pre, pe = pre ++ suf → TraceOk (JOk o) (suf.map Sum.inr ++ (le.map Sum.inl ++ s.log)) := by
        intro suf
        induction suf with
        | nil => intro _ _; exact t1
        | cons y ys ih =>
          intro pre he
          refine ⟨h2 e2 y (by rw [he]; simp) _ (fun z hz => by simp [hz]) ?_, ih (pre ++ [y]) (by rw [he]; simp)⟩
          intro a ha z hz
          subst hz
          rw [hl]
          rcases List.mem_append.mp ha with h | h
          · simp at h
          · rcases List.mem_append.mp h with h | h
            · simp at h; exact List.mem_append_left _ h
            · exact List.mem_append_right _ ((I.inl z).mp h)
      exact t2 pe [] rfl

/-- No call of a step that is a thread's own exit, unless its function has returned. -/
theorem tcall_ok {p p' : Proc.State} (ht : Proc.Tr c p p') {pe : List Proc.Ev} (hp : p'.log = pe ++ p.log) {t f : Nat} (h : .tCall t none f ∈ pe) :
    ∃ rest, p.stk t = .thrLoop :: rest := by
  have key : ∀ evs : List Proc.Ev, p'.log = evs ++ p.log → .tCall t none f ∈ evs := by
    intro evs he
    rw [hp] at he
    rwa [← List.append_cancel_right he]
  cases ht with
  | spawn t' fn rest hs hc => have := key [_] rfl; simp at this
  | regThr t' fn rest hs hc => have := key [_] rfl; simp at this
  | regProg t' fn rest hs hc => have := key [] rfl; simp at this
  | exit t' fn rest st hs => have := key [_] rfl; simp at this
  | imm t' fn rest st hs => have := key [_] rfl; simp at this
  | retMain t' rest st hs => have := key [_, _] rfl; simp at this
  | retStart t' rest hs => have := key [] rfl; simp at this
  | ret t' fn rest hs h1 h2 => have := key [] rfl; simp at this
  | entry t' rest hs => have := key [_] rfl; simp at this
  | initEnd t' rest hs => have := key [_] rfl; simp at this
  | init t' p rest hs hpe => have := key [_] rfl; simp at this
  | thrCall t' rest f' fs hs hc ht =>
    have := key [_] rfl
    simp at this
    rw [this.1]
    exact ⟨_, hs⟩
  | thrEnd t' rest hs ht => have := key [_] rfl; simp at this
  | regLock t' rest s1 hs ha =>
    obtain ⟨-, -, -, -, -, -, -, h3⟩ := Proc.acquire_fields ha
    have := key [] h3; simp at this
  | regPush t' rest hs => have := key [_] rfl; simp at this
  | regUnlock t' rest f hs =>
    obtain ⟨-, -, -, -, -, -, -, h3⟩ := Proc.release_fields c p
    have := key [_] (by rw [← h3]; rfl); simp at this
  | exitThrCall t' rest e st f' fs hs hc ht => have := key [_] rfl; simp at this
  | exitThr t' rest e st hs ht => have := key [_] rfl; simp at this
  | exitLock t' rest e st s1 hs hc ha =>
    obtain ⟨-, -, -, -, -, -, -, h3⟩ := Proc.acquire_fields ha
    have := key [] h3; simp at this
  | exitNoLock t' rest e st hs hc => have := key [_] rfl; simp at this
  | exitPop t' rest e st f' fs hs hd => have := key [_] rfl; simp at this
  | exitPopEnd t' rest e st hs hd => have := key [_] rfl; simp at this
  | exitUnlock t' rest e st f' hs =>
    obtain ⟨-, -, -, -, -, -, -, h3⟩ := Proc.release_fields c p
    have := key [] h3; simp at this
  | exitCall t' rest e st f' hs => have := key [_] rfl; simp at this
  | exitFiniEnd t' rest e st hs => have := key [] rfl; simp at this
  | exitFini t' rest e st p hs hp => have := key [_] rfl; simp at this
  | group t' rest e st hs _ => have := key [_] rfl; simp at this

/-- The `released` events are those of stacks that become empty. -/
theorem released_of {p p' : Proc.State} {x : Proc.Action} (hx : Proc.step c p x = some p')
    (hn : p.stk x.tid = [.thrLoop]) (he : p'.stk x.tid = []) : .released x.tid ∈ p'.log := by
  unfold Proc.step at hx
  split at hx
  · cases hx
  · rw [hn] at hx
    simp only at hx
    split at hx
    · simp only [Proc.frameStep] at hx
      split at hx
      · cases hx; simp [Proc.State.ev, Proc.State.setStk] at he
      · cases hx; simp [Proc.State.ev]
    · cases hx

/-- The new events of a step of the process model are on the acting thread. -/
theorem pstep_log {p p' : Proc.State} {x : Proc.Action} (hx : Proc.step c p x = some p') :
    ∃ pe, p'.log = pe ++ p.log ∧ ∀ e ∈ pe, ∀ u, e.on = some u → p.stk u ≠ [] := by
  obtain ⟨t, h1, -, -, evs, h2, h3, -⟩ := (Proc.step_tr hx).2.eff
  exact ⟨evs, h2, fun e he u hu => by rw [h3 e he u hu]; exact h1⟩

theorem fault_crashes {l' : Life.State} {p' : Proc.State} (h : Life.Faulted s.l l') : (s.next l' p').crashed = true := by
  obtain ⟨t, u, rfl⟩ := h
  have : news s.l.log (s.l.faulted t u).log = [.fault t u] := news_append [_] _
  unfold State.next
  rw [this]
  rfl

/-- A thread in a frame of its own exit is, for the lifecycle model, in its `at_exit` functions. -/
theorem Linked.in_dtors (L : Linked s) (R : Proc.Reach c s.p) {t : Nat} {rest : List Proc.Frame} (h : s.p.stk t = .thrLoop :: rest) :
    Life.clsOf s.l t = some .dtors ∧ t ≠ 0 ∧ rest = [] := by
  have S := R.sinv
  have hr : rest = [] := by have := S.shape t; rw [h] at this; exact this.bottom_nil rfl
  subst hr
  have h0 : t ≠ 0 := by rintro rfl; have := L.main; rw [h] at this; cases this
  have hlt : t < s.l.next := by
    rw [L.next]
    rcases Nat.lt_or_ge t s.p.nextT with h' | h'
    · exact h'
    · rw [S.new t h'] at h; cases h
  refine ⟨?_, h0, rfl⟩
  cases hc : Life.clsOf s.l t with
  | none => exact absurd hc (L.full t hlt)
  | some k =>
    cases k with
    | run => have := L.run t h0 hc; rw [h] at this; cases this
    | dtors => rfl
    | late => have := (R.rinv.gone t (L.late t h0 hc)).1; rw [h] at this; cases this

/-- New events of the process model. -/
theorem JOk.proc {o : Option Nat} (L : Linked s) (R : Proc.Reach c s.p) (A : Life.Inv (fun _ => true) sig s.l)
    (B : ∀ h, o = some h → Life.Inv (Life.only h) sig s.l) (I : Inv o s) {x : Proc.Action} {p' : Proc.State} {l' : Life.State}
    (hx : Proc.step c s.p x = some p') {pe : List Proc.Ev} (hp : p'.log = pe ++ s.p.log)
    (hl : ∀ z ∈ l'.log, (∃ j h v, z = .joined j h v) ∨ (∃ h j, z = .unmap h j) → z ∈ s.l.log)
    {e : Proc.Ev} (he : e ∈ pe) {old : List Ev} (h1 : ∀ y ∈ s.log, y ∈ old) (h2 : ∀ y ∈ old, ∀ z, y = .inl z → z ∈ l'.log) :
    JOk o (.inr e) old := by
  obtain ⟨pe', q1, q2⟩ := pstep_log hx
  have hpe : pe' = pe := List.append_cancel_right (q1.symm.trans hp)
  subst hpe
  constructor
  · intro h ho hon
    have hne := q2 e he h hon
    have no : ¬ ((∃ j v, Life.Ev.joined j h v ∈ s.l.log) ∨ (∃ j, Life.Ev.unmap h j ∈ s.l.log)) := by
      intro hg
      obtain ⟨k1, k2⟩ := Life.late_of_gone (B h ho) hg
      exact hne (R.rinv.gone h (L.late h k2 k1)).1
    constructor
    · rintro ⟨j, v, hj⟩
      exact no (.inl ⟨j, v, hl _ (h2 _ hj _ rfl) (.inl ⟨_, _, _, rfl⟩)⟩)
    · rintro ⟨j, hj⟩
      exact no (.inr ⟨j, hl _ (h2 _ hj _ rfl) (.inr ⟨_, _, rfl⟩)⟩)
  · rintro t f rfl
    obtain ⟨rest, hr⟩ := tcall_ok (Proc.step_tr hx).2 hp he
    obtain ⟨v, hv⟩ := Life.returned_of_dtors A (L.in_dtors R hr).1
    exact ⟨v, h1 _ ((I.inl _).mpr hv)⟩

/-- New events of the lifecycle model. -/
theorem JOk.life {o : Option Nat} (L : Linked s) (R : Proc.Reach c s.p) (I : Inv o s) {l' : Life.State}
    (B : ∀ h, o = some h → Life.Inv (Life.only h) sig l') (hc : ∀ u, Life.clsOf l' u = Life.clsOf s.l u)
    {e : Life.Ev} (he : e ∈ l'.log) {old : List Ev} (h1 : ∀ y ∈ s.log, y ∈ old) (h2 : ∀ y ∈ old, ∀ z, y = .inr z → y ∈ s.log) :
    JOk o (.inl e) old := by
  have key : ∀ h, o = some h → ((∃ j v, Life.Ev.joined j h v ∈ l'.log) ∨ (∃ j, Life.Ev.unmap h j ∈ l'.log)) → AllCalled old h := by
    intro h ho hg f hf
    obtain ⟨k1, k2⟩ := Life.late_of_gone (B h ho) hg
    rw [hc] at k1
    obtain ⟨w, hw⟩ := R.rinv.all h f (L.late h k2 k1) ((I.inr _).mp (h2 _ hf _ rfl))
    exact ⟨w, h1 _ ((I.inr _).mpr hw)⟩
  cases e with
  | joined j h v => exact fun ho => key h ho (.inl ⟨j, v, he⟩)
  | unmap h j => exact fun ho => key h ho (.inr ⟨j, he⟩)
  | _ => trivial

/-- Only the process model moves. -/
theorem Linked.proc (L : Linked s) (R : Proc.Reach c s.p) (A : Life.Inv (fun _ => true) sig s.l) {x : Proc.Action} {p' : Proc.State}
    (hx : Proc.step c s.p x = some p') {s' : State} (e1 : s'.l = s.l) (e2 : s'.p = p')
    (n1 : ∀ t, x ≠ .spawn t) (n2 : ∀ t st, x = .ret t st → s.p.stk t ≠ [.user .start]) (n3 : s.p.stk x.tid = [.thrLoop] → p'.stk x.tid ≠ []) :
    Linked s' := by
  have S := R.sinv
  obtain ⟨o1, o2, o3⟩ := Proc.step_other hx
  have hn : p'.nextT = s.p.nextT := by
    rcases o2 with ⟨t, h, -⟩ | h
    · exact absurd h (n1 t)
    · exact h.1
  have oth : ∀ u, u ≠ x.tid → p'.stk u = s.p.stk u := by
    rcases o2 with ⟨t, h, -⟩ | h
    · exact absurd h (n1 t)
    · exact h.2
  have btm : ∀ u, u ≠ s.p.nextT → (p'.stk u).getLast? = (s.p.stk u).getLast? ∨
      (Proc.special (s.p.stk u).getLast? = false ∧ Proc.special (p'.stk u).getLast? = false) := by
    intro u hu
    rcases (Proc.step_tr hx).2.bottom S hu with h | ⟨h1, h2⟩ | ⟨h1, h2⟩ | h
    · exact .inl h
    · exfalso
      have hux : u = x.tid := by
        refine Classical.byContradiction fun hne => ?_
        have := oth u hne; rw [h1, h2] at this; cases this
      subst hux
      unfold Proc.step at hx
      split at hx
      · cases hx
      · rw [h1] at hx
        cases x with
        | spawn t => exact n1 t rfl
        | ret t st => exact n2 t st rfl h1
        | regThr t =>
          simp only [Proc.userStep] at hx; split at hx <;> cases hx
          simp only [Proc.Action.tid] at h1 h2
          simp [Proc.State.ev, Proc.State.setTd, h1] at h2
        | regProg t =>
          simp only [Proc.userStep] at hx; split at hx <;> cases hx
          simp [Proc.State.setStk, Proc.Action.tid] at h2
        | exit t st => simp only [Proc.userStep] at hx; cases hx; simp [Proc.State.beginExit, Proc.State.ev, Proc.State.setStk, Proc.Action.tid] at h2
        | immExit t st => simp only [Proc.userStep] at hx; cases hx; simp [Proc.State.ev, Proc.State.setStk, Proc.Action.tid] at h2
        | step t => simp only [Proc.userStep] at hx; cases hx
    · exfalso
      have hux : u = x.tid := by
        refine Classical.byContradiction fun hne => ?_
        have := oth u hne; rw [h1, h2] at this; cases this
      subst hux
      exact n3 h1 h2
    · exact .inr h
  have lt : ∀ u k, Life.clsOf s.l u = some k → u ≠ s.p.nextT := by
    intro u k h
    unfold Life.clsOf at h
    rw [Option.map_eq_some_iff] at h
    obtain ⟨T, hT, -⟩ := h
    have := A.lt u T hT
    rw [L.next] at this
    exact Nat.ne_of_lt this
  have hlog : ∀ e ∈ s.p.log, e ∈ p'.log := by
    obtain ⟨pe, h, -⟩ := pstep_log hx
    intro e he; rw [h]; exact List.mem_append_right _ he
  constructor
  · rw [e1, e2, hn]; exact L.next
  · rw [e1]; exact L.full
  · rw [e1, e2]; intro u h0 hu
    have h := L.run u h0 hu
    rcases btm u (lt u _ hu) with h' | h'
    · rw [h']; exact h
    · rw [h] at h'; cases h'.1
  · rw [e1, e2]; intro u h0 hu
    have h := L.dtors u h0 hu
    rcases btm u (lt u _ hu) with h' | h'
    · rw [h']; exact h
    · rw [h] at h'; cases h'.1
  · rw [e1, e2]; intro u h0 hu; exact hlog _ (L.late u h0 hu)
  · rw [e2]
    rcases btm 0 (Nat.ne_of_lt S.pos) with h' | h'
    · rw [h']; exact L.main
    · exact h'.2

end Origin.Whole
