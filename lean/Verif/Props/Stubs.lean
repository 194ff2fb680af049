import Verif.Model.Stubs
import Verif.Spec.Process
import Verif.Proof.Process7
import Verif.Props.Signals
/-!
# C78: panics and unwinding with the stub features
-/

namespace Origin.Stubs

variable {ver : BitVec 32} {cls : BitVec 64} {a b fs : List Frame} {f : Frame}

/-- The function has no personality routine, or it is origin's. -/
def Plain (f : Frame) : Prop := f.personality = none ∨ f.personality = some rustEhPersonality

theorem search_skip (hp : Plain f) : search 1 cls (f :: b) = search 1 cls b := by
  rcases hp with h | h <;> simp [search, h, rustEhPersonality]

theorem cleanup_skip (hp : Plain f) {h : Nat} (hh : f.cfa ≠ h) : cleanup 1 cls h (f :: b) = cleanup 1 cls h b := by
  rcases hp with h | h <;> simp [cleanup, h, rustEhPersonality, hh]

theorem force_skip (hp : Plain f) : force 1 cls (f :: b) = force 1 cls b := by
  rcases hp with h | h <;> simp [force, h, rustEhPersonality]

theorem search_insert (hp : Plain f) : search 1 cls (a ++ f :: b) = search 1 cls (a ++ b) := by
  induction a with
  | nil => exact search_skip hp
  | cons g a ih => simp only [List.cons_append, search, ih]

theorem force_insert (hp : Plain f) : force 1 cls (a ++ f :: b) = force 1 cls (a ++ b) := by
  induction a with
  | nil => exact force_skip hp
  | cons g a ih => simp only [List.cons_append, force, ih]

theorem cleanup_insert (hp : Plain f) {h : Nat} (hh : f.cfa ≠ h) : cleanup 1 cls h (a ++ f :: b) = cleanup 1 cls h (a ++ b) := by
  induction a with
  | nil => exact cleanup_skip hp hh
  | cons g a ih => simp only [List.cons_append, cleanup, ih]

theorem search_handled {h : Nat} (hs : search ver cls fs = .handled h) : ∃ f ∈ fs, f.cfa = h := by
  induction fs with
  | nil => simp [search] at hs
  | cons g gs ih =>
    simp only [search] at hs
    split at hs
    · obtain ⟨f, h1, h2⟩ := ih hs; exact ⟨f, by simp [h1], h2⟩
    · split at hs
      · exact ⟨g, by simp, by simpa using hs⟩
      · split at hs
        · obtain ⟨f, h1, h2⟩ := ih hs; exact ⟨f, by simp [h1], h2⟩
        · simp at hs

/-- **C78 (unwinding).** A Rust frame, wherever it is on the stack, makes no difference to what becomes of an exception: the same landing pads of the other
frames are entered, in the same order, and the same handler gets it (or nobody does).  `f`'s own landing pads are not entered. -/
theorem C78_rust_frame_transparent (hf : f.personality = some rustEhPersonality) (hd : ∀ g ∈ a ++ b, g.cfa ≠ f.cfa) :
    raise 1 cls (a ++ f :: b) = raise 1 cls (a ++ b) := by
  simp only [raise, search_insert (.inr hf)]
  split
  · next h hs =>
    obtain ⟨g, h1, h2⟩ := search_handled hs
    exact cleanup_insert (.inr hf) fun e => hd g h1 (by rw [h2, e])
  · rfl

/-- **C78 (unwinding).** The same, for a forced unwinding. -/
theorem C78_rust_frame_transparent_forced (hf : f.personality = some rustEhPersonality) : force 1 cls (a ++ f :: b) = force 1 cls (a ++ b) :=
  force_insert (.inr hf)

/-- **C78 (unwinding).** If the only personality routine is origin's, nobody gets an exception: `_Unwind_RaiseException` returns `_URC_END_OF_STACK`, and no
landing pad has been entered: neither a handler, nor a destructor.  The same for a forced unwinding. -/
theorem C78_no_landing_pads (h : ∀ f ∈ fs, f.personality = none ∨ f.personality = some rustEhPersonality) :
    raise 1 cls fs = ([], .returned 5) ∧ force 1 cls fs = ([], .returned 5) := by
  have : search 1 cls fs = .returned 5 ∧ force 1 cls fs = ([], .returned 5) := by
    induction fs with
    | nil => exact ⟨rfl, rfl⟩
    | cons g gs ih =>
      have hp : Plain g := h g (by simp)
      rw [search_skip hp, force_skip hp]
      exact ih fun f hf => h f (by simp [hf])
  exact ⟨by simp only [raise, this.1], this.2⟩

/-- **C78 (unwinding).** An unwinder of another version gets `_URC_FATAL_PHASE1_ERROR` from the first Rust frame, and enters no landing pad: an exception then passes no
Rust frame. -/
theorem C78_other_version (hv : ver ≠ 1) (ha : ∀ g ∈ a, g.personality = none) (hf : f.personality = some rustEhPersonality) :
    raise ver cls (a ++ f :: b) = ([], .returned 3) := by
  have : search ver cls (a ++ f :: b) = .returned 3 := by
    induction a with
    | nil => simp only [List.nil_append, search, hf, rustEhPersonality, if_pos hv]; rfl
    | cons g a ih => simp only [List.cons_append, search, ha g (by simp), ih fun g hg => ha g (by simp [hg])]
  simp only [raise, this]

/-- A stack on which an exception passes two Rust frames and one that cleans up, on its way to a handler: the cleaning up is done, and the handler gets it. -/
example : raise 1 0
    [⟨10, some rustEhPersonality⟩, ⟨20, some fun _ a _ => if a = 1 then 8 else 7⟩, ⟨30, some rustEhPersonality⟩, ⟨40, some fun _ a _ => if a = 1 then 6 else 7⟩]
    = ([20, 40], .handled 40) := by decide

/-- The hypotheses of `C78_no_landing_pads` and `C78_other_version` can be met. -/
example : raise 1 7 [⟨10, some rustEhPersonality⟩, ⟨20, none⟩, ⟨30, some rustEhPersonality⟩] = ([], .returned 5) ∧
    raise 2 7 [⟨20, none⟩, ⟨30, some rustEhPersonality⟩, ⟨40, some fun _ _ _ => 6⟩] = ([], .returned 3) := by decide

end Origin.Stubs

namespace Origin.Proc

variable {c : Cfg}

theorem trap_inv {acts : List TrapAct} : ∀ {p p' : TrapState}, (∃ s, Reach c s ∧ s.log = p.s.log ∧
      (p.trapped = none → s = p.s) ∧ ∀ t, p.trapped = some t → p.s.dead = true ∧ s.dead = false ∧ s.stk t ≠ []) →
    trapRun c p acts = some p' → ∃ s, Reach c s ∧ s.log = p'.s.log ∧
      (p'.trapped = none → s = p'.s) ∧ ∀ t, p'.trapped = some t → p'.s.dead = true ∧ s.dead = false ∧ s.stk t ≠ [] := by
  induction acts with
  | nil => intro p p' h hr; simp only [trapRun, Option.some.injEq] at hr; exact hr ▸ h
  | cons x xs ih =>
    rintro p p' ⟨s, h1, h2, h3, h4⟩ hr
    simp only [trapRun, Option.bind_eq_some_iff] at hr
    obtain ⟨q, hq, hr⟩ := hr
    refine ih ?_ hr
    cases x with
    | act x =>
      simp only [trapStep, Option.map_eq_some_iff] at hq
      obtain ⟨s', hs', rfl⟩ := hq
      cases ht : p.trapped with
      | some t => have := (h4 t ht).1; simp [step, this] at hs'
      | none =>
        obtain rfl := h3 ht
        exact ⟨s', .step h1 hs', rfl, fun _ => rfl, fun t e => by simp at e⟩
    | panic t =>
      simp only [trapStep] at hq
      split at hq
      · simp at hq
      · next hn =>
        simp only [Option.some.injEq] at hq
        subst hq
        simp only [not_or, Bool.not_eq_true] at hn
        cases ht : p.trapped with
        | some t => simp [(h4 t ht).1] at hn
        | none =>
          obtain rfl := h3 ht
          exact ⟨p.s, h1, rfl, fun e => by simp [TrapState.panic] at e,
            fun u e => by simp only [TrapState.panic, Option.some.injEq] at e; subst e; exact ⟨rfl, hn⟩⟩

theorem trap_reach {acts : List TrapAct} {p : TrapState} (h : trapRun c trapInit acts = some p) :
    ∃ s, Reach c s ∧ s.log = p.s.log ∧ (p.trapped = none → s = p.s) ∧ ∀ t, p.trapped = some t → p.s.dead = true ∧ s.dead = false ∧ s.stk t ≠ [] :=
  trap_inv ⟨init, .init, rfl, fun _ => rfl, fun t e => by simp [trapInit] at e⟩ h

/-- **C78 (panics).** Whatever happened before a panic is a history that could happen without it, so that all that C28–C34 say of histories holds. -/
theorem C78_history {acts : List TrapAct} {p : TrapState} (h : trapRun c trapInit acts = some p) : ∃ s, Reach c s ∧ s.log = p.s.log :=
  have ⟨s, h1, h2, _⟩ := trap_reach h; ⟨s, h1, h2⟩

/-- **C78 (panics).** A panic can end the process at any moment, whatever its thread is executing, and whichever locks are held. -/
theorem C78_panic_ends_at_once {p : TrapState} {t : Tid} (hd : p.s.dead = false) (hs : p.s.stk t ≠ []) :
    ∃ p', trapStep c p (.panic t) = some p' ∧ p'.s.dead = true ∧ p'.trapped = some t ∧ p'.s.log = p.s.log :=
  ⟨p.panic t, by simp [trapStep, hd, hs], rfl, rfl, rfl⟩

/-- **C78 (panics).** Nothing happens after a panic: no `at_exit` function, no `.fini_array` function, and no other thread goes on.  Only the panic itself is the last thing done,
and the process does not end with a status, but is killed by the trap. -/
theorem C78_nothing_after {acts : List TrapAct} {p : TrapState} {t : Tid} (h : trapRun c trapInit acts = some p) (ht : p.trapped = some t) :
    (∀ x, trapStep c p x = none) ∧ (∀ t' e v, .group t' e v ∉ p.s.log) ∧ ∃ before q, acts = before ++ [.panic t] ∧ trapRun c trapInit before = some q ∧ q.s.log = p.s.log := by
  obtain ⟨s, h1, h2, -, h4⟩ := trap_reach h
  obtain ⟨hd, hs, -⟩ := h4 t ht
  refine ⟨fun x => ?_, fun t' e v => h2 ▸ h1.onok.2 hs t' e v, ?_⟩
  · cases x <;> simp [trapStep, step, hd]
  · have gen : ∀ (acts : List TrapAct) (q : TrapState), q.trapped = none → trapRun c q acts = some p →
        ∃ before q', acts = before ++ [.panic t] ∧ trapRun c q before = some q' ∧ q'.s.log = p.s.log := by
      intro acts
      induction acts with
      | nil => intro q hq hr; simp only [trapRun, Option.some.injEq] at hr; subst hr; simp [hq] at ht
      | cons x xs ih =>
        intro q hq hr
        simp only [trapRun, Option.bind_eq_some_iff] at hr
        obtain ⟨r, hr1, hr2⟩ := hr
        cases x with
        | act x =>
          have hr1' := hr1
          simp only [trapStep, Option.map_eq_some_iff] at hr1'
          obtain ⟨s', -, rfl⟩ := hr1'
          obtain ⟨before, q', e1, e2, e3⟩ := ih { q with s := s' } hq hr2
          exact ⟨.act x :: before, q', by simp [e1], by simp [trapRun, hr1, e2], e3⟩
        | panic u =>
          simp only [trapStep] at hr1
          split at hr1
          · simp at hr1
          · simp only [Option.some.injEq] at hr1
            subst hr1
            cases xs with
            | cons y ys => cases y <;> simp [trapRun, trapStep, step, TrapState.panic] at hr2
            | nil =>
              simp only [trapRun, Option.some.injEq] at hr2
              subst hr2
              simp only [TrapState.panic, Option.some.injEq] at ht
              exact ⟨[], q, by simp [ht], rfl, rfl⟩
    exact gen acts trapInit rfl h

/-- A panic in a program's `at_exit` function: the functions that are left are not called, and nothing else happens. -/
example : (trapRun demo trapInit ((toMain ++ [Action.regProg 0] ++ steps 0 3 ++ [Action.regProg 0] ++ steps 0 3 ++ [Action.exit 0 7] ++ steps 0 5).map .act ++ [.panic 0])).map
      (fun p => (p.s.log.reverse.drop 4, p.trapped, p.s.dtors)) =
    some ([.pReg 0 0, .pRegRet 0 0, .pReg 0 1, .pRegRet 0 1, .exitBegin 0 0 7, .tDone 0 0, .pTake 0 0 1, .pCall 0 0 1], some 0, [0]) := by decide

end Origin.Proc
