import Verif.Model.Whole
import Verif.Proof.Process7
import Verif.Props.Lifecycle
set_option linter.unusedSimpArgs false
/-! # Lifecycle and process model together: how the two are linked -/

namespace Origin.Proc

/-- Only the acting thread's stack changes, and a new thread's. -/
theorem step_other {c : Cfg} {s s' : State} {x : Action} (h : step c s x = some s') :
    (∀ u, u ≠ x.tid → u ≠ s.nextT → s'.stk u = s.stk u) ∧
    ((∃ t, x = .spawn t ∧ s'.nextT = s.nextT + 1 ∧ s'.stk s.nextT = [.user .start]) ∨
      (s'.nextT = s.nextT ∧ ∀ u, u ≠ x.tid → s'.stk u = s.stk u)) ∧ s.stk x.tid ≠ [] := by
  unfold step at h
  split at h
  · cases h
  · split at h
    · cases h
    · next fn rest hs =>
      refine ⟨?_, ?_, by rw [hs]; simp⟩ <;> cases x <;> simp only [userStep, Action.tid] at h hs ⊢ <;> (repeat' split at h) <;> cases h <;>
        simp +contextual [State.setStk, State.ev, State.setTd, State.beginExit, hs]
    · next fr rest hnu hs =>
      split at h
      case isFalse => cases h
      suffices hk : s'.nextT = s.nextT ∧ ∀ u, u ≠ x.tid → s'.stk u = s.stk u from
        ⟨fun u hu _ => hk.2 u hu, .inr hk, by rw [hs]; simp⟩
      generalize x.tid = t at h hs ⊢
      cases fr <;> simp only [frameStep, State.acquire, State.release] at h
      all_goals (repeat' split at h)
      all_goals first
        | cases h; done
        | (cases h; simp +contextual [State.setStk, State.ev, State.setTd, State.beginExit, hs])
        | (simp only [Option.map_eq_some_iff] at h; obtain ⟨s1, h1, rfl⟩ := h; cases h1; simp +contextual [State.setStk, State.ev, State.setTd])

/-- The bottom frames of a created thread. -/
def special : Option Frame → Bool
  | some (.user .start) | some .thrLoop => true
  | _ => false

/-- What a step does to the bottom of a stack. -/
def Btm (l l' : List Frame) : Prop :=
  l'.getLast? = l.getLast? ∨ (l = [.user .start] ∧ l' = [.thrLoop]) ∨ (l = [.thrLoop] ∧ l' = []) ∨
    (special l.getLast? = false ∧ special l'.getLast? = false)

theorem Btm.upd {s s' : State} {t u : Tid} {fr : Frame} {rest new : List Frame} (hs : s.stk t = fr :: rest)
    (h1 : s'.stk = fun x => if x = t then new ++ rest else s.stk x) (hn : rest = [] → Btm [fr] new) : Btm (s.stk u) (s'.stk u) := by
  rw [h1]; simp only
  split
  · next h =>
    subst h
    rw [hs]
    cases rest with
    | nil => simpa using hn rfl
    | cons a r =>
      left
      have : (a :: r).getLast? = some ((a :: r).getLast (by simp)) := List.getLast?_eq_some_getLast (by simp)
      simp [List.getLast?_append, this]
  · exact .inl rfl

theorem Tr.bottom {c : Cfg} {s s' : State} (h : Tr c s s') (S : SInv c s) {u : Tid} (hu : u ≠ s.nextT) : Btm (s.stk u) (s'.stk u) := by
  cases h with
  | spawn t fn rest hs hc => left; simp only [State.ev, State.setStk]; rw [if_neg hu]
  | regThr t fn rest hs hc => exact .inl rfl
  | regProg t fn rest hs hc => exact .upd (new := [_, _]) hs rfl fun _ => .inl rfl
  | exit t fn rest st hs => exact .upd (new := [_, _]) hs rfl fun _ => .inl rfl
  | imm t fn rest st hs => exact .upd (new := [_, _]) hs rfl fun _ => .inl rfl
  | retMain t rest st hs => exact .upd (new := [_]) hs rfl fun _ => .inr (.inr (.inr ⟨rfl, rfl⟩))
  | retStart t rest hs => exact .upd (new := [_]) hs rfl fun _ => .inr (.inl ⟨rfl, rfl⟩)
  | ret t fn rest hs h1 h2 =>
    refine .upd (new := []) hs rfl fun hr => ?_
    have := (S.shape t)
    rw [hs] at this
    obtain ⟨a, r, h, -⟩ := this.pop (user_base h1 h2)
    rw [hr] at h; cases h
  | entry t rest hs => exact .upd (new := [_]) hs rfl fun _ => .inr (.inr (.inr ⟨rfl, rfl⟩))
  | initEnd t rest hs => exact .upd (new := [_]) hs rfl fun _ => .inr (.inr (.inr ⟨rfl, rfl⟩))
  | init t p rest hs hpe => exact .upd (new := [_, _]) hs rfl fun _ => .inr (.inr (.inr ⟨rfl, rfl⟩))
  | thrCall t rest f fs hs hc ht => exact .upd (new := [_, _]) hs rfl fun _ => .inl rfl
  | thrEnd t rest hs ht =>
    have := (S.shape t)
    rw [hs] at this
    have hr := this.bottom_nil rfl
    subst hr
    exact .upd (new := []) hs (by simp [State.ev, State.setStk]) fun _ => .inr (.inr (.inl ⟨rfl, rfl⟩))
  | regLock t rest s1 hs ha =>
    obtain ⟨h0, -⟩ := acquire_fields ha
    exact .upd (new := [_]) hs (by rw [← h0]; rfl) fun _ => .inr (.inr (.inr ⟨rfl, rfl⟩))
  | regPush t rest hs => exact .upd (new := [_]) hs rfl fun _ => .inr (.inr (.inr ⟨rfl, rfl⟩))
  | regUnlock t rest f hs =>
    obtain ⟨h0, -⟩ := release_fields c s
    exact .upd (new := []) hs (by rw [← h0]; rfl) fun _ => .inr (.inr (.inr ⟨rfl, rfl⟩))
  | exitThrCall t rest e st f fs hs hc ht => exact .upd (new := [_, _]) hs rfl fun _ => .inl rfl
  | exitThr t rest e st hs ht => exact .upd (new := [_]) hs rfl fun _ => .inr (.inr (.inr ⟨rfl, rfl⟩))
  | exitLock t rest e st s1 hs hc ha =>
    obtain ⟨h0, -⟩ := acquire_fields ha
    exact .upd (new := [_]) hs (by rw [← h0]; rfl) fun _ => .inr (.inr (.inr ⟨rfl, rfl⟩))
  | exitNoLock t rest e st hs hc => exact .upd (new := [_]) hs rfl fun _ => .inr (.inr (.inr ⟨rfl, rfl⟩))
  | exitPop t rest e st f fs hs hd => exact .upd (new := [_]) hs rfl fun _ => .inr (.inr (.inr ⟨rfl, rfl⟩))
  | exitPopEnd t rest e st hs hd => exact .upd (new := [_]) hs rfl fun _ => .inr (.inr (.inr ⟨rfl, rfl⟩))
  | exitUnlock t rest e st f hs =>
    obtain ⟨h0, -⟩ := release_fields c s
    exact .upd (new := [_]) hs (by rw [← h0]; rfl) fun _ => .inr (.inr (.inr ⟨rfl, rfl⟩))
  | exitCall t rest e st f hs => exact .upd (new := [_, _]) hs rfl fun _ => .inr (.inr (.inr ⟨rfl, rfl⟩))
  | exitFiniEnd t rest e st hs => exact .upd (new := [_]) hs rfl fun _ => .inr (.inr (.inr ⟨rfl, rfl⟩))
  | exitFini t rest e st p hs hp => exact .upd (new := [_, _]) hs rfl fun _ => .inr (.inr (.inr ⟨rfl, rfl⟩))
  | group t rest e st hs _ => exact .inl rfl

end Origin.Proc

namespace Origin.Life

/-- Where a thread is: not yet out of its function; in its `at_exit` functions; beyond. -/
inductive Cls | run | dtors | late
deriving DecidableEq

def Stage.cls : Stage → Cls
  | .born | .body => .run
  | .dtors _ => .dtors
  | _ => .late

def clsOf (s : State) (u : Inst) : Option Cls := (s.thr u).map (·.stage.cls)

theorem modThr_cls {s : State} {t u : Inst} {f : Thr → Thr} (h : ∀ T, s.thr t = some T → (f T).stage.cls = T.stage.cls) :
    clsOf (s.modThr t f) u = clsOf s u := by
  unfold clsOf State.modThr
  simp only
  split
  · next e =>
    subst e
    cases hT : s.thr u with
    | none => rfl
    | some T => simp [h T hT]
  · rfl

theorem ownStep_cls {sig : Bool} {s s' : State} {t u : Inst} {T : Thr} {r : Rec} (hT : s.thr t = some T)
    (h : ownStep sig s t T r = some s') : clsOf s' u = clsOf s u := by
  unfold ownStep at h
  have key : ∀ (s1 : State) (f : Thr → Thr), s1.thr = s.thr → (f T).stage.cls = T.stage.cls → clsOf (s1.modThr t f) u = clsOf s u := by
    intro s1 f h1 h2
    rw [modThr_cls (s := s1) (f := f) fun T' hT' => by rw [h1, hT] at hT'; injection hT' with e; subst e; exact h2]
    unfold clsOf; rw [h1]
  cases hs : T.stage <;> simp only [hs] at h
  case born => cases h; exact key _ _ rfl (by simp [hs, Stage.cls])
  case cas v =>
    split at h <;> cases h <;> exact key _ _ rfl (by simp [hs, Stage.cls])
  case storeRet v => cases h; exact key _ _ rfl (by simp [hs, Stage.cls])
  case dRead => cases h; exact key _ _ rfl (by simp [hs, Stage.cls])
  case dDrop o => cases h; exact key _ _ rfl (by cases o <;> simp [hs, Stage.cls])
  case dSetTid =>
    cases h
    unfold State.setStage
    rw [modThr_cls]
    · exact key _ _ rfl (by simp [hs])
    · intro T' hT'
      simp only [modThr_same hT] at hT'
      injection hT' with e; subst e; simp [hs, Stage.cls]
  case dMask =>
    cases h
    unfold State.setStage
    rw [modThr_cls]
    · exact key _ _ rfl (by simp [hs])
    · intro T' hT'
      simp only [modThr_same hT] at hT'
      injection hT' with e; subst e; simp [hs, Stage.cls]
  case dUnmap => cases h; exact key _ _ rfl (by simp [hs, Stage.cls])
  case exitCall => cases h; exact key _ _ rfl (by simp [hs, Stage.cls])
  all_goals cases h

theorem thr_cls {s s' : State} (h : s'.thr = s.thr) (u : Inst) : clsOf s' u = clsOf s u := by unfold clsOf; rw [h]

theorem stage_cls {s s1 : State} {t u : Inst} {T : Thr} {g : Stage} (h1 : s1.thr = s.thr) (hT : s.thr t = some T) (hg : g.cls = T.stage.cls) :
    clsOf (s1.setStage t g) u = clsOf s u := by
  unfold State.setStage
  rw [modThr_cls (s := s1) fun T' hT' => by rw [h1, hT] at hT'; injection hT' with e; subst e; exact hg]
  exact thr_cls h1 u

/-- The lifecycle actions that take no part in the lock step. -/
def Action.solo : Action → Bool
  | .create .. | .ret .. | .dtorsDone .. => false
  | _ => true

structure Solo (s s' : State) : Prop where
  cls : ∀ u, clsOf s' u = clsOf s u
  next : s'.next = s.next
  log : ∃ evs, s'.log = evs ++ s.log

theorem callStep_solo {s s' : State} {t : Inst} {r : Rec} {c : Call} (h : callStep s t r c = some s') : Solo s s' := by
  refine ⟨thr_cls (callStep_thr h), ?_, ?_⟩
  · cases c <;> simp only [callStep] at h <;> (repeat' split at h) <;> cases h <;> (try rfl) <;> unfold State.finish <;> split <;> rfl
  · cases c <;> simp only [callStep] at h <;> (repeat' split at h) <;> cases h <;>
      first | exact ⟨[], rfl⟩ | exact ⟨[_], rfl⟩ | (unfold State.finish; split <;> first | exact ⟨[_], rfl⟩ | exact ⟨[_, _], rfl⟩)

theorem ownStep_solo {sig : Bool} {s s' : State} {t : Inst} {T : Thr} {r : Rec} (hT : s.thr t = some T)
    (h : ownStep sig s t T r = some s') : Solo s s' := by
  refine ⟨fun u => ownStep_cls hT h, ?_, ?_⟩
  · unfold ownStep at h; (repeat' split at h) <;> cases h <;> rfl
  · unfold ownStep at h; (repeat' split at h) <;> cases h <;> first | exact ⟨[], rfl⟩ | exact ⟨[_], rfl⟩

theorem step_solo {sig : Bool} {s s' : State} {x : Action} (h : step sig s x = some s') (hx : x.solo = true) : Solo s s' := by
  have ev : ∀ (s1 : State), s1.thr = s.thr → s1.next = s.next → (∃ evs, s1.log = evs ++ s.log) → Solo s s1 :=
    fun s1 h1 h2 h3 => ⟨thr_cls h1, h2, h3⟩
  have own : ∀ (s1 : State) {t : Inst} {T : Thr} {g : Stage}, s1.thr = s.thr → s1.next = s.next → (∃ evs, s1.log = evs ++ s.log) →
      s.thr t = some T → g.cls = T.stage.cls → Solo s (s1.setStage t g) :=
    fun s1 _ _ _ h1 h2 h3 h4 h5 => ⟨fun u => stage_cls h1 h4 h5, h2, h3⟩
  cases x with
  | create t a tid => cases hx
  | ret t v => cases hx
  | dtorsDone t => cases hx
  | join t y =>
    simp only [step] at h
    (repeat' split at h) <;> cases h <;> exact ev _ rfl rfl ⟨[_], rfl⟩
  | detach t y =>
    simp only [step] at h
    (repeat' split at h) <;> cases h <;> exact ev _ rfl rfl ⟨[_], rfl⟩
  | id t y =>
    simp only [step] at h
    (repeat' split at h) <;> cases h <;> exact ev _ rfl rfl ⟨[_], rfl⟩
  | step t =>
    simp only [step] at h
    split at h
    · next T hT =>
      split at h
      · next hs => cases h; exact own _ rfl rfl ⟨[_], rfl⟩ hT (by rw [hs]; rfl)
      · next hs =>
        split at h
        · split at h
          · cases h; exact own _ rfl rfl ⟨[_], rfl⟩ hT (by rw [hs]; rfl)
          · cases h; exact ev _ rfl rfl ⟨[_], rfl⟩
        · cases h; exact own _ rfl rfl ⟨[], rfl⟩ hT (by rw [hs]; rfl)
      · cases h
      · cases h
      · split at h
        · cases h; exact ev _ rfl rfl ⟨[_], rfl⟩
        · split at h
          · split at h
            · cases h
            · split at h
              · cases h; exact ev _ rfl rfl ⟨[_], rfl⟩
              · exact callStep_solo h
          · exact ownStep_solo hT h
    · cases h
  | intr t =>
    simp only [step] at h
    split at h <;> cases h
    exact ev _ rfl rfl ⟨[], rfl⟩
  | wake t o =>
    simp only [step] at h
    split at h
    · next T hT =>
      split at h
      · next hs =>
        split at h
        · split at h <;> cases h
          exact own _ rfl rfl ⟨[], rfl⟩ hT (by rw [hs]; rfl)
        · split at h
          · split at h <;> cases h
            have := own s (t := t) (g := .dead) rfl rfl ⟨[], rfl⟩ hT (by rw [hs]; rfl)
            exact ⟨this.cls, this.next, this.log⟩
          · cases h
      · cases h
    · cases h
  | signal t =>
    simp only [step] at h
    (repeat' split at h) <;> cases h <;> first | exact ev _ rfl rfl ⟨[], rfl⟩ | exact ev _ rfl rfl ⟨[_], rfl⟩

/-- A failed lock-step action: the thread faults, and nothing else happens. -/
def Faulted (s s' : State) : Prop := ∃ t h, s' = s.faulted t h

theorem create_sync {sig : Bool} {s s' : State} {t : Inst} {a tid : Nat} (h : step sig s (.create t a tid) = some s') :
    Faulted s s' ∨ (s'.next = s.next + 1 ∧ s'.log = .created t s.next a tid :: s.log ∧ clsOf s' s.next = some .run ∧
      ∀ u, u ≠ s.next → clsOf s' u = clsOf s u) := by
  simp only [step] at h
  split at h
  · next T hT =>
    split at h
    · split at h
      · cases h; exact .inl ⟨_, _, rfl⟩
      · cases h
        refine .inr ⟨rfl, rfl, ?_, fun u hu => ?_⟩
        · simp [clsOf, State.ev, Stage.cls]
        · simp [clsOf, State.ev, hu]
    · cases h
  · cases h

theorem ret_sync {sig : Bool} {s s' : State} {t : Inst} {v : Nat} (h : step sig s (.ret t v) = some s') :
    Faulted s s' ∨ (s'.next = s.next ∧ s'.log = .returned t v :: s.log ∧ t ≠ 0 ∧ clsOf s t = some .run ∧ clsOf s' t = some .dtors ∧
      ∀ u, u ≠ t → clsOf s' u = clsOf s u) := by
  simp only [step] at h
  split at h
  · next T hT =>
    split at h
    · next hc =>
      split at h
      · cases h; exact .inl ⟨_, _, rfl⟩
      · cases h
        refine .inr ⟨rfl, rfl, hc.2.2, ?_, ?_, fun u hu => ?_⟩
        · simp [clsOf, hT, hc.2.1, Stage.cls]
        · simp [clsOf, State.ev, State.modThr, hT, Stage.cls]
        · simp [clsOf, State.ev, State.modThr, hu]
    · cases h
  · cases h

theorem dtorsDone_sync {sig : Bool} {s s' : State} {t : Inst} (h : step sig s (.dtorsDone t) = some s') :
    Faulted s s' ∨ (s'.next = s.next ∧ s'.log = s.log ∧ clsOf s t = some .dtors ∧ clsOf s' t = some .late ∧
      ∀ u, u ≠ t → clsOf s' u = clsOf s u) := by
  simp only [step] at h
  split at h
  · next T hT =>
    split at h
    · next v hs hc =>
      split at h
      · cases h; exact .inl ⟨_, _, rfl⟩
      · cases h
        refine .inr ⟨rfl, rfl, ?_, ?_, fun u hu => ?_⟩
        · simp [clsOf, hT, hs, Stage.cls]
        · simp [clsOf, State.setStage, State.modThr, hT, Stage.cls]
        · simp [clsOf, State.setStage, State.modThr, hu]
    · cases h
  · cases h

end Origin.Life
