import Verif.Proof.User4
set_option linter.unusedSimpArgs false
/-! # User programs: the lifecycle of threads -/

namespace Origin.Life

/-- Events a program does not see. -/
def Ev.quiet : Ev → Bool
  | .created .. | .joined .. | .detachCall .. | .idRes .. => false
  | _ => true

/-- Threads keep their ids and values. -/
def Keep (s s' : State) : Prop := ∀ u T, s.thr u = some T → ∃ T', s'.thr u = some T' ∧ T'.ret = T.ret ∧ T'.tid = T.tid

theorem Keep.same {s s' : State} (h : s'.thr = s.thr) : Keep s s' := fun u T hT => ⟨T, by rw [h]; exact hT, rfl, rfl⟩

theorem Keep.mod {s s1 : State} {t : Inst} {f : Thr → Thr} (h : s1.thr = s.thr) (hf : ∀ T, (f T).ret = T.ret ∧ (f T).tid = T.tid) :
    Keep s (s1.modThr t f) := by
  intro u T hT
  by_cases hu : u = t
  · subst hu; exact ⟨f T, by simp [State.modThr, h, hT], hf T⟩
  · exact ⟨T, by simp [State.modThr, h, hT, hu], rfl, rfl⟩

theorem Keep.trans {s s1 s2 : State} (h : Keep s s1) (h' : Keep s1 s2) : Keep s s2 := by
  intro u T hT
  obtain ⟨T1, h1, h2, h3⟩ := h u T hT
  obtain ⟨T2, h4, h5, h6⟩ := h' u T1 h1
  exact ⟨T2, h4, h5.trans h2, h6.trans h3⟩

theorem Keep.stage {s s1 : State} {t : Inst} {g : Stage} (h : s1.thr = s.thr) : Keep s (s1.setStage t g) := Keep.mod h fun _ => ⟨rfl, rfl⟩

/-- What a step of origin's or the kernel's does to a program. -/
structure SysEff (s s' : State) : Prop where
  keep : Keep s s'
  call : ∀ u cl', s'.call u = some cl' → ∃ cl, s.call u = some cl ∧ cl'.kind = cl.kind ∧ cl'.target = cl.target
  log : ∃ evs, s'.log = evs ++ s.log ∧ ((∀ x ∈ evs, x.quiet = true) ∨ ∃ t h v evs', evs = .joined t h v :: evs' ∧ (∀ x ∈ evs', x.quiet = true) ∧
    s'.call t = none ∧ ∃ cl, s.call t = some cl ∧ cl.kind = .join ∧ cl.target = h)

theorem SysEff.simple {s s' : State} (h1 : Keep s s') (h2 : s'.call = s.call) (evs : List Ev) (h3 : s'.log = evs ++ s.log)
    (h4 : ∀ x ∈ evs, x.quiet = true) : SysEff s s' :=
  ⟨h1, fun u cl h => ⟨cl, by rw [← h2]; exact h, rfl, rfl⟩, evs, h3, .inl h4⟩

theorem callStep_eff {s s' : State} {t : Inst} {r : Rec} {c : Call} (hc : s.call t = some c) (h : callStep s t r c = some s') : SysEff s s' := by
  have key : ∀ (s1 : State) (cl' : Call), s1.thr = s.thr → s1.log = s.log → (∀ u, u ≠ t → s1.call u = s.call u) → s1.call t = some cl' →
      cl'.kind = c.kind → cl'.target = c.target → SysEff s s1 := by
    intro s1 cl' h1 h2 h3 h4 h5 h6
    refine ⟨.same h1, ?_, [], h2, .inl (by simp)⟩
    intro u cl hcl
    by_cases hu : u = t
    · subst hu; rw [h4] at hcl; injection hcl with hcl; subst hcl; exact ⟨c, hc, h5, h6⟩
    · rw [h3 u hu] at hcl; exact ⟨cl, hcl, rfl, rfl⟩
  have gone : ∀ (s1 : State), (∀ u, u ≠ t → s1.call u = s.call u) → s1.call t = none →
      ∀ u cl', s1.call u = some cl' → ∃ cl, s.call u = some cl ∧ cl'.kind = cl.kind ∧ cl'.target = cl.target := by
    intro s1 h3 h4 u cl hcl
    by_cases hu : u = t
    · subst hu; rw [h4] at hcl; cases hcl
    · rw [h3 u hu] at hcl; exact ⟨cl, hcl, rfl, rfl⟩
  have hne : ∀ (s1 : State) (x : Option Call) u, u ≠ t → s1.call = s.call → (s1.setCall t x).call u = s.call u := by
    intro s1 x u hu h; simp [State.setCall, hu, h]
  cases c with
  | swap a h' =>
    simp only [callStep] at h
    split at h <;> cases h
    · exact key _ (.load .detach a h') rfl rfl (fun u hu => by simp [State.setCall, State.setCons, State.setRec, hu]) (by simp [State.setCall, State.setCons])
        rfl rfl
    · exact ⟨.same rfl, gone _ (fun u hu => by simp [State.ev, State.setCall, State.setCons, State.setRec, hu]) (by simp [State.ev, State.setCall, State.setCons]),
        [.detachDone t h'], rfl, .inl (by simp [Ev.quiet])⟩
  | load k a h' =>
    simp only [callStep] at h
    split at h <;> cases h
    · exact key _ (afterWait k a h') rfl rfl (fun u hu => by simp [State.setCall, State.setCons, hu]) (by simp [State.setCall, State.setCons])
        (by cases k <;> rfl) (by cases k <;> rfl)
    · exact key _ (.wait k a h' r.tid) rfl rfl (fun u hu => by simp [State.setCall, hu]) (by simp [State.setCall]) rfl rfl
  | wait k a h' v =>
    simp only [callStep] at h
    split at h <;> cases h
    · exact key _ (.blocked k a h') rfl rfl (fun u hu => by simp [State.setCall, hu]) (by simp [State.setCall]) rfl rfl
    · exact key _ (.load k a h') rfl rfl (fun u hu => by simp [State.setCall, hu]) (by simp [State.setCall]) rfl rfl
  | blocked => cases h
  | loadRet a h' =>
    simp only [callStep] at h; cases h
    exact key _ (.readFields .join a h' r.ret) rfl rfl (fun u hu => by simp [State.setCall, hu]) (by simp [State.setCall]) rfl rfl
  | readFields k a h' v =>
    simp only [callStep] at h; cases h
    exact key _ (.drop k a h' v r.owned) rfl rfl (fun u hu => by simp [State.setCall, hu]) (by simp [State.setCall]) rfl rfl
  | drop k a h' v o =>
    simp only [callStep] at h
    split at h <;> cases h
    · exact key _ (.unmap k a h' v) rfl rfl (fun u hu => by simp [State.setCall, hu]) (by simp [State.setCall]) rfl rfl
    · cases k with
      | join =>
        exact ⟨.same rfl, gone _ (fun u hu => by simp [State.finish, State.ev, State.setCall, State.setCons, hu])
          (by simp [State.finish, State.ev, State.setCall, State.setCons]), [.joined t h' v], rfl,
          .inr ⟨t, h', v, [], rfl, by simp, by simp [State.finish, State.ev, State.setCall, State.setCons], _, hc, rfl, rfl⟩⟩
      | detach =>
        exact ⟨.same rfl, gone _ (fun u hu => by simp [State.finish, State.ev, State.setCall, State.setCons, hu])
          (by simp [State.finish, State.ev, State.setCall, State.setCons]), [.detachDone t h'], rfl, .inl (by simp [Ev.quiet])⟩
  | unmap k a h' v =>
    simp only [callStep] at h; cases h
    cases k with
    | join =>
      exact ⟨.same rfl, gone _ (fun u hu => by simp [State.finish, State.ev, State.setCall, State.setCons, State.setRec, hu])
        (by simp [State.finish, State.ev, State.setCall, State.setCons]), [.joined t h' v, .unmap h' t], rfl,
        .inr ⟨t, h', v, [.unmap h' t], rfl, by simp [Ev.quiet], by simp [State.finish, State.ev, State.setCall, State.setCons], _, hc, rfl, rfl⟩⟩
    | detach =>
      exact ⟨.same rfl, gone _ (fun u hu => by simp [State.finish, State.ev, State.setCall, State.setCons, State.setRec, hu])
        (by simp [State.finish, State.ev, State.setCall, State.setCons]), [.detachDone t h', .unmap h' t], rfl, .inl (by simp [Ev.quiet])⟩

theorem ownStep_eff {sig : Bool} {s s' : State} {t : Inst} {T : Thr} {r : Rec} (h : ownStep sig s t T r = some s') : SysEff s s' := by
  unfold ownStep at h
  split at h
  · cases h; exact .simple (.stage rfl) rfl [] rfl (by simp)
  · split at h <;> cases h <;> exact .simple (.stage rfl) rfl [] rfl (by simp)
  · cases h; exact .simple (.stage rfl) rfl [] rfl (by simp)
  · cases h; exact .simple (.stage rfl) rfl [] rfl (by simp)
  · cases h; exact .simple (.stage rfl) rfl [] rfl (by simp)
  · cases h; exact .simple (.trans (.mod (s1 := s) (t := t) (f := fun T => { T with clear := false }) rfl fun _ => ⟨rfl, rfl⟩) (.stage rfl)) rfl [] rfl (by simp)
  · cases h; exact .simple (.trans (.mod (s1 := s) (t := t) (f := fun T => { T with masked := sig }) rfl fun _ => ⟨rfl, rfl⟩) (.stage rfl)) rfl [] rfl (by simp)
  · cases h; exact .simple (.stage rfl) rfl [.unmap t t] rfl (by simp [Ev.quiet])
  · cases h; exact .simple (.stage rfl) rfl [.exited t] rfl (by simp [Ev.quiet])
  · cases h

/-- The steps that are not user code's. -/
def Action.sys : Action → Bool
  | .step _ | .intr _ | .wake .. | .signal _ => true
  | _ => false

theorem step_eff {sig : Bool} {s s' : State} {x : Action} (h : step sig s x = some s') (hx : x.sys = true) : SysEff s s' := by
  have flt : ∀ t h, SysEff s (s.faulted t h) := fun t h => .simple (.same rfl) rfl [.fault t h] rfl (by simp [Ev.quiet])
  cases x with
  | step t =>
    simp only [step] at h
    split at h
    · next T hT =>
      split at h
      · cases h; exact .simple (.stage rfl) rfl [.exited t] rfl (by simp [Ev.quiet])
      · split at h
        · split at h
          · cases h; exact .simple (.stage rfl) rfl [.cleared t] rfl (by simp [Ev.quiet])
          · cases h; exact flt _ _
        · cases h; exact .simple (.stage rfl) rfl [] rfl (by simp)
      · cases h
      · cases h
      · split at h
        · cases h; exact flt _ _
        · split at h
          · next cl hcl =>
            split at h
            · cases h
            · split at h
              · cases h; exact flt _ _
              · exact callStep_eff hcl h
          · exact ownStep_eff h
    · cases h
  | intr t =>
    simp only [step] at h
    split at h <;> cases h
    next k a h' hc =>
    refine ⟨.same rfl, ?_, [], rfl, .inl (by simp)⟩
    intro u cl hcl
    by_cases hu : u = t
    · subst hu; simp [State.setCall] at hcl; subst hcl; exact ⟨_, hc, rfl, rfl⟩
    · simp [State.setCall, hu] at hcl; exact ⟨cl, hcl, rfl, rfl⟩
  | wake t o =>
    simp only [step] at h
    split at h
    · next T hT =>
      split at h
      · split at h
        · split at h <;> cases h
          exact .simple (.stage rfl) rfl [] rfl (by simp)
        · next j =>
          split at h
          · next k a h' hc =>
            split at h <;> cases h
            refine ⟨.stage (s1 := s) rfl, ?_, [], rfl, .inl (by simp)⟩
            intro u cl hcl
            by_cases hu : u = j
            · subst hu; simp [State.setCall, State.setCons] at hcl; subst hcl; exact ⟨_, hc, by cases k <;> rfl, by cases k <;> rfl⟩
            · simp [State.setCall, State.setCons, hu] at hcl; exact ⟨cl, hcl, rfl, rfl⟩
          · cases h
      · cases h
    · cases h
  | signal t =>
    simp only [step] at h
    (repeat' split at h) <;> cases h <;> first | exact .simple (.same rfl) rfl [] rfl (by simp) | exact flt _ _
  | _ => cases hx

end Origin.Life
