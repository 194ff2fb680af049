import Verif.Spec.FairWhole
import Verif.Proof.Whole3
import Verif.Props.Fair
import Verif.Props.FairProc
set_option linter.unusedSimpArgs false
/-! # The whole program on fair schedules: its two parts run fairly -/

namespace Origin.Life

variable {sig : Bool} {s s' : State}

/-- A thread is in a call only if it was, or has just made it. -/
theorem call_from {x : Action} (h : step sig s x = some s') {u : Inst} (hu : s'.call u ≠ none) :
    s.call u ≠ none ∨ ∃ y, x = .join u y ∨ x = .detach u y := by
  have set : ∀ {t : Inst} {k : Option Call} {s1 : State}, s'.call = (s1.setCall t k).call → s1.call = s.call → s.call t ≠ none → s.call u ≠ none := by
    intro t k s1 h1 h2 h3
    by_cases e : u = t
    · rw [e]; exact h3
    · rw [h1] at hu; simp only [State.setCall, e, if_false] at hu; rwa [h2] at hu
  cases x with
  | join t y =>
    by_cases e : u = t
    · exact .inr ⟨y, .inl (by rw [e])⟩
    · left
      simp only [step] at h
      (repeat' split at h) <;> cases h <;> simpa [State.setCall, State.setCons, State.ev, State.faulted, e] using hu
  | detach t y =>
    by_cases e : u = t
    · exact .inr ⟨y, .inr (by rw [e])⟩
    · left
      simp only [step] at h
      (repeat' split at h) <;> cases h <;> simpa [State.setCall, State.setCons, State.ev, State.faulted, e] using hu
  | step t =>
    left
    simp only [step] at h
    split at h
    · split at h
      · cases h; exact hu
      · split at h
        · split at h <;> cases h <;> exact hu
        · cases h; exact hu
      · cases h
      · cases h
      · split at h
        · cases h; exact hu
        · split at h
          · next k hk =>
            have hk : s.call t ≠ none := by rw [hk]; simp
            split at h
            · cases h
            · split at h
              · cases h; exact hu
              · by_cases e : u = t
                · rw [e]; exact hk
                · cases k <;> simp only [callStep] at h <;> (repeat' split at h) <;> cases h <;>
                    first
                    | (simpa [State.setCall, State.setCons, State.ev, State.setRec, e] using hu)
                    | (unfold State.finish at hu; split at hu <;> simpa [State.setCall, State.setCons, State.ev, State.setRec, e] using hu)
          · unfold ownStep at h; (repeat' split at h) <;> cases h <;> exact hu
    · cases h
  | intr t =>
    left
    simp only [step] at h
    split at h
    · next hk => cases h; exact set rfl rfl (by rw [hk]; simp)
    · cases h
  | wake t o =>
    left
    simp only [step] at h
    split at h
    · split at h
      · split at h
        · split at h <;> cases h; exact hu
        · split at h
          · next j _ k a y hk =>
            split at h
            · injection h with h
              by_cases e : u = j
              · rw [e, hk]; simp
              · rw [← h] at hu; simpa [State.setCall, State.setCons, State.setStage, State.modThr, e] using hu
            · cases h
          · cases h
      · cases h
    · cases h
  | _ =>
    left
    simp only [step] at h
    (repeat' split at h) <;> cases h <;> exact hu

/-- A thread that has not begun was so before, or has just been created. -/
theorem born_from {x : Action} (h : step sig s x = some s') {u : Inst} {T : Thr} (hT : s'.thr u = some T) (hb : T.stage = .born) :
    (∃ T0, s.thr u = some T0 ∧ T0.stage = .born) ∨ (u = s.next ∧ ∃ t a tid, x = .create t a tid ∧ ¬ Faulted s s') := by
  have same : s'.thr = s.thr → ∃ T0, s.thr u = some T0 ∧ T0.stage = .born := fun e => ⟨T, by rw [← e]; exact hT, hb⟩
  have set : ∀ {t : Inst} {f : Thr → Thr} {s1 : State}, s'.thr = (s1.modThr t f).thr → s1.thr = s.thr → (∀ T0, s.thr t = some T0 → (f T0).stage ≠ .born) →
      ∃ T0, s.thr u = some T0 ∧ T0.stage = .born := by
    intro t f s1 h1 h2 h3
    rw [h1] at hT
    by_cases e : u = t
    · simp only [State.modThr, e, if_true, h2, Option.map_eq_some_iff] at hT
      obtain ⟨T0, q1, q2⟩ := hT
      rw [← q2] at hb
      exact absurd hb (h3 T0 q1)
    · simp only [State.modThr, e, if_false, h2] at hT
      exact ⟨T, hT, hb⟩
  cases x with
  | create t a tid =>
    simp only [step] at h
    split at h
    · split at h
      · split at h
        · cases h; exact .inl (same rfl)
        · by_cases e : u = s.next
          · refine .inr ⟨e, t, a, tid, rfl, ?_⟩
            rintro ⟨t', y, hf⟩
            injection h with h
            rw [← h] at hf
            have := congrArg State.next hf
            simp [State.ev, State.faulted] at this
          · injection h with h
            rw [← h] at hT
            simp only [State.ev, e, if_false] at hT
            exact .inl ⟨T, hT, hb⟩
      · cases h
    · cases h
  | step t =>
    left
    simp only [step] at h
    split at h
    · next T1 hT1 =>
      split at h
      · cases h; exact set (s1 := s.ev (.exited t)) rfl rfl (by simp)
      · split at h
        · split at h
          · injection h with h; rw [← h] at set; exact set rfl rfl (by simp)
          · cases h; exact same rfl
        · cases h; exact set (s1 := s) rfl rfl (by simp)
      · cases h
      · cases h
      · split at h
        · cases h; exact same rfl
        · split at h
          · split at h
            · cases h
            · split at h
              · cases h; exact same rfl
              · exact same (callStep_thr h)
          · have key : ∀ (g : Stage) (s1 : State) , s' = s1.setStage t g → g ≠ .born → (∀ y, y ≠ t → s1.thr y = s.thr y) →
                ∃ T0, s.thr u = some T0 ∧ T0.stage = .born := by
              intro g s1 h1 hg h2
              rw [h1] at hT
              by_cases e : u = t
              · simp only [State.setStage, State.modThr, e, if_true, Option.map_eq_some_iff] at hT
                obtain ⟨T0, q1, q2⟩ := hT
                rw [← q2] at hb
                exact absurd hb hg
              · simp only [State.setStage, State.modThr, e, if_false] at hT
                exact ⟨T, by rw [← h2 u e]; exact hT, hb⟩
            unfold ownStep at h
            (repeat' split at h) <;> cases h <;> refine key _ _ rfl ?_ ?_ <;>
              first | (simp; done) | (split <;> simp) | (intro y hy; simp [State.setRec, State.ev, State.modThr, hy])
    · cases h
  | ret t v =>
    left
    simp only [step] at h
    (repeat' split at h) <;> cases h
    · exact same rfl
    · exact set (s1 := s) rfl rfl (by simp)
  | dtorsDone t =>
    left
    simp only [step] at h
    (repeat' split at h) <;> cases h
    · exact same rfl
    · exact set (s1 := s) rfl rfl (by simp)
  | wake t o =>
    left
    simp only [step] at h
    (repeat' split at h) <;> cases h <;> exact set (s1 := s) rfl rfl (by simp)
  | _ =>
    left
    simp only [step] at h
    (repeat' split at h) <;> cases h <;> exact same rfl

end Origin.Life

namespace Origin.Whole

variable {c : Proc.Cfg} {sig : Bool} {s s' : State} {P : Life.State → Life.Action → Prop}

/-- A step of the whole is a step of each part, or of one of them. -/
structure Parts (c : Proc.Cfg) (sig : Bool) (s : State) (x : Action) (l' : Life.State) (p' : Proc.State) : Prop where
  alive : s.p.dead = false
  crashed : s.crashed = false
  life : ∀ y, x.life? = some y → Life.step sig s.l y = some l'
  noLife : x.life? = none → l' = s.l
  proc : ∀ y, x.proc? = some y → Proc.step c s.p y = some p'
  noProc : x.proc? = none → p' = s.p
  user : ∀ t h, x = .life (.join t h) ∨ x = .life (.detach t h) → userTop s.p t = true
  own : ∀ y, x = .proc y → running s.l y.tid = true ∧ ∀ t, y ≠ .spawn t
  lock : ∀ t a tid, x ≠ .life (.create t a tid)
  atRet : ∀ t v, x = .ret t v → s.p.stk t = [.user .start]

theorem step_parts {x : Action} (h : step c sig s x = some s') : ∃ l' p', s' = s.next l' p' ∧ Parts c sig s x l' p' := by
  unfold step at h
  split at h
  · cases h
  next hd =>
  have hd : s.p.dead = false ∧ s.crashed = false := by
    cases h1 : s.p.dead <;> cases h2 : s.crashed <;> simp [h1, h2] at hd ⊢
  cases x with
  | life y =>
    simp only at h
    cases y <;> simp only at h
    all_goals first
      | (cases h; done)
      | (split at h
         · next hu =>
           rw [Option.map_eq_some_iff] at h; obtain ⟨l', h1, h2⟩ := h
           exact ⟨l', s.p, h2.symm, hd.1, hd.2, by rintro _ ⟨⟩; exact h1, by simp [Action.life?], by simp [Action.proc?], fun _ => rfl,
             by rintro t h (h | h) <;> cases h <;> exact hu, by simp, by simp, by simp⟩
         · cases h)
      | (rw [Option.map_eq_some_iff] at h; obtain ⟨l', h1, h2⟩ := h
         exact ⟨l', s.p, h2.symm, hd.1, hd.2, by rintro _ ⟨⟩; exact h1, by simp [Action.life?], by simp [Action.proc?], fun _ => rfl,
           by simp, by simp, by simp, by simp⟩)
  | proc y =>
    simp only at h
    split at h
    case isFalse => cases h
    next hr =>
    have done : ∀ p', Proc.step c s.p y = some p' → (∀ t, y ≠ .spawn t) → s.next s.l p' = s' → ∃ l' p', s' = s.next l' p' ∧ Parts c sig s (.proc y) l' p' :=
      fun p' h1 h2 h3 => ⟨s.l, p', h3.symm, hd.1, hd.2, by simp [Action.life?], fun _ => rfl, by rintro _ ⟨⟩; exact h1, by simp [Action.proc?],
        by simp, by rintro _ ⟨⟩; exact ⟨hr, h2⟩, by simp, by simp⟩
    split at h
    · cases h
    · split at h
      · cases h
      · rw [Option.map_eq_some_iff] at h; obtain ⟨p', h1, h2⟩ := h
        exact done p' h1 (by simp) h2
    · next h1 h2 =>
      rw [Option.bind_eq_some_iff] at h; obtain ⟨p', h3, h4⟩ := h
      split at h4
      · cases h4
      · injection h4 with h4; exact done p' h3 h1 h4
  | create t a tid =>
    simp only at h
    rw [Option.bind_eq_some_iff] at h; obtain ⟨l', h1, h⟩ := h
    rw [Option.map_eq_some_iff] at h; obtain ⟨p', h2, h⟩ := h
    exact ⟨l', p', h.symm, hd.1, hd.2, by rintro _ ⟨⟩; exact h1, by simp [Action.life?], by rintro _ ⟨⟩; exact h2, by simp [Action.proc?],
      by simp, by simp, by simp, by simp⟩
  | ret t v =>
    simp only at h
    split at h
    case isFalse => cases h
    next hst =>
    rw [Option.bind_eq_some_iff] at h; obtain ⟨l', h1, h⟩ := h
    rw [Option.map_eq_some_iff] at h; obtain ⟨p', h2, h⟩ := h
    exact ⟨l', p', h.symm, hd.1, hd.2, by rintro _ ⟨⟩; exact h1, by simp [Action.life?], by rintro _ ⟨⟩; exact h2, by simp [Action.proc?],
      by simp, by simp, by simp, by rintro _ _ ⟨⟩; exact hst⟩
  | release t =>
    simp only at h
    rw [Option.bind_eq_some_iff] at h; obtain ⟨l', h1, h⟩ := h
    rw [Option.bind_eq_some_iff] at h; obtain ⟨p', h2, h⟩ := h
    split at h
    case isFalse => cases h
    injection h with h
    exact ⟨l', p', h.symm, hd.1, hd.2, by rintro _ ⟨⟩; exact h1, by simp [Action.life?], by rintro _ ⟨⟩; exact h2, by simp [Action.proc?],
      by simp, by simp, by simp, by simp⟩

/-- API calls are made from user code; a thread that has not begun has nothing on its stack but its function. -/
structure Idle (s : State) : Prop where
  call : ∀ t, s.l.call t ≠ none → userTop s.p t = true
  born : ∀ t T, s.l.thr t = some T → T.stage = .born → s.p.stk t = [.user .start]

theorem userTop_congr {p p' : Proc.State} {t : Nat} (h : p'.stk t = p.stk t) : userTop p' t = userTop p t := by unfold userTop; rw [h]

theorem spawn_stk {p p' : Proc.State} {t : Nat} (h : Proc.step c p (.spawn t) = some p') :
    (∀ u, u ≠ p.nextT → p'.stk u = p.stk u) ∧ p'.stk p.nextT = [.user .start] := by
  unfold Proc.step at h
  split at h
  · cases h
  · split at h
    · cases h
    · simp only [Proc.userStep] at h
      split at h
      · cases h
        refine ⟨fun u hu => ?_, ?_⟩ <;> simp [Proc.State.ev, Proc.State.setStk]
        intro h; exact absurd h hu
      · cases h
    · simp at h

theorem running_iff {l : Life.State} {t : Nat} (h : running l t = true) :
    ∃ T, l.thr t = some T ∧ l.call t = none ∧ T.stage.user ∧ (l.view T.addr t).isSome = true := by
  unfold running at h
  split at h
  · next T hT =>
    rw [Bool.and_eq_true] at h
    obtain ⟨h1, h2⟩ := Life.inUser_iff h.1
    exact ⟨T, hT, h1, h2, h.2⟩
  · cases h

theorem Idle.step (J : Idle s) (L : Linked s) {x : Action} (h : step c sig s x = some s') (hc : s'.crashed = false) : Idle s' := by
  obtain ⟨l', p', rfl, Q⟩ := step_parts h
  obtain ⟨e1, e2⟩ := next_cases (s := s) l' p'
  have e3 : (s.next l' p').p = p' := by
    rcases e2 with ⟨h, -⟩ | ⟨-, -, h, -⟩
    · rw [hc] at h; cases h
    · exact h
  have nofault : ¬ Life.Faulted s.l l' := fun hf => by rw [fault_crashes (p' := p') hf] at hc; cases hc
  -- a stack that changes is that of a thread that is not in a call and has begun
  have stk : ∀ t, p'.stk t = s.p.stk t ∨ p'.stk t = [.user .start] ∨
      (l'.call t = none ∧ ∀ T, l'.thr t = some T → T.stage ≠ .born) := by
    intro t
    cases x with
    | life y => left; rw [Q.noProc rfl]
    | proc y =>
      obtain ⟨r1, r2⟩ := Q.own y rfl
      obtain ⟨-, o2, -⟩ := Proc.step_other (Q.proc y rfl)
      rcases o2 with ⟨t', h3, -⟩ | h3
      · exact absurd h3 (r2 t')
      · by_cases ht : t = y.tid
        · subst ht
          obtain ⟨T, k1, k2, k3, -⟩ := running_iff r1
          refine .inr (.inr ⟨by rw [Q.noLife rfl]; exact k2, ?_⟩)
          rw [Q.noLife rfl]
          intro T' hT' hb
          rw [k1] at hT'; injection hT' with hT'; subst hT'
          rw [hb] at k3; exact k3
        · exact .inl (h3.2 t ht)
    | create t' a tid =>
      obtain ⟨k1, k2⟩ := spawn_stk (Q.proc _ rfl)
      by_cases ht : t = s.p.nextT
      · right; left; rw [ht]; exact k2
      · exact .inl (k1 t ht)
    | ret t' v =>
      obtain ⟨-, o2, -⟩ := Proc.step_other (Q.proc _ rfl)
      rcases o2 with ⟨t', h3, -⟩ | h3
      · cases h3
      · by_cases ht : t = t'
        · subst ht
          have hl := Q.life _ rfl
          rcases Life.ret_sync hl with hf | ⟨-, -, -, -, q5, -⟩
          · exact absurd hf nofault
          · refine .inr (.inr ⟨?_, ?_⟩)
            · simp only [Life.step] at hl
              (repeat' split at hl) <;> cases hl
              all_goals (rename_i hcc _; simpa [Life.State.faulted, Life.State.ev, Life.State.modThr] using hcc.1)
            · intro T hT hb
              simp [Life.clsOf, hT, hb, Life.Stage.cls] at q5
        · exact .inl (h3.2 t ht)
    | release t' =>
      obtain ⟨-, o2, -⟩ := Proc.step_other (Q.proc _ rfl)
      rcases o2 with ⟨t', h3, -⟩ | h3
      · cases h3
      · by_cases ht : t = t'
        · subst ht
          have hl := Q.life _ rfl
          rcases Life.dtorsDone_sync hl with hf | ⟨-, -, -, q5, -⟩
          · exact absurd hf nofault
          · refine .inr (.inr ⟨?_, ?_⟩)
            · simp only [Life.step] at hl
              (repeat' split at hl) <;> cases hl
              all_goals (rename_i hcc _; simpa [Life.State.faulted, Life.State.ev, Life.State.modThr, Life.State.setStage] using hcc)
            · intro T hT hb
              simp [Life.clsOf, hT, hb, Life.Stage.cls] at q5
        · exact .inl (h3.2 t ht)
  constructor
  · intro t ht
    rw [e1] at ht
    rw [e3]
    rcases stk t with h1 | h1 | h1
    · rw [userTop_congr h1]
      cases hx : x.life? with
      | none => rw [Q.noLife hx] at ht; exact J.call t ht
      | some y =>
        rcases Life.call_from (Q.life y hx) ht with h2 | ⟨z, h2⟩
        · exact J.call t h2
        · refine Q.user t z ?_
          cases x <;> simp [Action.life?] at hx <;> subst hx <;> simp_all
    · unfold userTop; rw [h1]
    · exact absurd h1.1 ht
  · intro t T hT hb
    rw [e1] at hT
    rw [e3]
    rcases stk t with h1 | h1 | h1
    · rw [h1]
      cases hx : x.life? with
      | none => rw [Q.noLife hx] at hT; exact J.born t T hT hb
      | some y =>
        rcases Life.born_from (Q.life y hx) hT hb with ⟨T0, k1, k2⟩ | ⟨k1, t', a, tid, k2, -⟩
        · exact J.born t T0 k1 k2
        · subst k2
          have hxx : x = .create t' a tid := by
            cases x <;> simp [Action.life?] at hx
            · exact absurd (congrArg Action.life hx) (Q.lock _ _ _)
            · obtain ⟨q1, q2, q3⟩ := hx; subst q1; subst q2; subst q3; rfl
          subst hxx
          obtain ⟨-, k2⟩ := spawn_stk (Q.proc _ rfl)
          rw [← h1, k1, L.next]; exact k2
    · exact h1
    · exact absurd hb (h1.2 T hT)

theorem Reach.linked (R : Reach c sig P s) (hc : s.crashed = false) : Linked s :=
  (R.known (o := none) (fun _ e => by cases e)).inv.linked hc

theorem Reach.idle (R : Reach c sig P s) (hc : s.crashed = false) : Idle s := by
  induction R with
  | init a tid h =>
    refine ⟨fun t ht => absurd rfl ht, fun t T hT hb => ?_⟩
    simp only [Whole.init, Life.init] at hT
    split at hT
    · injection hT with hT; subst hT; cases hb
    · cases hT
  | step R hp hs ih =>
    obtain ⟨l', p', -, Q⟩ := step_parts hs
    exact (ih Q.crashed).step (R.linked Q.crashed) hs hc

end Origin.Whole
