import Verif.Proof.Lifecycle5
/-!
# Without early reuse of addresses there are no stray wake-ups
-/

namespace Origin.Life

variable {w : Inst → Bool} {b sig : Bool} {s s' : State}

theorem stray_of {h : Inst} {x : Action} (hx : StrayFor h s x) : Stray s x := by
  cases x with
  | wake t j => cases j with
    | none => exact hx
    | some j => obtain ⟨k, a, q1, q2⟩ := hx; exact ⟨k, a, h, q1, q2⟩
  | _ => exact hx

theorem late_of {h : Inst} {x : Action} (hx : LateSignalFor h s x) : LateSignal s x := by
  cases x with
  | signal t => obtain ⟨rfl, T, q1, q2⟩ := hx; exact ⟨T, q1, q2⟩
  | _ => exact hx

theorem recs_mod {b : Nat} {r' : Rec} {a : Nat} {h : Inst} {r r2 : Rec}
    (hv : s.view a h = some r) (hr : (if b = a then some r2 else s.recs b) = some r') (ho : r2.owner = r.owner) :
    ∃ r0, s.recs b = some r0 ∧ r0.owner = r'.owner := by
  split at hr
  · next hb =>
    injection hr with hr; subst hr
    exact ⟨r, by rw [hb]; exact (view_some hv).1, ho.symm⟩
  · exact ⟨r', hr, rfl⟩

theorem recs_del {b : Nat} {r' : Rec} {a : Nat} (hr : (if b = a then none else s.recs b) = some r') :
    ∃ r0, s.recs b = some r0 ∧ r0.owner = r'.owner := by
  split at hr
  · cases hr
  · exact ⟨r', hr, rfl⟩

theorem callStep_recs {t : Inst} {r : Rec} {c : Call} (hv : s.view c.addr c.target = some r)
    (h : callStep s t r c = some s') {b : Nat} {r' : Rec} (hr : s'.recs b = some r') :
    ∃ r0, s.recs b = some r0 ∧ r0.owner = r'.owner := by
  cases c <;> simp only [callStep] at h <;> (try split at h) <;> (try cases h)
  case swap.isTrue a x hab => exact recs_mod hv hr rfl
  case swap.isFalse a x hab => exact recs_mod hv hr rfl
  case unmap k a x v => cases k <;> exact recs_del hr
  case drop.isFalse k a x v o ho => cases k <;> exact ⟨r', hr, rfl⟩
  all_goals exact ⟨r', hr, rfl⟩

theorem callStep_thr {t : Inst} {r : Rec} {c : Call} (h : callStep s t r c = some s') : s'.thr = s.thr := by
  cases c <;> simp only [callStep] at h <;> (try split at h) <;> (try cases h)
  case unmap k a x v => cases k <;> rfl
  case drop.isFalse k a x v o ho => cases k <;> rfl
  all_goals rfl

theorem ownStep_recs {t : Inst} {T : Thr} {r : Rec} (hv : s.view T.addr t = some r)
    (h : ownStep sig s t T r = some s') {b : Nat} {r' : Rec} (hr : s'.recs b = some r') :
    ∃ r0, s.recs b = some r0 ∧ r0.owner = r'.owner := by
  cases hs : T.stage <;> simp only [ownStep, hs] at h <;> (try split at h) <;> (try cases h)
  case born => exact recs_mod hv hr rfl
  case cas.isTrue v hi => exact recs_mod hv hr rfl
  case storeRet v => exact recs_mod hv hr rfl
  case dUnmap => exact recs_del hr
  all_goals exact ⟨r', hr, rfl⟩

theorem modThr_thr {t y : Inst} {f : Thr → Thr} {Y : Thr} (h : (s.modThr t f).thr y = some Y) :
    (y ≠ t ∧ s.thr y = some Y) ∨ (y = t ∧ ∃ X, s.thr y = some X ∧ Y = f X) := by
  simp only [State.modThr] at h
  split at h
  · next hy =>
    rw [Option.map_eq_some_iff] at h
    obtain ⟨X, h1, h2⟩ := h
    exact .inr ⟨hy, X, h1, h2.symm⟩
  · next hy => exact .inl ⟨hy, h⟩

theorem ownStep_thr {t : Inst} {T : Thr} {r : Rec} (hT : s.thr t = some T)
    (h : ownStep sig s t T r = some s') {y : Inst} {Y : Thr} (hy : s'.thr y = some Y) (hk : Y.stage = .kWake) :
    s.thr y = some Y := by
  by_cases hyt : y = t
  · exfalso
    subst hyt
    cases hs : T.stage <;> simp only [ownStep, hs] at h <;> (try split at h) <;> (try cases h) <;>
      simp [State.setStage, State.modThr, State.setRec, State.ev, hT] at hy <;> subst hy <;> simp at hk
  · cases hs : T.stage <;> simp only [ownStep, hs] at h <;> (try split at h) <;> (try cases h) <;>
      simp [State.setStage, State.modThr, State.setRec, State.ev, hyt] at hy <;> exact hy

/-- `s'` has the threads of `s`, all of them as much forked as in `s`, and perhaps others, which are not forked. -/
structure KeepsForked (s s' : State) : Prop where
  keep : ∀ y Y, s.thr y = some Y → ∃ Y', s'.thr y = some Y' ∧ Y'.forked = Y.forked ∧ Y'.addr = Y.addr ∧ Y'.tid = Y.tid ∧
    (Y'.clear = true → Y.clear = true)
  new : ∀ y Y', s'.thr y = some Y' → s.thr y = none → Y'.forked = false

theorem KeepsForked.same (h : s'.thr = s.thr) : KeepsForked s s' :=
  ⟨fun y Y hY => ⟨Y, by rw [h]; exact hY, rfl, rfl, rfl, id⟩, fun y Y' h1 h2 => by rw [h, h2] at h1; cases h1⟩

theorem KeepsForked.mod {s1 : State} (t : Inst) (f : Thr → Thr) (hf : ∀ X, (f X).forked = X.forked ∧ (f X).addr = X.addr ∧ (f X).tid = X.tid ∧
    ((f X).clear = true → X.clear = true))
    (h : s1.thr = s.thr) : KeepsForked s (s1.modThr t f) := by
  constructor
  · intro y Y hY
    by_cases hy : y = t
    · exact ⟨f Y, by simp [State.modThr, hy, h]; subst hy; exact ⟨Y, hY, rfl⟩, hf Y⟩
    · exact ⟨Y, by simp [State.modThr, hy, h]; exact hY, rfl, rfl, rfl, id⟩
  · intro y Y' h1 h2
    simp only [State.modThr, h, h2] at h1
    split at h1 <;> cases h1

theorem KeepsForked.stage {s1 : State} (t : Inst) (g : Stage) (h : s1.thr = s.thr) : KeepsForked s (s1.setStage t g) :=
  .mod t _ (fun _ => ⟨rfl, rfl, rfl, id⟩) h

theorem KeepsForked.trans {s1 s2 s3 : State} (h : KeepsForked s1 s2) (h' : KeepsForked s2 s3) : KeepsForked s1 s3 := by
  constructor
  · intro y Y hY
    obtain ⟨Y1, a1, a2, a3, a4, a5⟩ := h.keep y Y hY
    obtain ⟨Y2, b1, b2, b3, b4, b5⟩ := h'.keep y Y1 a1
    exact ⟨Y2, b1, by rw [b2, a2], by rw [b3, a3], by rw [b4, a4], fun h => a5 (b5 h)⟩
  · intro y Y' h1 h2
    cases hy : s2.thr y with
    | none => exact h'.new y Y' h1 hy
    | some Y1 =>
      obtain ⟨Y2, b1, b2, -⟩ := h'.keep y Y1 hy
      rw [h1] at b1; injection b1 with b1; subst b1
      rw [b2]; exact h.new y Y1 hy h2

theorem ownStep_forked {t : Inst} {T : Thr} {r : Rec} (h : ownStep sig s t T r = some s') : KeepsForked s s' := by
  cases hs : T.stage <;> simp only [ownStep, hs] at h <;> (try split at h) <;> (try cases h)
  case dSetTid =>
    exact .trans (.mod t (fun T => { T with clear := false }) (fun _ => ⟨rfl, rfl, rfl, by simp⟩) rfl) (.stage t _ rfl)
  case dMask =>
    exact .trans (.mod t (fun T => { T with masked := sig }) (fun _ => ⟨rfl, rfl, rfl, id⟩) rfl) (.stage t _ rfl)
  all_goals exact .stage t _ rfl

theorem step_forked (hlt : ∀ h T, s.thr h = some T → h < s.next) {x : Action} (h : Life.step sig s x = some s') : KeepsForked s s' := by
  cases x with
  | create t a tid =>
    simp only [Life.step] at h
    split at h
    · split at h
      · split at h
        · injection h with h; subst h; exact .same rfl
        · injection h with h; subst h
          constructor
          · intro y Y hY
            have hne : y ≠ s.next := fun he => by subst he; exact Nat.lt_irrefl _ (hlt _ _ hY)
            exact ⟨Y, by simp [State.ev, hne, hY], rfl, rfl, rfl, id⟩
          · intro y Y' h1 h2
            simp only [State.ev, h2] at h1
            split at h1
            · injection h1 with h1; subst h1; rfl
            · cases h1
      · cases h
    · cases h
  | ret t v =>
    simp only [Life.step] at h
    split at h
    · split at h
      · split at h
        · injection h with h; subst h; exact .same rfl
        · injection h with h; subst h
          exact .trans (.mod (s1 := s) t (fun T => { T with ret := some v, stage := .dtors v }) (fun _ => ⟨rfl, rfl, rfl, id⟩) rfl) (.same rfl)
      · cases h
    · cases h
  | dtorsDone t =>
    simp only [Life.step] at h
    split at h
    · split at h
      · split at h
        · injection h with h; subst h; exact .same rfl
        · injection h with h; subst h; exact .stage t _ rfl
      · cases h
    · cases h
  | join t y =>
    simp only [Life.step] at h
    split at h
    · split at h
      · split at h <;> (injection h with h; subst h; exact .same rfl)
      · cases h
    · cases h
  | detach t y =>
    simp only [Life.step] at h
    split at h
    · split at h
      · split at h <;> (injection h with h; subst h; exact .same rfl)
      · cases h
    · cases h
  | id t y =>
    simp only [Life.step] at h
    split at h
    · split at h
      · split at h
        · injection h with h; subst h; exact .same rfl
        · split at h <;> (injection h with h; subst h; exact .same rfl)
      · cases h
    · cases h
  | step t =>
    simp only [Life.step] at h
    split at h
    · split at h
      · injection h with h; subst h; exact .stage t _ rfl
      · split at h
        · split at h
          · injection h with h; subst h; exact .stage t _ rfl
          · injection h with h; subst h; exact .same rfl
        · injection h with h; subst h; exact .stage t _ rfl
      · cases h
      · cases h
      · split at h
        · injection h with h; subst h; exact .same rfl
        · split at h
          · split at h
            · cases h
            · split at h
              · injection h with h; subst h; exact .same rfl
              · exact .same (callStep_thr h)
          · exact ownStep_forked h
    · cases h
  | intr t =>
    simp only [Life.step] at h
    split at h
    · injection h with h; subst h; exact .same rfl
    · cases h
  | wake t w =>
    simp only [Life.step] at h
    split at h
    · split at h
      · split at h
        · split at h
          · injection h with h; subst h; exact .stage t _ rfl
          · cases h
        · split at h
          · split at h
            · injection h with h; subst h
              exact .trans (.stage t _ rfl) (.same rfl)
            · cases h
          · cases h
      · cases h
    · cases h
  | signal t =>
    simp only [Life.step] at h
    split at h
    · split at h
      · cases h
      · split at h
        · cases h
        · cases h
        · cases h
        · split at h <;> (injection h with h; subst h; exact .same rfl)
    · cases h

/-- No thread is forked. -/
def NoFork (s : State) : Prop := ∀ h T, s.thr h = some T → T.forked = false

theorem NoFork.step (N : NoFork s) (hlt : ∀ h T, s.thr h = some T → h < s.next) {x : Action}
    (h : Life.step sig s x = some s') : NoFork s' := by
  have K := step_forked hlt h
  intro y Y hY
  cases hy : s.thr y with
  | none => exact K.new y Y hY hy
  | some Y0 =>
    obtain ⟨Y', a1, a2, -⟩ := K.keep y Y0 hy
    rw [hY] at a1; injection a1 with a1; subst a1
    rw [a2]; exact N y Y0 hy

theorem init_noFork (a tid : Nat) : NoFork (init a tid) := by
  intro h T hT
  simp only [init] at hT
  split at hT
  · injection hT with hT; subst hT; rfl
  · cases hT

theorem reach_noFork {P : State → Action → Prop} (R : Reach sig P s) : NoFork s ∧ s.thr 0 ≠ none := by
  have key : ∀ s, Reach sig P s → Inv (fun _ => true) sig s :=
    fun _ => reach_inv (fun _ _ _ _ => .inl rfl) (fun _ _ _ _ => .inl rfl)
  induction R with
  | init a tid ht => exact ⟨init_noFork a tid, by simp [init]⟩
  | step hr _ hs ih =>
    have I := key _ hr
    refine ⟨ih.1.step I.lt hs, ?_⟩
    obtain ⟨T, hT⟩ := Option.ne_none_iff_exists'.mp ih.2
    obtain ⟨Y, hY, -⟩ := (step_forked I.lt hs).keep 0 T hT
    rw [hY]; simp

/-- A thread waiting to be woken for still owns what is at its address, if anything is. -/
def Fresh (s : State) : Prop :=
  ∀ t T, s.thr t = some T → T.stage = .kWake → ∀ r, s.recs T.addr = some r → r.owner = t

theorem Fresh.noStray (F : Fresh s) (I : Inv w sig s) {x : Action} (h : step sig s x = some s') : ¬ Stray s x := by
  intro hst
  cases x with
  | wake t w =>
    cases w with
    | none => exact hst
    | some j =>
      obtain ⟨k, a, y, hc, hn⟩ := hst
      simp only [step] at h
      split at h
      · next T hT =>
        split at h
        · next hs =>
          simp only [hc] at h
          split at h
          · next ha =>
            have C := I.callOk _ _ hc
            obtain ⟨H, hH, hHa, -⟩ := C.target
            have O := I.ok _ _ hH
            have G := O.good
            rw [C.cons] at G
            obtain ⟨r, hr, -⟩ := G.waitRec
            obtain ⟨r1, r2⟩ := view_some hr
            rw [hHa] at r1
            simp only [Call.addr, Call.target, ha] at r1 r2
            have hty := F t T hT hs r r1
            rw [r2] at hty
            subst hty
            simp only [Call.target] at hH
            rw [hT] at hH; injection hH with hH; subst hH
            refine hn ((I.ok _ _ hT).link.cl.mpr ⟨?_, by rw [hs]; trivial⟩)
            have G' := (I.ok _ _ hT).good
            simp only [Good, hs, Over] at G'
            exact G'.1
          · cases h
        · cases h
      · cases h
  | _ => exact hst

theorem Fresh.step (F : Fresh s) {x : Action} (hx : ¬ EarlyReuse s x)
    (h : Life.step sig s x = some s') : Fresh s' := by
  -- anything that keeps the set of records and does not bring a thread into `kWake`
  have key : (∀ b r', s'.recs b = some r' → ∃ r0, s.recs b = some r0 ∧ r0.owner = r'.owner) →
      (∀ y Y, s'.thr y = some Y → Y.stage = .kWake → ∃ Y0, s.thr y = some Y0 ∧ Y0.addr = Y.addr ∧ Y0.stage = .kWake) →
      Fresh s' := by
    intro k1 k2 y Y hy hk r hr
    obtain ⟨Y0, a1, a2, a3⟩ := k2 y Y hy hk
    obtain ⟨r0, b1, b2⟩ := k1 _ r hr
    rw [← b2]
    exact F y Y0 a1 a3 r0 (by rw [a2]; exact b1)
  have same : s'.recs = s.recs → (∀ y Y, s'.thr y = some Y → Y.stage = .kWake →
      ∃ Y0, s.thr y = some Y0 ∧ Y0.addr = Y.addr ∧ Y0.stage = .kWake) → Fresh s' :=
    fun h1 h2 => key (fun b r' h => ⟨r', by rw [← h1]; exact h, rfl⟩) h2
  have same2 : s'.recs = s.recs → s'.thr = s.thr → Fresh s' :=
    fun h1 h2 => same h1 (fun y Y h hk => ⟨Y, by rw [← h2]; exact h, rfl, hk⟩)
  have notk : ∀ (t : Inst) (f : Thr → Thr) (s1 : State), (∀ X, (f X).stage ≠ .kWake) → s1.thr = s.thr →
      ∀ y Y, (s1.modThr t f).thr y = some Y → Y.stage = .kWake →
      ∃ Y0, s.thr y = some Y0 ∧ Y0.addr = Y.addr ∧ Y0.stage = .kWake := by
    intro t f s1 hf h1 y Y hy hk
    rcases modThr_thr hy with ⟨-, h⟩ | ⟨-, X, -, rfl⟩
    · exact ⟨Y, by rw [← h1]; exact h, rfl, hk⟩
    · exact absurd hk (hf X)
  cases x with
  | create t a tid =>
    simp only [Life.step] at h
    split at h
    · next T hT =>
      split at h
      · next hc =>
        split at h
        · injection h with h; subst h; exact same2 rfl rfl
        · injection h with h; subst h
          intro y Y hy hk r hr
          simp only [State.ev] at hy hr
          split at hy
          · injection hy with hy; subst hy; cases hk
          · split at hr
            · next ha => exact absurd ⟨y, Y, hy, hk, ha⟩ hx
            · exact F y Y hy hk r hr
      · cases h
    · cases h
  | ret t v =>
    simp only [Life.step] at h
    split at h
    · split at h
      · split at h
        · injection h with h; subst h; exact same2 rfl rfl
        · injection h with h; subst h
          exact same rfl (notk t _ s (by simp) rfl)
      · cases h
    · cases h
  | dtorsDone t =>
    simp only [Life.step] at h
    split at h
    · split at h
      · split at h
        · injection h with h; subst h; exact same2 rfl rfl
        · injection h with h; subst h
          exact same rfl (notk t _ s (by simp) rfl)
      · cases h
    · cases h
  | join t y =>
    simp only [Life.step] at h
    split at h
    · split at h
      · split at h <;> (injection h with h; subst h; exact same2 rfl rfl)
      · cases h
    · cases h
  | detach t y =>
    simp only [Life.step] at h
    split at h
    · split at h
      · split at h <;> (injection h with h; subst h; exact same2 rfl rfl)
      · cases h
    · cases h
  | id t y =>
    simp only [Life.step] at h
    split at h
    · split at h
      · split at h
        · injection h with h; subst h; exact same2 rfl rfl
        · split at h <;> (injection h with h; subst h; exact same2 rfl rfl)
      · cases h
    · cases h
  | step t =>
    simp only [Life.step] at h
    split at h
    · next T hT =>
      split at h
      · injection h with h; subst h
        exact same rfl (notk t _ _ (by simp) rfl)
      · next hs =>
        split at h
        · split at h
          · next r hr =>
            injection h with h; subst h
            intro y Y hy hk r' hr'
            obtain ⟨r1, r2⟩ := view_some hr
            rcases modThr_thr hy with ⟨hne, hy'⟩ | ⟨rfl, X, hX, rfl⟩
            · by_cases ha : Y.addr = T.addr
              · have := F y Y hy' hk r (by rw [ha]; exact r1)
                rw [r2] at this; exact absurd this.symm hne
              · refine F y Y hy' hk r' ?_
                have : (if Y.addr = T.addr then some { r with tid := 0 } else s.recs Y.addr) = some r' := hr'
                rw [if_neg ha] at this; exact this
            · have hX' : s.thr y = some X := hX
              rw [hT] at hX'; injection hX' with hX'; subst hX'
              have : (if T.addr = T.addr then some { r with tid := 0 } else s.recs T.addr) = some r' := hr'
              rw [if_pos rfl] at this
              injection this with this; subst this
              exact r2
          · injection h with h; subst h; exact same2 rfl rfl
        · injection h with h; subst h
          exact same rfl (notk t _ s (by simp) rfl)
      · cases h
      · cases h
      · split at h
        · injection h with h; subst h; exact same2 rfl rfl
        · next r hr =>
          split at h
          · next c hc =>
            split at h
            · cases h
            · split at h
              · injection h with h; subst h; exact same2 rfl rfl
              · next rc hrc =>
                exact key (fun b r' hb => callStep_recs hrc h hb)
                  (fun y Y hy hk => ⟨Y, by rw [← callStep_thr h]; exact hy, rfl, hk⟩)
          · exact key (fun b r' hb => ownStep_recs hr h hb)
              (fun y Y hy hk => ⟨Y, ownStep_thr hT h hy hk, rfl, hk⟩)
    · cases h
  | intr t =>
    simp only [Life.step] at h
    split at h
    · injection h with h; subst h; exact same2 rfl rfl
    · cases h
  | wake t w =>
    simp only [Life.step] at h
    split at h
    · split at h
      · split at h
        · split at h
          · injection h with h; subst h; exact same rfl (notk t _ s (by simp) rfl)
          · cases h
        · split at h
          · split at h
            · injection h with h; subst h; exact same rfl (notk t _ s (by simp) rfl)
            · cases h
          · cases h
      · cases h
    · cases h
  | signal t =>
    simp only [Life.step] at h
    split at h
    · split at h
      · cases h
      · split at h
        · cases h
        · cases h
        · cases h
        · split at h <;> (injection h with h; subst h; exact same2 rfl rfl)
    · cases h

/-- Runs that never reuse an address too early have no stray wake-ups. -/
theorem reach_noReuse {P : State → Action → Prop} (h1 : ∀ s x, P s x → ¬ EarlyReuse s x)
    (h2 : sig = true ∨ ∀ s x, P s x → ¬ LateSignal s x) (h : Reach sig P s) : Inv (fun _ => false) sig s ∧ Fresh s := by
  induction h with
  | init a tid ht =>
    refine ⟨init_inv a tid ht, ?_⟩
    intro t T hT hk
    simp only [init] at hT
    split at hT
    · injection hT with hT; subst hT; cases hk
    · cases hT
  | step _ hp hs ih =>
    obtain ⟨I, F⟩ := ih
    exact ⟨step_inv I (fun h => .inr fun hs' => F.noStray I hs (stray_of hs')) (fun h => .inr (h2.imp id fun h2 hl => h2 _ _ hp (late_of hl))) hs, F.step (h1 _ _ hp) hs⟩

/-- The same, as runs without stray wake-ups. -/
theorem reach_mono {P Q : State → Action → Prop} (h1 : ∀ s x, P s x → ¬ EarlyReuse s x)
    (h2 : sig = true ∨ ∀ s x, P s x → ¬ LateSignal s x)
    (hQ : ∀ s x, P s x → ¬ Stray s x → Q s x) (h : Reach sig P s) : Reach sig Q s := by
  induction h with
  | init a tid ht => exact .init a tid ht
  | step hr hp hs ih =>
    obtain ⟨I, F⟩ := reach_noReuse h1 h2 hr
    exact .step ih (hQ _ _ hp (F.noStray I hs)) hs

end Origin.Life
