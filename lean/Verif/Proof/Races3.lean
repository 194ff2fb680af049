import Verif.Proof.Races2
/-!
# Happens-before: a thread's own steps, and the invariant over whole histories
-/

namespace Origin.Life

variable {w : Inst → Bool} {sig : Bool} {s s' : State} {tr es : List Acc} {h : Inst}

/-- Changing a record changes no other instance's view. -/
theorem view_other {a : Nat} {y : Inst} {r : Rec} (hv : s.view a y = some r) {m : Option Rec} (hm : ∀ r', m = some r' → r'.owner = y)
    (b : Nat) {x : Inst} (hx : x ≠ y) (s2 : State) (h2 : s2.recs = fun b => if b = a then m else s.recs b) : s2.view b x = s.view b x := by
  obtain ⟨v1, v2⟩ := view_some hv
  unfold State.view
  rw [h2]
  by_cases ha : b = a
  · subst ha
    simp only [if_true, v1]
    rw [if_neg (by rw [v2]; exact fun h => hx h.symm)]
    cases m with
    | none => rfl
    | some r' => simp only; rw [if_neg (by rw [hm r' rfl]; exact fun h => hx h.symm)]
  · simp only [if_neg ha]

/-- What a step of `t`'s exit does not change. -/
theorem ownStep_frame {t : Inst} {T : Thr} {r : Rec} (hT : s.thr t = some T) (hv : s.view T.addr t = some r) (hs : ownStep sig s t T r = some s') :
    s'.call = s.call ∧ s'.cons = s.cons ∧ (∀ x, x ≠ t → s'.thr x = s.thr x) ∧ (∀ a x, x ≠ t → s'.view a x = s.view a x) ∧
      (∃ T', s'.thr t = some T' ∧ T'.addr = T.addr) := by
  have ho := (view_some hv).2
  cases hst : T.stage <;> simp only [ownStep, hst] at hs <;> (try split at hs) <;> (try cases hs)
  case born =>
    exact ⟨rfl, rfl, fun x hx => by simp [State.setStage, State.modThr, State.setRec, hx], fun a x hx => view_other hv (by simp [ho]) a hx _ rfl,
      by simp [State.setStage, State.modThr, State.setRec, hT]⟩
  case cas.isTrue =>
    exact ⟨rfl, rfl, fun x hx => by simp [State.setStage, State.modThr, State.setRec, hx], fun a x hx => view_other hv (by simp [ho]) a hx _ rfl,
      by simp [State.setStage, State.modThr, State.setRec, hT]⟩
  case storeRet =>
    exact ⟨rfl, rfl, fun x hx => by simp [State.setStage, State.modThr, State.setRec, hx], fun a x hx => view_other hv (by simp [ho]) a hx _ rfl,
      by simp [State.setStage, State.modThr, State.setRec, hT]⟩
  case dUnmap =>
    exact ⟨rfl, rfl, fun x hx => by simp [State.setStage, State.modThr, State.setRec, State.ev, hx],
      fun a x hx => view_other hv (m := none) (by simp) a hx _ rfl, by simp [State.setStage, State.modThr, State.setRec, State.ev, hT]⟩
  all_goals
    exact ⟨rfl, rfl, fun x hx => by simp [State.setStage, State.modThr, State.ev, hx], fun a x hx => rfl,
      by simp [State.setStage, State.modThr, State.ev, hT]⟩

theorem ownAccess_touch {t : Inst} {r : Option Rec} {g : Stage} (hne : t ≠ h) :
    (∀ e ∈ ownAccess t r g, ¬ e.Touches h) ∧ (∀ u l r', .atomic u h l r' true ∉ ownAccess t r g) := by
  cases g <;> simp [ownAccess, Acc.Touches] <;> grind

theorem ownAccess_target {t : Inst} {r : Option Rec} {g : Stage} {e : Acc} {x : Inst} (he : e ∈ ownAccess t r g) (hx : e.Touches x) : x = t := by
  cases g <;> simp [ownAccess] at he <;> subst he <;> simp [Acc.Touches] at hx <;> exact hx.symm

/-- A step of `h`'s own exit. -/
theorem RInv.ownStep (R : RInv h s tr) (I : Inv w sig s) (hw : w h = false) {T : Thr} {r : Rec} (hT : s.thr h = some T)
    (hv : s.view T.addr h = some r) (hs : Life.ownStep sig s h T r = some s') :
    RInv h s' (tr ++ ownAccess h (some r) T.stage) := by
  obtain ⟨f1, f2, f3, f4, ⟨T', hT', hTa⟩⟩ := ownStep_frame hT hv hs
  have G := (I.ok _ _ hT).good
  rw [hw, hv] at G
  have k0 : ∀ x, s.thr x ≠ none → s'.thr x ≠ none := by
    intro x hx
    by_cases hxh : x = h
    · rw [hxh, hT']; simp
    · rw [f3 x hxh]; exact hx
  have hqq : Quiet s' h ↔ Quiet s h := by unfold Quiet; rw [f1, f2]
  have detView : ∀ r2, s'.recs = (fun b => if b = T.addr then some r2 else s.recs b) → s'.view T'.addr h = some r2 ∨ s'.view T'.addr h = none := by
    intro r2 h2
    rw [hTa]; unfold State.view; rw [h2]; simp only [if_true]
    split <;> simp
  cases hst : T.stage <;> simp only [Life.ownStep, hst] at hs <;> (try split at hs) <;> (try cases hs) <;> simp only [ownAccess]
  case born =>
    refine R.frame [] (by simp) (by simp) k0 (by simp) ?_ ?_ hqq.mp (fun j c q1 q2 q3 => ⟨c, q1, q2, q3⟩)
    · intro T2 q
      refine ⟨T, hT, ?_, by simp [hst, Stage.gone], ?_⟩
      · rw [hT'] at q; injection q with q; subst q; exact hTa.symm
      · simp [State.setStage, State.modThr, State.setRec, hT] at q; subst q; simp [Stage.Stored]
    · intro T2 r' q1 q2 q3
      rw [hT] at q1; injection q1 with q1; subst q1
      rcases detView _ rfl with hd | hd <;> rw [hTa] at hd <;> rw [hd] at q2
      · injection q2 with q2; subst q2; exact ⟨r, hv, q3⟩
      · cases q2
  case cas.isTrue v hi =>
    have K := R.own T hT (by simp [hst, Stage.gone])
    simp only [Option.map_some, hi, decide_true]
    refine ⟨fun e x he hx => ?_, fun _ _ _ => K.self rfl, fun _ _ _ _ _ _ => K.write, fun T2 q1 q2 _ => ?_, fun j c q1 q2 q3 => ?_, R.free.self K rfl⟩
    · rcases List.mem_append.mp he with he | he
      · exact k0 x (R.touched e x he hx)
      · simp at he; subst he; exact absurd hx (by simp [Acc.Touches])
    · simp [State.setStage, State.modThr, State.setRec, hT] at q1; subst q1; exact absurd q2 (by simp [Stage.Stored])
    · exact (R.call j c q1 q2 q3).app (by simp [Acc.Touches])
  case cas.isFalse v hi =>
    have K := R.own T hT (by simp [hst, Stage.gone])
    have hd : r.detached = .detached := by
      simp only [Good, hst] at G
      obtain ⟨-, -, ⟨q, -⟩ | ⟨q, -⟩⟩ := G.1.rec
      · exact absurd q hi
      · exact q
    simp only [Option.map_some, Option.some.injEq, hi, decide_false]
    refine ⟨fun e x he hx => ?_, fun _ _ _ => K.self rfl, fun T2 r2 q1 q2 q3 _ => ?_, fun T2 q1 q2 _ => ?_, fun j c q1 q2 q3 => ?_, R.free.self K rfl⟩
    · rcases List.mem_append.mp he with he | he
      · exact k0 x (R.touched e x he hx)
      · simp at he; subst he; exact absurd hx (by simp [Acc.Touches])
    · rw [hT'] at q1; injection q1 with q1; subst q1
      rw [hTa] at q2
      have q2' : s.view T.addr h = some r2 := q2
      rw [hv] at q2'; injection q2' with q2'; subst q2'
      rw [hd] at q3; cases q3
    · simp [State.setStage, State.modThr, State.setRec, hT] at q1; subst q1; exact absurd q2 (by simp [Stage.Stored])
    · exact (R.call j c q1 q2 q3).app (by simp [Acc.Touches])
  case storeRet v =>
    have K := R.own T hT (by simp [hst, Stage.gone])
    refine ⟨fun e x he hx => ?_, fun _ _ _ => K.self rfl, fun T2 r2 q1 q2 q3 q4 => ?_, fun T2 q1 q2 _ => K.write, fun j c q1 q2 q3 => ?_, R.free.self K rfl⟩
    · rcases List.mem_append.mp he with he | he
      · exact k0 x (R.touched e x he hx)
      · simp at he; subst he; exact absurd hx (by simp [Acc.Touches])
    · rw [hT'] at q1; injection q1 with q1; subst q1
      refine (R.det T r hT hv ?_ (hqq.mp q4)).app (by simp [Acc.Touches]) (by simp)
      rcases detView _ rfl with hd | hd <;> rw [hd] at q2
      · injection q2 with q2; subst q2; exact q3
      · cases q2
    · exact (R.call j c q1 q2 q3).app (by simp [Acc.Touches])
  case dRead =>
    simp only [Good, hst] at G
    refine R.plainOwn hT (by simp [hst, Stage.gone]) k0 ?_ ?_ (fun j c q => not_informed I hw hT (.inr (.inr (.inr G.1.1))) j c q)
    · intro T2 r2 q1 q2
      rw [hT'] at q1; injection q1 with q1; subst q1
      rw [hTa] at q2
      exact not_abandoned I hw hT (.inr (.inl hst)) r2 q2
    · intro T2 q1
      simp [State.setStage, State.modThr, State.setRec, hT] at q1; subst q1; simp [Stage.Stored]
  case dDrop.isFalse o ho =>
    simp only [Good, hst] at G
    exact absurd G.2.2 ho
  case dDrop.isTrue o ho =>
    simp only [Good, hst] at G
    refine R.plainOwn hT (by simp [hst, Stage.gone]) k0 ?_ ?_ (fun j c q => not_informed I hw hT (.inr (.inr (.inr G.1.1))) j c q)
    · intro T2 r2 q1 q2
      rw [hT'] at q1; injection q1 with q1; subst q1
      rw [hTa] at q2
      exact not_abandoned I hw hT (.inr (.inr ⟨o, hst⟩)) r2 q2
    · intro T2 q1
      simp [State.setStage, State.modThr, State.setRec, hT, G.2.2] at q1; subst q1; simp [Stage.Stored]
  case dUnmap =>
    simp only [Good, hst] at G
    refine R.plainOwn hT (by simp [hst, Stage.gone]) k0 ?_ ?_ (fun j c q => not_informed I hw hT (.inr (.inr (.inr G.1.1))) j c q)
    · intro T2 r2 q1 q2
      rw [hT'] at q1; injection q1 with q1; subst q1
      rw [hTa] at q2
      simp [State.view, State.setStage, State.modThr, State.setRec, State.ev] at q2
    · intro T2 q1
      simp [State.setStage, State.modThr, State.setRec, State.ev, hT] at q1; subst q1; simp [Stage.Stored]
  all_goals
    refine R.frame [] (by simp) (by simp) k0 (by simp) ?_ ?_ hqq.mp (fun j c q1 q2 q3 => ⟨c, q1, q2, q3⟩)
    · intro T2 q
      refine ⟨T, hT, ?_, by simp [hst, Stage.gone], ?_⟩
      · rw [hT'] at q; injection q with q; subst q; exact hTa.symm
      · simp [State.setStage, State.modThr, State.setRec, State.ev, hT] at q; subst q; simp [Stage.Stored, hst]
    · intro T2 r' q1 q2 q3
      exact ⟨r', q2, q3⟩

/-- A step of another thread's own exit. -/
theorem RInv.ownOther (R : RInv h s tr) {t : Inst} (hne : t ≠ h) {T : Thr} {r : Rec} (hT : s.thr t = some T)
    (hv : s.view T.addr t = some r) (hs : Life.ownStep sig s t T r = some s') (m : Option Rec) :
    RInv h s' (tr ++ ownAccess t m T.stage) := by
  obtain ⟨f1, f2, f3, f4, ⟨T', hT', hTa⟩⟩ := ownStep_frame hT hv hs
  obtain ⟨a1, a2⟩ := ownAccess_touch (h := h) (r := m) (g := T.stage) hne
  have k0 : ∀ x, s.thr x ≠ none → s'.thr x ≠ none := by
    intro x hx
    by_cases hxh : x = t
    · rw [hxh, hT']; simp
    · rw [f3 x hxh]; exact hx
  refine R.same _ a1 a2 k0 (fun e x he hx => ?_) (fun T2 q => ⟨T2, by rw [← f3 h (Ne.symm hne)]; exact q, rfl, id, fun h _ => h⟩)
    (by rw [f2]) (fun T2 _ r' q => ⟨r', by rw [← f4 _ h (Ne.symm hne)]; exact q, rfl⟩) (fun j c _ => by rw [f1])
  rw [ownAccess_target he hx, hT']; simp

/-- A step of a call on another thread. -/
theorem RInv.callOther (R : RInv h s tr) (I : Inv w sig s) {t : Inst} {c : Call} (hc : s.call t = some c)
    (hne : c.target ≠ h) {r : Rec} (hv : s.view c.addr c.target = some r) (hs : Life.callStep s t r c = some s') :
    RInv h s' (tr ++ callAccess t c) := by
  obtain ⟨f1, f2, f3, f4, f5⟩ := callStep_frame hv hs
  obtain ⟨a1, a2⟩ := callAccess_touch (t := t) hne
  obtain ⟨H, hH, -, -⟩ := (I.callOk _ _ hc).target
  refine R.same _ a1 a2 (by rw [f1]; exact fun _ => id) (fun e x he hx => ?_) (fun T2 q => ⟨T2, by rw [← f1]; exact q, rfl, id, fun h _ => h⟩)
    (f2 h (Ne.symm hne)) (fun T2 _ r' q => ⟨r', by rw [← f5 _ h (Ne.symm hne)]; exact q, rfl⟩) (fun j c' hc' => ?_)
  · rw [callAccess_target he hx, f1, hH]; simp
  · by_cases hj : j = t
    · subst hj
      constructor
      · intro q; exact absurd (hc'.symm.trans (f4 c' q)).symm hne
      · intro q; rw [hc] at q; injection q with q; subst q; exact absurd hc' hne
    · rw [f3 j hj]

end Origin.Life
