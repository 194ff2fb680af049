import Verif.Proof.Races3
/-!
# Happens-before: the invariant over whole histories
-/

namespace Origin.Life

variable {w : Inst → Bool} {sig : Bool} {s s' : State} {tr es : List Acc} {h : Inst}

/-- A thread changes its own stage and nothing else that matters. -/
theorem RInv.stage (R : RInv h s tr) {t : Inst} {T T' : Thr} (hT : s.thr t = some T) (hT' : s'.thr t = some T') (ha : T'.addr = T.addr)
    (hg : T.stage.gone → T'.stage.gone) (hst : t = h → T'.stage.Stored → Quiet s h → T.stage.Stored)
    (e1 : ∀ x, x ≠ t → s'.thr x = s.thr x) (e2 : s'.cons = s.cons)
    (e3 : ∀ a r', s'.view a h = some r' → ∃ r, s.view a h = some r ∧ r.detached = r'.detached) (e4 : s'.call = s.call) : RInv h s' tr := by
  rw [← List.append_nil tr]
  refine R.same [] (by simp) (by simp) (fun x hx => ?_) (by simp) (fun T2 q => ?_) (by rw [e2]) (fun T2 _ r' q => e3 _ r' q) (fun j c _ => by rw [e4])
  · by_cases hxt : x = t
    · rw [hxt, hT']; simp
    · rw [e1 x hxt]; exact hx
  · by_cases hh : h = t
    · subst hh
      rw [hT'] at q; injection q with q; subst q
      exact ⟨T, hT, ha.symm, hg, hst rfl⟩
    · rw [e1 h hh] at q
      exact ⟨T2, q, rfl, id, fun h _ => h⟩

theorem RInv.create (R : RInv h s tr) (I : Inv w sig s) {t a tid : Nat} (hfree : s.recs a = none)
    (hs : s' = ({ s with
          recs := fun x => if x = a then some ⟨s.next, tid, .initial, 0, true⟩ else s.recs x,
          thr := fun x => if x = s.next then some ⟨a, tid, .born, true, false, none, false⟩ else s.thr x,
          next := s.next + 1 }.ev (.created t s.next a tid))) : RInv h s' (tr ++ [.init t s.next]) := by
  have hnn : s.thr s.next = none := by
    cases hq : s.thr s.next with
    | none => rfl
    | some N => exact absurd (I.lt _ _ hq) (Nat.lt_irrefl _)
  have k0 : ∀ x, s.thr x ≠ none → s'.thr x ≠ none := by
    intro x hx
    subst hs
    simp only [State.ev]
    split
    · simp
    · exact hx
  have hcall : s'.call = s.call := by subst hs; rfl
  have hcons : s'.cons = s.cons := by subst hs; rfl
  by_cases hh : h = s.next
  · have hnt : ∀ (i : Nat) (a : Acc), tr[i]? = some a → ¬ a.Touches h := by
      intro i e he ht
      exact R.touched e h (List.mem_of_getElem? he) ht (by rw [hh]; exact hnn)
    have hc0 : s.cons h = none := by
      cases hq : s.cons h with
      | none => rfl
      | some c => exact absurd (by rw [hh]; exact hnn) (I.consThr h (by rw [hq]; simp))
    have hnew : ∀ T, s'.thr h = some T → T.stage = .born ∧ T.addr = a := by
      intro T hT
      subst hs
      simp [State.ev, hh] at hT
      subst hT
      exact ⟨rfl, rfl⟩
    refine ⟨fun e x he hx => ?_, fun T _ _ => ?_, fun T r q1 q2 q3 _ => ?_, fun T q1 q2 _ => ?_, fun j c q1 q2 _ => ?_, ?_⟩
    · rcases List.mem_append.mp he with he | he
      · exact k0 x (R.touched e x he hx)
      · simp at he; subst he
        simp only [Acc.Touches] at hx
        subst hs
        simp [State.ev, ← hx]
    · intro i e hi ht
      rcases getElem?_app hi with hi' | hi'
      · exact absurd ht (hnt i e hi')
      · simp at hi'; subst hi'
        refine .inl ⟨t, ?_⟩
        rw [hi, hh]
    · rw [(hnew T q1).2] at q2
      subst hs
      simp [State.view, State.ev, hh] at q2
      subst q2; cases q3
    · rw [(hnew T q1).1] at q2; exact absurd q2 (by simp [Stage.Stored])
    · rw [hcall] at q1
      have := (I.callOk _ _ q1).cons
      rw [q2, hc0] at this; cases this
    · intro i j x y hij hi hj hx hy
      rcases getElem?_app hi with hi' | hi'
      · exact absurd hx (hnt i x hi')
      · rcases getElem?_app hj with hj' | hj'
        · exact absurd hy (hnt j y hj')
        · exfalso
          by_cases hil : i < tr.length
          · rw [List.getElem?_append_left hil] at hi
            exact hnt i x hi hx
          · have := lt_of_some hj
            simp at this; omega
  · refine R.same _ (by simp [Acc.Touches]; exact fun h => hh h.symm) (by simp) k0 (fun e x he hx => ?_) (fun T2 q => ⟨T2, ?_, rfl, id, fun h _ => h⟩)
      (by rw [hcons]) (fun T2 _ r' q => ⟨r', ?_, rfl⟩) (fun j c _ => by rw [hcall])
    · simp at he; subst he
      simp only [Acc.Touches] at hx
      subst hs
      simp [State.ev, ← hx]
    · subst hs
      simp [State.ev, hh] at q
      exact q
    · subst hs
      obtain ⟨v1, v2⟩ := view_some q
      simp only [State.ev] at v1
      split at v1
      · injection v1 with v1; subst v1; exact absurd v2.symm hh
      · exact view_of v1 v2

/-- `join` or `detach` is called on `y`. -/
theorem RInv.begin (R : RInv h s tr) {t y : Inst} {c : Call} {k : Kind} {p : Phase} (hc : s.call t = none) (hy : s.cons y = none)
    (hct : c.target = y) (hi : ¬ c.Informed) (e1 : s'.thr = s.thr) (e2 : s'.recs = s.recs)
    (e3 : s'.call = fun x => if x = t then some c else s.call x)
    (e4 : s'.cons = fun x => if x = y then some (t, k, p) else s.cons x) : RInv h s' tr := by
  rw [← List.append_nil tr]
  have ev : ∀ a x, s'.view a x = s.view a x := by intro a x; unfold State.view; rw [e2]
  by_cases hh : h = y
  · subst hh
    refine R.frame [] (by simp) (by simp) (by rw [e1]; exact fun _ => id) (by simp)
      (fun T' q => ⟨T', by rw [← e1]; exact q, rfl, id, fun h _ => h⟩) (fun T r' q1 q2 q3 => ⟨r', by rw [← ev]; exact q2, q3⟩)
      (fun _ => by unfold Quiet; rw [hy]; trivial) (fun j c' q1 q2 q3 => ?_)
    rw [e3] at q1
    simp only at q1
    split at q1
    · injection q1 with q1; subst q1; exact absurd q3 hi
    · exact ⟨c', q1, q2, q3⟩
  · refine R.same [] (by simp) (by simp) (by rw [e1]; exact fun _ => id) (by simp)
      (fun T' q => ⟨T', by rw [← e1]; exact q, rfl, id, fun h _ => h⟩) (by rw [e4]; simp [hh])
      (fun T _ r' q => ⟨r', by rw [← ev]; exact q, rfl⟩) (fun j c' hc' => ?_)
    rw [e3]
    simp only
    split
    · next hj =>
      subst hj
      rw [hc]
      constructor
      · intro q; injection q with q; subst q; exact absurd (hc'.symm.trans hct) hh
      · intro q; cases q
    · rfl

/-- A waiter for `y` is woken by `t`'s exit. -/
theorem RInv.wake (R : RInv h s tr) (I : Inv w sig s) {t j y : Inst} {a : Nat} {T : Thr} {k : Kind} (hT : s.thr t = some T) (hs : T.stage = .kWake)
    (hc : s.call j = some (.blocked k a y)) :
    RInv h (((s.setStage t .dead).setCall j (some (afterWait k a y))).setCons y (j, k, .freeing)) tr := by
  rw [← List.append_nil tr]
  have hcons := (I.callOk _ _ hc).cons
  simp only [Call.target, Call.kind, Call.phase] at hcons
  have k0 : ∀ x, s.thr x ≠ none → (((s.setStage t .dead).setCall j (some (afterWait k a y))).setCons y (j, k, .freeing)).thr x ≠ none := by
    intro x hx
    simp only [State.setCons, State.setCall, State.setStage, State.modThr]
    split
    · next hxt => subst hxt; rw [hT]; simp
    · exact hx
  have k1 : ∀ T', (((s.setStage t .dead).setCall j (some (afterWait k a y))).setCons y (j, k, .freeing)).thr h = some T' →
      ∃ T, s.thr h = some T ∧ T.addr = T'.addr ∧ (T.stage.gone → T'.stage.gone) ∧ (T'.stage.Stored → T.stage.Stored) := by
    intro T' q
    rcases modThr_thr q with ⟨-, q⟩ | ⟨rfl, X, q1, q2⟩
    · exact ⟨T', q, rfl, id, id⟩
    · rw [hT] at q1; injection q1 with q1; subst q1; subst q2
      exact ⟨T, hT, rfl, fun _ => trivial, fun _ => by rw [hs]; trivial⟩
  by_cases hh : h = y
  · subst hh
    refine R.frame [] (by simp) (by simp) k0 (by simp) (fun T' q => ?_) (fun T2 r' q1 q2 q3 => ⟨r', q2, q3⟩)
      (fun _ => by unfold Quiet; rw [hcons]; trivial) (fun j' c' q1 q2 q3 => ?_)
    · obtain ⟨X, p1, p2, p3, p4⟩ := k1 T' q
      exact ⟨X, p1, p2, p3, fun h _ => p4 h⟩
    · simp only [State.setCons, State.setCall] at q1
      split at q1
      · next hj =>
        subst hj
        injection q1 with q1; subst q1
        refine ⟨_, hc, rfl, ?_⟩
        cases k <;> simp [afterWait, Call.Informed] at q3 ⊢
      · exact ⟨c', q1, q2, q3⟩
  · refine R.same [] (by simp) (by simp) k0 (by simp) (fun T' q => ?_) (by simp [State.setCons, State.setCall, State.setStage, State.modThr, hh])
      (fun T2 _ r' q => ⟨r', q, rfl⟩) (fun j' c' hc' => ?_)
    · obtain ⟨X, p1, p2, p3, p4⟩ := k1 T' q
      exact ⟨X, p1, p2, p3, fun h _ => p4 h⟩
    · simp only [State.setCons, State.setCall]
      split
      · next hj =>
        subst hj
        rw [hc]
        constructor
        · intro q; injection q with q; subst q; exact absurd (hc'.symm.trans (afterWait_props (b := true) k a y).1) hh
        · intro q; injection q with q; subst q; exact absurd hc'.symm hh
      · rfl

/-- A wait is interrupted. -/
theorem RInv.intr (R : RInv h s tr) {j y : Inst} {a : Nat} {k : Kind} (hc : s.call j = some (.blocked k a y)) (I : Inv w sig s) :
    RInv h (s.setCall j (some (.load k a y))) tr := by
  rw [← List.append_nil tr]
  have hcons := (I.callOk _ _ hc).cons
  simp only [Call.target, Call.kind, Call.phase] at hcons
  by_cases hh : h = y
  · subst hh
    refine R.frame [] (by simp) (by simp) (fun _ => id) (by simp) (fun T' q => ⟨T', q, rfl, id, fun h _ => h⟩) (fun T2 r' q1 q2 q3 => ⟨r', q2, q3⟩)
      (fun _ => by unfold Quiet; rw [hcons]; trivial) (fun j' c' q1 q2 q3 => ?_)
    simp only [State.setCall] at q1
    split at q1
    · next hj => subst hj; injection q1 with q1; subst q1; exact ⟨_, hc, rfl, q3⟩
    · exact ⟨c', q1, q2, q3⟩
  · refine R.same [] (by simp) (by simp) (fun _ => id) (by simp) (fun T' q => ⟨T', q, rfl, id, fun h _ => h⟩) rfl
      (fun T2 _ r' q => ⟨r', q, rfl⟩) (fun j' c' hc' => ?_)
    simp only [State.setCall]
    split
    · next hj =>
      subst hj
      rw [hc]
      constructor
      · intro q; injection q with q; subst q; exact absurd hc'.symm hh
      · intro q; injection q with q; subst q; exact absurd hc'.symm hh
    · rfl

/-- `h` accesses its record in user code. -/
theorem RInv.touch (R : RInv h s tr) (I : Inv w sig s) (hw : w h = false) {t : Inst} {T : Thr} (hT : s.thr t = some T) (hu : T.stage.user)
    (hT' : ∃ T', s'.thr t = some T' ∧ T'.addr = T.addr ∧ ¬ T'.stage.gone ∧ ¬ T'.stage.Stored) (e1 : ∀ x, x ≠ t → s'.thr x = s.thr x)
    (e2 : s'.call = s.call) (e3 : s'.cons = s.cons) (e4 : s'.recs = s.recs) : RInv h s' (tr ++ [.plain t t]) := by
  obtain ⟨T', p1, p2, p3, p4⟩ := hT'
  have ev : ∀ a x, s'.view a x = s.view a x := by intro a x; unfold State.view; rw [e4]
  have k0 : ∀ x, s.thr x ≠ none → s'.thr x ≠ none := by
    intro x hx
    by_cases hxt : x = t
    · rw [hxt, p1]; simp
    · rw [e1 x hxt]; exact hx
  by_cases hh : t = h
  · subst hh
    refine R.plainOwn hT (user_not_gone hu) k0 (fun T2 r' q1 q2 => ?_) (fun T2 q1 => ?_) (fun j c q => ?_)
    · rw [p1] at q1; injection q1 with q1; subst q1
      rw [p2, ev] at q2
      exact not_abandoned I hw hT (.inl hu) r' q2
    · rw [p1] at q1; injection q1 with q1; subst q1; exact p4
    · rw [e2] at q
      exact not_informed I hw hT (.inl hu) j c q
  · refine R.same _ (by simp [Acc.Touches]; exact hh) (by simp) k0 (fun e x he hx => ?_)
      (fun T2 q => ⟨T2, by rw [← e1 h (Ne.symm hh)]; exact q, rfl, id, fun h _ => h⟩) (by rw [e3])
      (fun T2 _ r' q => ⟨r', by rw [← ev]; exact q, rfl⟩) (fun j c _ => by rw [e2])
    simp at he; subst he
    simp only [Acc.Touches] at hx; subst hx; rw [p1]; simp

theorem access_idle {t : Inst} {T : Thr} (hT : s.thr t = some T) (hc : s.call t = none) (hg : ∀ {r}, ownAccess t r T.stage = []) :
    access s (.step t) = [] := by simp [access, hT, hc, hg]

theorem RInv.step (R : RInv h s tr) (I : Inv w sig s) (hw : w h = false) {x : Action} (hs : Life.step sig s x = some s') :
    RInv h s' (tr ++ access s x) := by
  have fault : ∀ t y, RInv h (s.faulted t y) (tr ++ []) := fun t y => by
    rw [List.append_nil]; exact R.logOnly rfl rfl rfl rfl
  cases x with
  | create t a tid =>
    simp only [Life.step] at hs
    split at hs
    · next T hT =>
      simp only [access, hT]
      split at hs
      · next hc =>
        obtain ⟨c1, c2, c3, c4⟩ := hc
        split at hs
        · next hv => injection hs with hs; subst hs; rw [if_pos hv]; exact fault t t
        · next hv =>
          injection hs with hs; subst hs
          rw [if_neg hv]
          exact R.create I (recs_none c2) rfl
      · cases hs
    · cases hs
  | ret t v =>
    simp only [Life.step] at hs
    simp only [access]
    split at hs
    · next T hT =>
      split at hs
      · next hc =>
        obtain ⟨c1, c2, c3⟩ := hc
        split at hs
        · injection hs with hs; subst hs; exact fault t t
        · injection hs with hs; subst hs
          rw [List.append_nil]
          exact R.stage (t := t) (T' := { T with ret := some v, stage := .dtors v }) hT (by simp [State.ev, State.modThr, hT]) rfl (by simp [c2, Stage.gone])
            (by simp [Stage.Stored]) (fun x hx => by simp [State.ev, State.modThr, hx]) rfl (fun a r' q => ⟨r', q, rfl⟩) rfl
      · cases hs
    · cases hs
  | dtorsDone t =>
    simp only [Life.step] at hs
    split at hs
    · next T hT =>
      simp only [access, hT]
      split at hs
      · next v hst hc =>
        split at hs
        · next hv => injection hs with hs; subst hs; rw [if_pos hv]; exact fault t t
        · next hv =>
          injection hs with hs; subst hs
          rw [if_neg hv]
          exact R.touch I hw hT (by rw [hst]; trivial)
            ⟨{ T with stage := .cas v }, by simp [State.setStage, State.modThr, hT], rfl, by simp [Stage.gone], by simp [Stage.Stored]⟩
            (fun x hx => by simp [State.setStage, State.modThr, hx]) rfl rfl rfl
      · cases hs
    · cases hs
  | join t y =>
    simp only [Life.step] at hs
    simp only [access]
    split at hs
    · next T H hT hH =>
      split at hs
      · next hc =>
        split at hs
        · injection hs with hs; subst hs; exact fault t t
        · injection hs with hs; subst hs
          rw [List.append_nil]
          exact R.begin (t := t) (y := y) (c := .load .join H.addr y) (inUser_iff hc.1).1 (by simpa using hc.2) rfl (by simp [Call.Informed]) rfl rfl rfl rfl
      · cases hs
    · cases hs
  | detach t y =>
    simp only [Life.step] at hs
    simp only [access]
    split at hs
    · next T H hT hH =>
      split at hs
      · next hc =>
        split at hs
        · injection hs with hs; subst hs; exact fault t t
        · injection hs with hs; subst hs
          rw [List.append_nil]
          exact R.begin (t := t) (y := y) (c := .swap H.addr y) (inUser_iff hc.1).1 (by simpa using hc.2) rfl (by simp [Call.Informed]) rfl rfl rfl rfl
      · cases hs
    · cases hs
  | id t y =>
    simp only [Life.step] at hs
    simp only [access]
    split at hs
    · next T H hT hH =>
      split at hs
      · split at hs
        · injection hs with hs; subst hs; exact fault t t
        · split at hs
          · injection hs with hs; subst hs
            rw [List.append_nil]; exact R.logOnly rfl rfl rfl rfl
          · injection hs with hs; subst hs; exact fault t y
      · cases hs
    · cases hs
  | step t =>
    simp only [Life.step] at hs
    split at hs
    · next T hT =>
      split at hs
      · next hst =>
        injection hs with hs; subst hs
        have hidle := I.idle_of_not_user hT (by simp [hst, Stage.user])
        have ha : access s (.step t) = [] := access_idle hT hidle (by intro r; rw [hst]; rfl)
        rw [ha, List.append_nil]
        refine R.stage (t := t) (T' := { T with stage := .kClear }) hT (by simp [State.setStage, State.ev, State.modThr, hT]) rfl (by simp [Stage.gone])
            (fun hth _ hq => ?_) (fun x hx => by simp [State.setStage, State.ev, State.modThr, hx]) rfl (fun a r' q => ⟨r', q, rfl⟩) rfl
        subst hth
        have G := (I.ok _ _ hT).good
        simp only [Good, hst, DetGone, Released] at G
        obtain ⟨⟨j, hj⟩, -⟩ := G
        simp [Quiet, hj] at hq
      · next hst =>
        have hidle := I.idle_of_not_user hT (by simp [hst, Stage.user])
        have ha : access s (.step t) = [] := access_idle hT hidle (by intro r; rw [hst]; rfl)
        rw [ha]
        split at hs
        · split at hs
          · next r hr =>
            injection hs with hs; subst hs
            rw [List.append_nil]
            refine R.stage (t := t) (T' := { T with stage := .kWake }) hT (by simp [State.setStage, State.ev, State.modThr, State.setRec, hT]) rfl
              (by simp [Stage.gone]) (fun _ _ _ => by rw [hst]; trivial)
              (fun x hx => by simp [State.setStage, State.ev, State.modThr, State.setRec, hx]) rfl (fun a r' q => ?_) rfl
            by_cases hth : h = t
            · subst hth
              obtain ⟨v1, v2⟩ := view_some q
              simp only [State.setStage, State.ev, State.modThr, State.setRec] at v1
              split at v1
              · next hat =>
                subst hat
                injection v1 with v1; subst v1
                exact ⟨r, hr, rfl⟩
              · exact ⟨r', view_of v1 v2, rfl⟩
            · refine ⟨r', ?_, rfl⟩
              rw [← q]
              exact (view_other (m := some { r with tid := 0 }) hr (by simp [(view_some hr).2]) a hth _ rfl).symm
          · injection hs with hs; subst hs; exact fault t t
        · injection hs with hs; subst hs
          rw [List.append_nil]
          exact R.stage (t := t) (T' := { T with stage := .dead }) hT (by simp [State.setStage, State.modThr, hT]) rfl
              (by simp [Stage.gone]) (fun _ _ _ => by rw [hst]; trivial)
              (fun x hx => by simp [State.setStage, State.modThr, hx]) rfl (fun a r' q => ⟨r', q, rfl⟩) rfl
      · cases hs
      · cases hs
      · split at hs
        · next hv => injection hs with hs; subst hs; simp only [access, hT, hv]; exact fault t t
        · next r hr =>
          split at hs
          · next c hc =>
            split at hs
            · cases hs
            · split at hs
              · next hv => injection hs with hs; subst hs; simp only [access, hT, hr, hc, hv]; exact fault _ _
              · next rc hrc =>
                have ha : access s (.step t) = callAccess t c := by simp [access, hT, hr, hc, hrc]
                rw [ha]
                by_cases hct : c.target = h
                · exact R.callStep I hw hc hct hrc hs
                · exact R.callOther I hc hct hrc hs
          · next hc =>
            have ha : access s (.step t) = ownAccess t (some r) T.stage := by simp [access, hT, hr, hc]
            rw [ha]
            by_cases hth : t = h
            · subst hth; exact R.ownStep I hw hT hr hs
            · exact R.ownOther hth hT hr hs _
    · cases hs
  | intr t =>
    simp only [Life.step] at hs
    simp only [access, List.append_nil]
    split at hs
    · next k a y hc =>
      injection hs with hs; subst hs
      exact R.intr hc I
    · cases hs
  | wake t j =>
    simp only [Life.step] at hs
    simp only [access, List.append_nil]
    split at hs
    · next T hT =>
      split at hs
      · next hst =>
        split at hs
        · split at hs
          · injection hs with hs; subst hs
            exact R.stage (t := t) (T' := { T with stage := .dead }) hT (by simp [State.setStage, State.modThr, hT]) rfl
              (by simp [Stage.gone]) (fun _ _ _ => by rw [hst]; trivial)
              (fun x hx => by simp [State.setStage, State.modThr, hx]) rfl (fun a r' q => ⟨r', q, rfl⟩) rfl
          · cases hs
        · split at hs
          · next k a y hc =>
            split at hs
            · injection hs with hs; subst hs
              exact R.wake I hT hst hc
            · cases hs
          · cases hs
      · cases hs
    · cases hs
  | signal t =>
    simp only [Life.step] at hs
    simp only [access]
    split at hs
    · split at hs
      · cases hs
      · split at hs
        · cases hs
        · cases hs
        · cases hs
        · split at hs
          · injection hs with hs; subst hs; exact fault t t
          · injection hs with hs; subst hs; rw [List.append_nil]; exact R
    · cases hs

theorem init_rinv (a tid : Nat) : RInv h (init a tid) [.init 0 0] := by
  have key : ∀ i e, ([.init 0 0] : List Acc)[i]? = some e → e.Touches h → h = 0 ∧ i = 0 ∧ e = .init 0 0 := by
    intro i e he ht
    have := lt_of_some he
    have hi : i = 0 := by simp at this; omega
    subst hi
    simp at he; subst he
    exact ⟨ht.symm, rfl, rfl⟩
  refine ⟨fun e x he hx => ?_, fun T q1 _ i e hi ht => ?_, fun T r q1 q2 q3 _ => ?_, fun T q1 q2 _ => ?_, fun j c q _ _ => (by cases q), ?_⟩
  · simp at he; subst he
    simp only [Acc.Touches] at hx; subst hx; simp [init]
  · obtain ⟨rfl, rfl, rfl⟩ := key i e hi ht
    exact .inl ⟨0, hi⟩
  · simp only [init, State.view] at q2
    split at q2
    · next hr =>
      split at hr
      · injection hr with hr; subst hr
        split at q2
        · injection q2 with q2; subst q2; cases q3
        · cases q2
      · cases hr
    · cases q2
  · simp only [init] at q1
    split at q1
    · injection q1 with q1; subst q1; exact absurd q2 (by simp [Stage.Stored])
    · cases q1
  · intro i j x y hij hi hj hx hy
    obtain ⟨-, rfl, -⟩ := key i x hi hx
    obtain ⟨-, rfl, -⟩ := key j y hj hy
    omega

/-- The states of a trace are reachable. -/
theorem Trace.reach {P : State → Action → Prop} (R : Trace sig P s tr) : Reach sig P s := by
  induction R with
  | init a tid ht => exact .init a tid ht
  | step _ hp hs ih => exact .step ih hp hs
  | touch _ _ _ ih => exact ih
  | user _ _ _ _ ih => exact ih

theorem trace_rinv {P : State → Action → Prop} (hI : ∀ s, Reach sig P s → Inv w sig s) (hw : w h = false) (R : Trace sig P s tr) : RInv h s tr := by
  induction R with
  | init a tid ht => exact init_rinv a tid
  | step R' hp hs ih => exact ih.step (hI _ R'.reach) hw hs
  | touch R' hT hu ih =>
    have hu' := (inUser_iff hu).2
    exact ih.touch (hI _ R'.reach) hw hT hu' ⟨_, hT, rfl, user_not_gone hu', user_not_stored hu'⟩ (fun _ _ => rfl) rfl rfl rfl
  | user x _ _ _ ih =>
    exact ih.same _ (by simp [Acc.Touches]) (by simp) (fun _ => id) (fun e x he hx => by simp at he; subst he; exact hx.elim) (fun T' q => ⟨T', q, rfl, id, fun h _ => h⟩) rfl
      (fun _ _ r' q => ⟨r', q, rfl⟩) (fun _ _ _ => Iff.rfl)

end Origin.Life
