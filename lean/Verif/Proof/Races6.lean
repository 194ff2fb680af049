import Verif.Proof.Races5
/-!
# Happens-before across `create` and `join`: whole histories
-/

namespace Origin.Life

variable {w : Inst → Bool} {sig : Bool} {s s' : State} {tr es : List Acc} {h : Inst}

theorem ownStep_log {t : Inst} {T : Thr} {r : Rec} (hs : ownStep sig s t T r = some s') {j y : Inst} {v : Nat} (q : Ev.joined j y v ∈ s'.log) :
    Ev.joined j y v ∈ s.log := by
  cases hst : T.stage <;> simp only [ownStep, hst] at hs <;> (try split at hs) <;> (try cases hs) <;>
    simp [State.setStage, State.modThr, State.setRec, State.ev] at q <;> exact q

theorem ownAccess_ret {t u : Inst} {r : Option Rec} {g : Stage} {b : Bool} (hne : t ≠ h) : .atomic u h .ret b true ∉ ownAccess t r g := by
  cases g <;> simp [ownAccess]
  exact fun _ h' => absurd h'.symm hne

theorem JInv.ownStep (J : JInv h s tr) (I : Inv w sig s) (hw : w h = false) {t : Inst} {T : Thr} {r : Rec} (hT : s.thr t = some T)
    (hv : s.view T.addr t = some r) (hs : Life.ownStep sig s t T r = some s') :
    JInv h s' (tr ++ ownAccess t (some r) T.stage) := by
  obtain ⟨f1, f2, f3, f4, ⟨T', hT', hTa⟩⟩ := ownStep_frame hT hv hs
  have k0 : ∀ x, s.thr x ≠ none → s'.thr x ≠ none := by
    intro x hx
    by_cases hxh : x = t
    · rw [hxh, hT']; simp
    · rw [f3 x hxh]; exact hx
  by_cases hth : t = h
  · subst hth
    have hg : ¬ T.stage.gone := by
      intro hg
      cases hst : T.stage <;> simp [hst, Stage.gone] at hg <;> simp [Life.ownStep, hst] at hs
    refine J.own I hw hT hg k0 (fun e he => ownAccess_actor he) (fun T2 q1 q2 q3 => ?_) f1 (fun j v q => ownStep_log hs q)
    have G := (I.ok _ _ hT).good
    rw [hw, hv] at G
    cases hst : T.stage <;> simp only [Life.ownStep, hst] at hs <;> (try split at hs) <;> (try cases hs) <;>
      simp [State.setStage, State.modThr, State.setRec, State.ev, hT] at q1 <;> subst q1 <;> simp [Stage.Stored] at q2
    · exact .write
    · next ho => simp only [Good, hst] at G; exact absurd G.2.2 ho
    · have ha : ownAccess t (some r) .exitCall = [] := rfl
      rw [ha, List.append_nil]
      exact J.seen T hT (by rw [hst]; trivial) q3
  · refine J.frame _ k0 (fun e he => ?_) (fun e he => by rw [ownAccess_actor he]; exact hth) (fun _ _ => ownAccess_ret hth)
      (fun T2 q1 q2 q3 => ⟨T2, by rw [← f3 h (Ne.symm hth)]; exact q1, q2, q3⟩) (fun j c q1 q2 q3 => ⟨c, by rw [← f1]; exact q1, q2, q3⟩)
      (fun j v q => .inl (ownStep_log hs q))
    rw [ownAccess_actor he, hT']; simp

/-- Another thread, or `h` before its exit, does something in the client's code. -/
theorem JInv.inUser (J : JInv h s tr) (I : Inv w sig s) (hw : w h = false) {t : Inst} {T : Thr} (hT : s.thr t = some T) (hu : T.stage.user) {e : Acc}
    (he : e.actor = t) (hr : ∀ u y b, e ≠ .atomic u y .ret b true)
    (hT' : ∃ T', s'.thr t = some T' ∧ ¬ T'.stage.Stored) (e1 : ∀ x, x ≠ t → s.thr x ≠ none → s'.thr x ≠ none)
    (e1' : h ≠ t → ∀ T', s'.thr h = some T' → T'.stage.Stored → s.thr h = some T') (e2 : s'.call = s.call)
    (e3 : ∀ j v, Ev.joined j h v ∈ s'.log → Ev.joined j h v ∈ s.log) : JInv h s' (tr ++ [e]) := by
  obtain ⟨T', p1, p2⟩ := hT'
  have k0 : ∀ x, s.thr x ≠ none → s'.thr x ≠ none := by
    intro x hx
    by_cases hxt : x = t
    · rw [hxt, p1]; simp
    · exact e1 x hxt hx
  by_cases hth : t = h
  · subst hth
    refine J.own I hw hT (user_not_gone hu) k0 (by simpa using he) (fun T2 q1 q2 _ => ?_) e2 e3
    rw [p1] at q1; injection q1 with q1; subst q1; exact absurd q2 p2
  · refine J.frame _ k0 (fun e' he' => ?_) (fun e' he' => ?_) (fun u b q => ?_) (fun T2 q1 q2 q3 => ⟨T2, e1' (Ne.symm hth) T2 q1 q2, q2, q3⟩)
      (fun j c q1 q2 q3 => ⟨c, by rw [← e2]; exact q1, q2, q3⟩) (fun j v q => .inl (e3 j v q))
    · simp at he'; subst he'; rw [he, p1]; simp
    · simp at he'; subst he'; rw [he]; exact hth
    · simp at q; exact hr _ _ _ q.symm

theorem JInv.step (J : JInv h s tr) (I : Inv w sig s) (hw : w h = false) {x : Action} (hs : Life.step sig s x = some s') :
    JInv h s' (tr ++ access s x) := by
  have fault : ∀ t y, JInv h (s.faulted t y) (tr ++ []) := fun t y =>
    J.quiet (fun _ => id) (fun T' q1 q2 q3 => ⟨T', q1, q2, q3⟩) (fun j c q1 q2 q3 => ⟨c, q1, q2, q3⟩) (fun j v q => by simpa [State.faulted, State.ev] using q)
  -- a change of stage without an access
  have stage : ∀ {s' : State} {t : Inst} {T : Thr} (f : Thr → Thr), s.thr t = some T → s'.thr = (s.modThr t f).thr → s'.call = s.call →
      (∀ j v, Ev.joined j h v ∈ s'.log → Ev.joined j h v ∈ s.log) → ((f T).stage.Stored → (f T).clear = true → T.stage.Stored ∧ T.clear = true) →
      JInv h s' (tr ++ []) := by
    intro s' t T f hT e1 e2 e3 e4
    refine J.quiet (fun y hy => ?_) (fun T' q1 q2 q3 => ?_) (fun j c q1 q2 q3 => ⟨c, by rw [← e2]; exact q1, q2, q3⟩) e3
    · rw [e1]
      simp only [State.modThr]
      split
      · next hyt => subst hyt; rw [hT]; simp
      · exact hy
    · rw [e1] at q1
      rcases modThr_thr q1 with ⟨-, q⟩ | ⟨rfl, X, p1, p2⟩
      · exact ⟨T', q, q2, q3⟩
      · rw [hT] at p1; injection p1 with p1; subst p1; subst p2
        exact ⟨_, hT, e4 q2 q3⟩
  cases x with
  | create t a tid =>
    simp only [Life.step] at hs
    split at hs
    · next T hT =>
      simp only [access, hT]
      split at hs
      · next hc =>
        obtain ⟨c1, c2, c3, c4⟩ := hc
        obtain ⟨-, hu⟩ := inUser_iff c1
        split at hs
        · next hv => injection hs with hs; subst hs; rw [if_pos hv]; exact fault t t
        · next hv =>
          injection hs with hs; subst hs
          rw [if_neg hv]
          have htn : t ≠ s.next := fun h => absurd (I.lt _ _ hT) (by rw [h]; exact Nat.lt_irrefl _)
          refine J.inUser I hw hT hu rfl (by simp) ⟨T, by simp [State.ev, htn, hT], user_not_stored hu⟩ (fun x _ hx => ?_) (fun _ T' q1 q2 => ?_) rfl
            (fun j v q => by simpa [State.ev, State.modThr, State.setCall, State.setCons] using q)
          · simp only [State.ev]
            split
            · simp
            · exact hx
          · simp only [State.ev] at q1
            split at q1
            · injection q1 with q1; subst q1; exact q2.elim
            · exact q1
      · cases hs
    · cases hs
  | ret t v =>
    simp only [Life.step] at hs
    simp only [access]
    split at hs
    · next T hT =>
      split at hs
      · next hc =>
        split at hs
        · injection hs with hs; subst hs; exact fault t t
        · injection hs with hs; subst hs
          exact stage _ hT rfl rfl (fun j v q => by simpa [State.ev, State.modThr, State.setCall, State.setCons] using q) (fun q => q.elim)
      · cases hs
    · cases hs
  | dtorsDone t =>
    simp only [Life.step] at hs
    split at hs
    · next T hT =>
      simp only [access, hT]
      split at hs
      · next v hst hc =>
        split at hs
        · next hv => injection hs with hs; subst hs; rw [if_pos hv]; exact fault t t
        · next hv =>
          injection hs with hs; subst hs
          rw [if_neg hv]
          exact J.inUser I hw hT (by rw [hst]; trivial) rfl (by simp)
            ⟨{ T with stage := .cas v }, by simp [State.setStage, State.modThr, hT], by simp [Stage.Stored]⟩
            (fun x hx => by simp [State.setStage, State.modThr, hx]) (fun hne T' q _ => by simpa [State.setStage, State.modThr, hne] using q) rfl
            (fun _ _ => id)
      · cases hs
    · cases hs
  | join t y =>
    simp only [Life.step] at hs
    simp only [access]
    split at hs
    · next T H hT hH =>
      split at hs
      · next hc =>
        split at hs
        · injection hs with hs; subst hs; exact fault t t
        · injection hs with hs; subst hs
          refine J.quiet (fun _ => id) (fun T' q1 q2 q3 => ⟨T', q1, q2, q3⟩) (fun j c q1 q2 q3 => ?_) (fun j v q => by simpa [State.ev, State.modThr, State.setCall, State.setCons] using q)
          simp only [State.ev, State.setCons, State.setCall] at q1
          split at q1
          · injection q1 with q1; subst q1; exact q3.elim
          · exact ⟨c, q1, q2, q3⟩
      · cases hs
    · cases hs
  | detach t y =>
    simp only [Life.step] at hs
    simp only [access]
    split at hs
    · next T H hT hH =>
      split at hs
      · next hc =>
        split at hs
        · injection hs with hs; subst hs; exact fault t t
        · injection hs with hs; subst hs
          refine J.quiet (fun _ => id) (fun T' q1 q2 q3 => ⟨T', q1, q2, q3⟩) (fun j c q1 q2 q3 => ?_) (fun j v q => by simpa [State.ev, State.modThr, State.setCall, State.setCons] using q)
          simp only [State.ev, State.setCons, State.setCall] at q1
          split at q1
          · injection q1 with q1; subst q1; exact q3.elim
          · exact ⟨c, q1, q2, q3⟩
      · cases hs
    · cases hs
  | id t y =>
    simp only [Life.step] at hs
    simp only [access]
    split at hs
    · next T H hT hH =>
      split at hs
      · split at hs
        · injection hs with hs; subst hs; exact fault t t
        · split at hs
          · injection hs with hs; subst hs
            exact J.quiet (fun _ => id) (fun T' q1 q2 q3 => ⟨T', q1, q2, q3⟩) (fun j c q1 q2 q3 => ⟨c, q1, q2, q3⟩)
              (fun j v q => by simpa [State.ev, State.modThr, State.setCall, State.setCons] using q)
          · injection hs with hs; subst hs; exact fault t y
      · cases hs
    · cases hs
  | step t =>
    simp only [Life.step] at hs
    split at hs
    · next T hT =>
      split at hs
      · next hst =>
        injection hs with hs; subst hs
        have hidle := I.idle_of_not_user hT (by simp [hst, Stage.user])
        have ha : access s (.step t) = [] := access_idle hT hidle (by intro r; rw [hst]; rfl)
        rw [ha]
        refine stage _ hT rfl rfl (fun j v q => by simpa [State.setStage, State.modThr, State.ev] using q) (fun _ q => ?_)
        have G := (I.ok _ _ hT).good
        simp only [Good, hst, DetGone] at G
        rw [G.2.2.1] at q; cases q
      · next hst =>
        have hidle := I.idle_of_not_user hT (by simp [hst, Stage.user])
        have ha : access s (.step t) = [] := access_idle hT hidle (by intro r; rw [hst]; rfl)
        rw [ha]
        split at hs
        · split at hs
          · next r hr =>
            injection hs with hs; subst hs
            exact stage _ hT rfl rfl (fun j v q => by simpa [State.setStage, State.modThr, State.ev, State.setRec] using q)
              (fun _ q => ⟨by rw [hst]; trivial, q⟩)
          · injection hs with hs; subst hs; exact fault t t
        · injection hs with hs; subst hs
          exact stage _ hT rfl rfl (fun j v q => by simpa [State.setStage, State.modThr] using q) (fun _ q => ⟨by rw [hst]; trivial, q⟩)
      · cases hs
      · cases hs
      · split at hs
        · next hv => injection hs with hs; subst hs; simp only [access, hT, hv]; exact fault t t
        · next r hr =>
          split at hs
          · next c hc =>
            split at hs
            · cases hs
            · split at hs
              · next hv => injection hs with hs; subst hs; simp only [access, hT, hr, hc, hv]; exact fault _ _
              · next rc hrc =>
                have ha : access s (.step t) = callAccess t c := by simp [access, hT, hr, hc, hrc]
                rw [ha]
                exact J.callStep I hw hT hc hrc hs
          · next hc =>
            have ha : access s (.step t) = ownAccess t (some r) T.stage := by simp [access, hT, hr, hc]
            rw [ha]
            exact J.ownStep I hw hT hr hs
    · cases hs
  | intr t =>
    simp only [Life.step] at hs
    simp only [access]
    split at hs
    · next k a y hc =>
      injection hs with hs; subst hs
      refine J.quiet (fun _ => id) (fun T' q1 q2 q3 => ⟨T', q1, q2, q3⟩) (fun j c q1 q2 q3 => ?_) (fun _ _ => id)
      simp only [State.setCall] at q1
      split at q1
      · injection q1 with q1; subst q1; exact q3.elim
      · exact ⟨c, q1, q2, q3⟩
    · cases hs
  | wake t j =>
    simp only [Life.step] at hs
    simp only [access]
    split at hs
    · next T hT =>
      split at hs
      · next hst =>
        split at hs
        · split at hs
          · injection hs with hs; subst hs
            exact stage _ hT rfl rfl (fun j v q => by simpa [State.setStage, State.modThr] using q) (fun _ q => ⟨by rw [hst]; trivial, q⟩)
          · cases hs
        · split at hs
          · next k a y hc =>
            split at hs
            · injection hs with hs; subst hs
              refine J.quiet (fun x hx => ?_) (fun T' q1 q2 q3 => ?_) (fun j' c q1 q2 q3 => ?_) (fun _ _ => id)
              · simp only [State.setCons, State.setCall, State.setStage, State.modThr]
                split
                · next hxt => subst hxt; rw [hT]; simp
                · exact hx
              · rcases modThr_thr q1 with ⟨-, q⟩ | ⟨rfl, X, p1, p2⟩
                · exact ⟨T', q, q2, q3⟩
                · rw [hT] at p1; injection p1 with p1; subst p1; subst p2
                  exact ⟨_, hT, by rw [hst]; trivial, q3⟩
              · simp only [State.setCons, State.setCall] at q1
                split at q1
                · injection q1 with q1; subst q1
                  cases k <;> exact q3.elim
                · exact ⟨c, q1, q2, q3⟩
            · cases hs
          · cases hs
      · cases hs
    · cases hs
  | signal t =>
    simp only [Life.step] at hs
    simp only [access]
    split at hs
    · split at hs
      · cases hs
      · split at hs
        · cases hs
        · cases hs
        · cases hs
        · split at hs
          · injection hs with hs; subst hs; exact fault t t
          · injection hs with hs; subst hs; rw [List.append_nil]; exact J
    · cases hs

theorem init_jinv (a tid : Nat) : JInv h (init a tid) [.init 0 0] := by
  refine ⟨fun e he => ?_, fun T q1 q2 _ => ?_, fun j c q _ _ => (by cases q), fun j v q => by simp [init] at q⟩
  · simp at he; subst he; simp [init, Acc.actor]
  · simp only [init] at q1
    split at q1
    · injection q1 with q1; subst q1; exact q2.elim
    · cases q1

theorem trace_jinv {P : State → Action → Prop} (hI : ∀ s, Reach sig P s → Inv w sig s) (hw : w h = false) (R : Trace sig P s tr) : JInv h s tr := by
  induction R with
  | init a tid ht => exact init_jinv a tid
  | step R' hp hs ih => exact ih.step (hI _ R'.reach) hw hs
  | touch R' hT hu ih =>
    have hu' := (inUser_iff hu).2
    exact ih.inUser (hI _ R'.reach) hw hT hu' rfl (by simp) ⟨_, hT, user_not_stored hu'⟩ (fun _ _ => id) (fun _ T' q _ => q) rfl (fun _ _ => id)
  | user x R' hT hu ih =>
    have hu' := (inUser_iff hu).2
    exact ih.inUser (hI _ R'.reach) hw hT hu' rfl (by simp) ⟨_, hT, user_not_stored hu'⟩ (fun _ _ => id) (fun _ T' q _ => q) rfl (fun _ _ => id)

/-- Whatever `j` does next comes after what happens before it. -/
theorem Bef.later {i k : Nat} {j : Inst} {e : Acc} (B : Bef tr i j) (hk : (tr ++ es)[k]? = some e) (hl : tr.length ≤ k) (he : e.actor = j) :
    HB (tr ++ es) i k := by
  rcases B with ⟨p, hi⟩ | ⟨m, b, h1, h2, h3⟩
  · exact .spawn (by have := lt_of_some hi; omega) (some_app es hi) hk he
  · have hmk : HB (tr ++ es) m k := .po (by have := lt_of_some h1; omega) (some_app es h1) hk (h2.trans he.symm)
    rcases h3 with rfl | h3
    · exact hmk
    · exact .trans (h3.app es) hmk

/-! ### `create` -/

structure CInv (s : State) (tr : List Acc) : Prop where
  acted : ∀ a ∈ tr, s.thr a.actor ≠ none
  made : ∀ (k : Nat) p h, tr[k]? = some (.init p h) → s.thr h ≠ none
  order : ∀ (k m : Nat) p h b, tr[k]? = some (.init p h) → tr[m]? = some b → b.actor = h → k ≤ m
  ne : ∀ (k : Nat) p h, tr[k]? = some (.init p h) → h ≠ 0 → p ≠ h

/-- Accesses by existing threads other than creations. -/
theorem CInv.app (C : CInv s tr) (k0 : ∀ x, s.thr x ≠ none → s'.thr x ≠ none) (h1 : ∀ e ∈ es, s.thr e.actor ≠ none)
    (h2 : ∀ p h, .init p h ∉ es) : CInv s' (tr ++ es) := by
  refine ⟨fun a ha => ?_, fun k p h hk => ?_, fun k m p h b hk hm hb => ?_, fun k p h hk h0 => ?_⟩
  · rcases List.mem_append.mp ha with ha | ha
    · exact k0 _ (C.acted a ha)
    · exact k0 _ (h1 a ha)
  · rcases getElem?_app hk with hk | hk
    · exact k0 _ (C.made k p h hk)
    · exact absurd hk (h2 p h)
  · rcases getElem?_app hk with hk | hk
    · rcases getElem?_app hm with hm | _
      · exact C.order k m p h b hk hm hb
      · by_cases hl : m < tr.length
        · rw [List.getElem?_append_left hl] at hm; exact C.order k m p h b hk hm hb
        · have := lt_of_some hk; omega
    · exact absurd hk (h2 p h)
  · rcases getElem?_app hk with hk | hk
    · exact C.ne k p h hk h0
    · exact absurd hk (h2 p h)

/-- A creation. -/
theorem CInv.create (C : CInv s tr) (k0 : ∀ x, s.thr x ≠ none → s'.thr x ≠ none) {t n : Inst} (ht : s.thr t ≠ none) (hn : s.thr n = none)
    (hn' : s'.thr n ≠ none) : CInv s' (tr ++ [.init t n]) := by
  refine ⟨fun a ha => ?_, fun k p h hk => ?_, fun k m p h b hk hm hb => ?_, fun k p h hk h0 => ?_⟩
  · rcases List.mem_append.mp ha with ha | ha
    · exact k0 _ (C.acted a ha)
    · simp at ha; subst ha; exact k0 _ ht
  · rcases getElem?_app hk with hk | hk
    · exact k0 _ (C.made k p h hk)
    · simp at hk; rw [hk.2]; exact hn'
  · have hm' := lt_of_some hm
    simp at hm'
    by_cases hkl : k < tr.length
    · by_cases hml : m < tr.length
      · rw [List.getElem?_append_left hkl] at hk
        rw [List.getElem?_append_left hml] at hm
        exact C.order k m p h b hk hm hb
      · omega
    · have hk' := lt_of_some hk
      simp at hk'
      have : k = tr.length := by omega
      subst this
      rw [last_get] at hk
      injection hk with hk; injection hk with hp hh
      by_cases hml : m < tr.length
      · rw [List.getElem?_append_left hml] at hm
        exact absurd (by rw [hb, ← hh]; exact hn) (C.acted b (List.mem_of_getElem? hm))
      · omega
  · rcases getElem?_app hk with hk | hk
    · exact C.ne k p h hk h0
    · simp at hk
      rw [hk.1, hk.2]
      intro hc; rw [hc] at ht; exact ht hn

theorem step_thr {x : Action} (hs : Life.step sig s x = some s') : ∀ y, s.thr y ≠ none → s'.thr y ≠ none := by
  have hm : ∀ {s : State} {t : Inst} {f : Thr → Thr} y, s.thr y ≠ none → (s.modThr t f).thr y ≠ none := by
    intro s t f y hy
    simp only [State.modThr]
    split
    · cases hq : s.thr y with
      | none => exact absurd hq hy
      | some T => simp
    · exact hy
  intro y hy
  cases x <;> simp only [Life.step] at hs <;> (repeat' split at hs) <;> (try cases hs) <;> (try exact hy) <;> (try exact hm y hy)
  · simp only [State.ev]
    split
    · simp
    · exact hy
  · rw [callStep_thr hs]; exact hy
  · rename_i t _ T hT _ _ _ _ _ _ r hr _ hc
    obtain ⟨-, -, f3, -, ⟨T', hT', -⟩⟩ := ownStep_frame hT hr hs
    by_cases hyt : y = t
    · rw [hyt, hT']; simp
    · rw [f3 y hyt]; exact hy

theorem access_actor {x : Action} {e : Acc} (he : e ∈ access s x) : s.thr e.actor ≠ none := by
  cases x <;> simp only [access] at he <;> (repeat' split at he) <;> (try simp at he)
  · next T hT _ => subst he; simp [Acc.actor, hT]
  · next T hT _ => subst he; simp [Acc.actor, hT]
  · rename_i T hT _ _ _ _ _; rw [callAccess_actor he, hT]; simp
  · rename_i T hT _ _ _; rw [ownAccess_actor he, hT]; simp

theorem access_init {x : Action} {p n : Inst} (he : .init p n ∈ access s x) : n = s.next ∧ access s x = [.init p n] ∧ ∃ a tid, x = .create p a tid := by
  cases x <;> simp only [access] at he ⊢ <;> (repeat' split at he) <;> (try simp at he)
  · next h1 h2 => obtain ⟨rfl, rfl⟩ := he; simp [h1, h2]
  · next c _ _ => cases c <;> simp [callAccess] at he
  · rename_i T _ _ _ _; cases hst : T.stage <;> simp [ownAccess, hst] at he

theorem CInv.step (C : CInv s tr) (I : Inv w sig s) {x : Action} (hs : Life.step sig s x = some s') : CInv s' (tr ++ access s x) := by
  have k0 := step_thr hs
  by_cases h : ∃ p n, .init p n ∈ access s x
  · obtain ⟨p, n, he⟩ := h
    obtain ⟨rfl, h2, a, tid, rfl⟩ := access_init he
    rw [h2]
    have hp : s.thr p ≠ none := access_actor he
    refine C.create k0 hp ?_ ?_
    · cases hq : s.thr s.next with
      | none => rfl
      | some N => exact absurd (I.lt _ _ hq) (Nat.lt_irrefl _)
    · simp only [access] at h2
      simp only [Life.step] at hs
      split at h2
      · next T hT =>
        rw [hT] at hs
        split at h2
        · cases h2
        · next hv =>
          simp only [hv] at hs
          split at hs
          · simp at hs; subst hs; simp [State.ev]
          · cases hs
      · cases h2
  · exact C.app k0 (fun e he => access_actor he) (fun p n he => h ⟨p, n, he⟩)

theorem trace_cinv {P : State → Action → Prop} (hI : ∀ s, Reach sig P s → Inv w sig s) (R : Trace sig P s tr) : CInv s tr := by
  induction R with
  | init a tid ht =>
    have hl : ∀ (k : Nat) (b : Acc), ([.init 0 0] : List Acc)[k]? = some b → k = 0 ∧ b = .init 0 0 := by
      intro k b hk
      have := lt_of_some hk
      have hk0 : k = 0 := by simp at this; omega
      subst hk0
      simp at hk; exact ⟨rfl, hk.symm⟩
    refine ⟨fun e he => ?_, fun k p h hk => ?_, fun k m p h b hk _ _ => ?_, fun k p h hk h0 => ?_⟩
    · simp at he; subst he; simp [init, Acc.actor]
    · obtain ⟨-, hk⟩ := hl k _ hk
      injection hk with _ hk; subst hk; simp [init]
    · rw [(hl k _ hk).1]; exact Nat.zero_le _
    · obtain ⟨-, hk⟩ := hl k _ hk
      injection hk with _ hk; exact absurd hk h0
  | step R' hp hs ih => exact ih.step (hI _ R'.reach) hs
  | touch R' hT hu ih => exact ih.app (fun _ => id) (by simp [Acc.actor, hT]) (by simp)
  | user x R' hT hu ih => exact ih.app (fun _ => id) (by simp [Acc.actor, hT]) (by simp)

end Origin.Life
