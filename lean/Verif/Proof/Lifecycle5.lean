import Verif.Proof.Lifecycle4
/-!
# The lifecycle invariant: creation, wake-ups, and every reachable state
-/

namespace Origin.Life

variable {w : Inst → Bool} {b sig : Bool} {s s' : State}

theorem all_range {n : Nat} {p : Nat → Bool} (h : (List.range n).all p = true) {i : Nat} (hi : i < n) : p i = true := by
  rw [List.all_eq_true] at h
  exact h i (List.mem_range.mpr hi)

theorem create_inv (I : Inv w sig s) {t a tid : Nat} (hfree : s.recs a = none) (htid : tid ≠ 0)
    (huniq : s.tidFree tid = true) :
    Inv w sig ({ s with
          recs := fun x => if x = a then some ⟨s.next, tid, .initial, 0, true⟩ else s.recs x,
          thr := fun x => if x = s.next then
            some ⟨a, tid, .born, true, false, none, false⟩ else s.thr x,
          next := s.next + 1 }.ev (.created t s.next a tid)) := by
  have hn : s.thr s.next = none := by
    cases h : s.thr s.next with
    | none => rfl
    | some T => exact absurd (I.lt _ T h) (Nat.lt_irrefl _)
  have hc : s.cons s.next = none := by
    cases h : s.cons s.next with
    | none => rfl
    | some c => exact absurd hn (I.consThr _ (by rw [h]; simp))
  have hnew : ∀ e ∈ s.log, e.about ≠ s.next := fun e he h => by
    obtain ⟨T, hT⟩ := I.logThr e he
    rw [h, hn] at hT; cases hT
  generalize hs' : ({ s with
          recs := fun x => if x = a then some ⟨s.next, tid, .initial, 0, true⟩ else s.recs x,
          thr := fun x => if x = s.next then
            some ⟨a, tid, .born, true, false, none, false⟩ else s.thr x,
          next := s.next + 1 }.ev (.created t s.next a tid) : State) = s'
  have e1 : ∀ x, s'.recs x = if x = a then some ⟨s.next, tid, .initial, 0, true⟩ else s.recs x := by
    intro x; rw [← hs']; rfl
  have e2 : ∀ x, s'.thr x = if x = s.next then some ⟨a, tid, .born, true, false, none, false⟩ else s.thr x := by
    intro x; rw [← hs']; rfl
  have e3 : s'.next = s.next + 1 := by rw [← hs']; rfl
  have e4 : s'.log = .created t s.next a tid :: s.log := by rw [← hs']; rfl
  have e5 : s'.call = s.call := by rw [← hs']; rfl
  have e6 : s'.cons = s.cons := by rw [← hs']; rfl
  clear hs'
  have hview : ∀ y Y, s.thr y = some Y → s'.view Y.addr y = s.view Y.addr y := by
    intro y Y hy
    have hne : s.next ≠ y := fun h => by rw [h, hy] at hn; cases hn
    unfold State.view
    rw [e1]
    by_cases h : Y.addr = a
    · rw [if_pos h, h, hfree]; simp [hne]
    · rw [if_neg h]
  have old : ∀ y Y, y ≠ s.next → s'.thr y = some Y → s.thr y = some Y := by
    intro y Y h1 h2; rw [e2, if_neg h1] at h2; exact h2
  have keep : ∀ y Y, s.thr y = some Y → s'.thr y = some Y := by
    intro y Y h
    have hne : y ≠ s.next := fun h' => by rw [h', hn] at h; cases h
    rw [e2, if_neg hne]; exact h
  constructor
  · rw [e3]; exact Nat.succ_ne_zero _
  · intro h T hT
    rw [e3]
    by_cases hh : h = s.next
    · rw [hh]; exact Nat.lt_succ_self _
    · exact Nat.lt_succ_of_lt (I.lt h T (old h T hh hT))
  · intro h hh
    rw [e6] at hh
    have := I.consThr h hh
    cases ht : s.thr h with
    | none => exact absurd ht this
    | some T => rw [keep h T ht]; simp
  · intro h T hT
    rw [e6]
    by_cases hh : h = s.next
    · subst hh
      rw [e2, if_pos rfl] at hT
      injection hT with hT; subst hT
      have hv : s'.view a s.next = some ⟨s.next, tid, .initial, 0, true⟩ := view_of (by rw [e1, if_pos rfl]) rfl
      rw [hv, hc, e4]
      have hnm : ∀ e : Ev, e.about = s.next → e ∉ s.log := fun e he hm => hnew e hm he
      refine ⟨⟨⟨rfl, .inr ⟨_, rfl, rfl, .inl ⟨rfl, .inl rfl⟩⟩⟩, rfl⟩, ?_, ⟨?_, ?_, fun h0 => absurd h0 I.nextPos⟩, htid⟩
      · constructor <;> try intros
        · simp [hnm (.returned s.next _) rfl]
        · simp [hnm (.exited s.next) rfl, Stage.gone]
        · simp [hnm (.cleared s.next) rfl, Stage.past]
        · simp [hnm (.joinCall _ s.next) rfl]
        · simp [hnm (.detachCall _ s.next) rfl]
        · next h => simp [hnm (.joined _ s.next _) rfl] at h
        · simp [hnm (.detachDone _ s.next) rfl]
        · exact ⟨t, List.mem_cons_self⟩
        · next h => simp [hnm (.created _ s.next _ _) rfl] at h; exact ⟨h.2.1, h.2.2⟩
        · simp; intro j; exact hnm (.unmap s.next j) rfl
        · rw [unmaps_cons_other (by simp), unmaps_zero (fun j => hnm (.unmap s.next j) rfl)]; omega
      · intro h0; exact absurd h0 I.nextPos
      · intro r hr; injection hr with hr; subst hr
        simpa using I.nextPos
    · have hT' := old h T hh hT
      have O := I.ok h T hT'
      rw [hview h T hT', e4]
      exact ⟨O.good, O.link.frame (fun h' => hh h'.symm), O.main, O.tid⟩
  · intro b r hr
    rw [e1] at hr
    by_cases hb : b = a
    · rw [if_pos hb] at hr
      injection hr with hr; subst hr
      exact ⟨_, by rw [e2, if_pos rfl], hb.symm⟩
    · rw [if_neg hb] at hr
      obtain ⟨T, h1, h2⟩ := I.recOk b r hr
      exact ⟨T, keep _ _ h1, h2⟩
  · intro j c hj
    rw [e5] at hj
    obtain ⟨⟨T, a1, a2⟩, ⟨H, b1, b2⟩, c1⟩ := I.callOk j c hj
    exact ⟨⟨T, keep _ _ a1, a2⟩, ⟨H, keep _ _ b1, b2⟩, by rw [e6]; exact c1⟩
  · intro e he
    rw [e4] at he
    rcases List.mem_cons.mp he with rfl | he
    · exact ⟨_, by rw [e2]; exact if_pos rfl⟩
    · obtain ⟨T, hT⟩ := I.logThr e he
      exact ⟨T, keep _ _ hT⟩
  · rw [e4]; exact ⟨trivial, I.trace⟩
  · intro h T h' T' h1 h2 d1 d2 heq
    have fresh : ∀ y Y, s.thr y = some Y → Y.stage ≠ .dead → Y.tid ≠ tid := by
      intro y Y hy hd
      have := all_range huniq (I.lt y Y hy)
      simp only [hy] at this
      simpa [hd] using this
    by_cases hh : h = s.next <;> by_cases hh' : h' = s.next
    · rw [hh, hh']
    · exfalso
      rw [e2, if_pos hh] at h1; injection h1 with h1; subst h1
      exact fresh h' T' (old _ _ hh' h2) d2 heq.symm
    · exfalso
      rw [e2, if_pos hh'] at h2; injection h2 with h2; subst h2
      exact fresh h T (old _ _ hh h1) d1 heq
    · exact I.tids h T h' T' (old _ _ hh h1) (old _ _ hh' h2) d1 d2 heq
  · intro T0 y Y h0 hy hne
    have h0' := old 0 T0 (fun h => I.nextPos h.symm) h0
    by_cases hyn : y = s.next
    · rw [e2, if_pos hyn] at hy; injection hy with hy; subst hy
      intro ha
      refine ((I.ok 0 T0 h0').main.2.2 rfl).1 ?_
      show s.view T0.addr 0 = none
      unfold State.view
      rw [← ha, hfree]
    · exact I.mainAddr T0 y Y h0' (old y Y hyn hy) hne

theorem Inv.waiter_unique (I : Inv w sig s) {j j' h h' a : Nat} {k k' : Kind} (h1 : s.call j = some (.blocked k a h))
    (h2 : s.call j' = some (.blocked k' a h')) : j = j' ∧ h = h' := by
  have C1 := I.callOk _ _ h1
  have C2 := I.callOk _ _ h2
  obtain ⟨H, q1, q2, -⟩ := C1.target
  obtain ⟨H', r1, r2, -⟩ := C2.target
  have G := (I.ok _ _ q1).good
  have G' := (I.ok _ _ r1).good
  rw [C1.cons] at G
  rw [C2.cons] at G'
  obtain ⟨r, hr, -⟩ := G.waitRec
  obtain ⟨r', hr', -⟩ := G'.waitRec
  rw [q2] at hr
  rw [r2] at hr'
  obtain ⟨a1, a2⟩ := view_some hr
  obtain ⟨b1, b2⟩ := view_some hr'
  simp only [Call.addr] at a1 b1
  rw [a1] at b1; injection b1 with b1; subst b1
  have hh : h = h' := a2.symm.trans b2
  refine ⟨?_, hh⟩
  subst hh
  have e1 := C1.cons
  have e2 := C2.cons
  simp only [Call.target] at e1 e2
  rw [e1] at e2
  injection e2 with e2
  exact congrArg Prod.fst e2

theorem wake_inv (I : Inv w sig s) {t j h a : Nat} {T : Thr} {k : Kind} (hT : s.thr t = some T) (hk : T.stage = .kWake)
    (hj : s.call j = some (.blocked k a h)) (ha : a = T.addr) (hcl : w h = true ∨ Ev.cleared h ∈ s.log) :
    Inv w sig (((s.setStage t .dead).setCall j (some (afterWait k a h))).setCons h (j, k, .freeing)) := by
  subst ha
  have C := I.callOk _ _ hj
  obtain ⟨J, hJ, hu⟩ := C.actor
  obtain ⟨H, hH, hHa, -⟩ := C.target
  simp only [Call.target, Call.addr] at hH hHa
  have O := I.ok _ _ hH
  have G := O.good
  have hc := C.cons
  simp only [Call.target, Call.kind, Call.phase] at hc
  rw [hc] at G
  obtain ⟨r, hr, hor⟩ := G.waitRec
  have hz : w h = true ∨ r.tid = 0 := by
    refine hcl.imp id fun hcl => ?_
    obtain ⟨c1, c2⟩ := O.link.cl.mp hcl
    rw [hr] at G
    cases hs : H.stage <;> simp only [Good, hs, Live, Stuck, Aband, Lost, Over, Det, DetGone, Released, Pending] at G <;>
      simp [hs, Stage.past] at c2 <;> cases k <;> simp at G <;> grind
  have h0 : h ≠ 0 := by
    rintro rfl
    by_cases ht0 : t = 0
    · subst ht0
      rw [hT] at hH; injection hH with hH; subst hH
      rw [O.main.1 rfl] at hk; cases hk
    · exact I.mainAddr H t T hH hT ht0 hHa.symm
  have I1 := startFree_inv I hJ hu hH hc (I.noSelfTarget hj rfl) hr hz h0
  rw [hHa] at I1
  have I2 := dead_inv I1 (t := t) (T := T) hT (.inl hk) (.inr <| by
    intro j' k' a' hb
    simp only [State.setCall, State.setCons] at hb
    by_cases hjj : j' = j
    · rw [if_pos hjj] at hb; cases k <;> cases hb
    · rw [if_neg hjj] at hb
      have C' := I.callOk _ _ hb
      obtain ⟨H', q1, q2, -⟩ := C'.target
      simp only [Call.target, Call.addr] at q1 q2
      rw [hT] at q1; injection q1 with q1; subst q1
      subst q2
      exact hjj (I.waiter_unique hb hj).1)
  exact I2

theorem recs_none {a : Nat} (h : (s.recs a).isNone = true) : s.recs a = none := by simpa using h

theorem fault_inv (I : Inv w sig s) {t : Inst} (hw : w t = true) {T : Thr} (hT : s.thr t = some T) : Inv w sig (s.faulted t t) := by
  have O := I.ok t T hT
  have L := O.link
  refine inv_upd I t [.fault t t] hT hT rfl rfl (by frame) (by frame) (by frame) (.inl rfl) rfl (by frame) rfl
    ⟨O.good, ?_, O.main, O.tid⟩ ?_ ⟨⟨rfl, hw⟩, I.trace⟩ id
  · show Link t T (s.cons t) (s.view T.addr t) (.fault t t :: s.log)
    constructor <;> try intros
    · simp [L.ret]
    · simp [L.ex]
    · simp [L.cl]
    · simp [L.jc]
    · simp [L.dc]
    · next h => simp at h; exact L.jd _ _ h
    · simp [L.dd]
    · obtain ⟨p, hp⟩ := L.cr; exact ⟨p, List.mem_cons_of_mem _ hp⟩
    · next h => simp at h; exact L.cr1 _ _ _ h
    · exact (by simp : (∃ j, Ev.unmap t j ∈ Ev.fault t t :: s.log) ↔ ∃ j, Ev.unmap t j ∈ s.log).trans L.um
    · rw [unmaps_cons_other (by simp)]; exact L.um1
  · intro j c hc
    have C := I.callOk j c hc
    exact ⟨C.actor, C.target, C.cons⟩

theorem step_inv (I : Inv w sig s) {x : Action} (h1 : ∀ h, w h = true ∨ ¬ StrayFor h s x) (h2 : ∀ h, w h = true ∨ sig = true ∨ ¬ LateSignalFor h s x)
    (h : step sig s x = some s') : Inv w sig s' := by
  have notFault : ∀ {t T}, s.thr t = some T → T.stage ≠ .dExit → ¬ T.stage.gone → (s.view T.addr t).isNone = true → Inv w sig (s.faulted t t) := by
    intro t T hT q1 q2 hv
    rcases (I.ok t T hT).good.stage_rec q1 q2 with hw | ⟨r, hr⟩
    · exact fault_inv I hw hT
    · rw [hr] at hv; simp at hv
  have userOk : ∀ {t T}, s.thr t = some T → T.stage.user → (s.view T.addr t).isNone = true → Inv w sig (s.faulted t t) := by
    intro t T hT hu hv
    exact notFault hT (by intro h; rw [h] at hu; exact hu) (by intro h; cases hs : T.stage <;> simp_all [Stage.user, Stage.gone]) hv
  cases x with
  | create t a tid =>
    simp only [step] at h
    split at h
    · next T hT =>
      split at h
      · next hc =>
        obtain ⟨c1, c2, c3, c4⟩ := hc
        obtain ⟨-, hu⟩ := inUser_iff c1
        split at h
        · next hv => injection h with h; subst h; exact userOk hT hu hv
        · injection h with h; subst h
          exact create_inv I (recs_none c2) c3 c4
      · cases h
    · cases h
  | ret t v =>
    simp only [step] at h
    split at h
    · next T hT =>
      split at h
      · next hc =>
        obtain ⟨c1, c2, c3⟩ := hc
        split at h
        · next hv => injection h with h; subst h; exact userOk hT (by rw [c2]; trivial) hv
        · injection h with h; subst h
          exact ret_inv I hT c2 (by simpa using c1) c3
      · cases h
    · cases h
  | dtorsDone t =>
    simp only [step] at h
    split at h
    · next T hT =>
      split at h
      · next v hs hc =>
        split at h
        · next hv => injection h with h; subst h; exact userOk hT (by rw [hs]; trivial) hv
        · injection h with h; subst h
          exact dtorsDone_inv I hT hs hc
      · cases h
    · cases h
  | join t y =>
    simp only [step] at h
    split at h
    · next T H hT hH =>
      split at h
      · next hc =>
        obtain ⟨-, hu⟩ := inUser_iff hc.1
        split at h
        · next hv => injection h with h; subst h; exact userOk hT hu hv
        · injection h with h; subst h
          exact join_inv I hT hu hH (by simpa using hc.2)
      · cases h
    · cases h
  | detach t y =>
    simp only [step] at h
    split at h
    · next T H hT hH =>
      split at h
      · next hc =>
        obtain ⟨-, hu⟩ := inUser_iff hc.1
        split at h
        · next hv => injection h with h; subst h; exact userOk hT hu hv
        · injection h with h; subst h
          exact detach_inv I hT hu hH (by simpa using hc.2)
      · cases h
    · cases h
  | id t y =>
    simp only [step] at h
    split at h
    · next T H hT hH =>
      split at h
      · next hc =>
        obtain ⟨-, hu⟩ := inUser_iff hc.1
        split at h
        · next hv => injection h with h; subst h; exact userOk hT hu hv
        · split at h
          · next r hr =>
            injection h with h; subst h
            exact id_inv I hH hr
          · next hv =>
            injection h with h; subst h
            rcases hc.2 with h' | h'
            · exfalso
              have G := (I.ok _ _ hH).good
              rw [show s.cons y = none by simpa using h'] at G
              obtain ⟨r, hr⟩ := G.none_rec
              rw [hr] at hv; cases hv
            · subst h'
              rw [hT] at hH; injection hH with hH; subst hH
              exact userOk hT hu (by rw [hv]; rfl)
      · cases h
    · cases h
  | step t =>
    simp only [step] at h
    split at h
    · next T hT =>
      split at h
      · next hs =>
        injection h with h; subst h
        exact dExit_inv I hT hs
      · next hs =>
        split at h
        · next hcl =>
          split at h
          · next r hr =>
            injection h with h; subst h
            exact kClear_inv I hT hs hcl hr
          · next hr =>
            injection h with h; subst h
            refine fault_inv I ?_ hT
            have G := (I.ok _ _ hT).good
            simp only [Good, hs, Aband, DetGone, Lost] at G
            rw [hr, hcl] at G
            simp at G
            exact G.2.1
        · next hcl =>
          injection h with h; subst h
          refine dead_inv I hT (.inr ⟨hs, by simpa using hcl⟩) (Classical.or_iff_not_imp_left.mpr fun hfk => ?_)
          intro j k a hb
          have C := I.callOk _ _ hb
          have G := (I.ok _ _ hT).good
          have hc := C.cons
          simp only [Call.target, Call.kind, Call.phase] at hc
          rw [hc] at G
          simp only [Good, hs, Aband, DetGone, Lost, Released] at G
          simp [hcl, hfk] at G
      · cases h
      · cases h
      · next q1 q2 q3 q4 =>
        have hng : ¬ T.stage.gone := by
          intro hg; cases hs : T.stage <;> simp [hs, Stage.gone] at hg
          · exact q2 hs
          · exact q3 hs
          · exact q4 hs
        split at h
        · next hv => injection h with h; subst h; exact notFault hT q1 hng (by rw [hv]; rfl)
        · next r hr =>
          split at h
          · next c hc =>
            split at h
            · cases h
            · split at h
              · next hv =>
                exfalso
                have C := I.callOk _ _ hc
                obtain ⟨H, hH, hHa, -⟩ := C.target
                have G := (I.ok _ _ hH).good
                rw [C.cons] at G
                rw [hHa, hv] at G
                cases hp : c.phase with
                | start =>
                  have hk : c.kind = .detach := by cases c <;> simp_all [Call.phase, Call.kind]
                  rw [hp, hk] at G
                  obtain ⟨r, hr⟩ := G.waiting_user _ rfl
                  cases hr
                | waiting =>
                  rw [hp] at G
                  obtain ⟨r, hr, -⟩ := G.waitRec
                  cases hr
                | freeing =>
                  rw [hp] at G
                  obtain ⟨-, r, hr, -⟩ := G.freeing
                  cases hr
                | freed => cases c <;> simp [Call.phase] at hp
                | released => cases c <;> simp [Call.phase] at hp
              · next rc hrc => exact callStep_inv I hc hrc h
          · next hc => exact ownStep_inv I hT hc hr h
    · cases h
  | intr t =>
    simp only [step] at h
    split at h
    · next k a y hc =>
      injection h with h; subst h
      have C := I.callOk _ _ hc
      obtain ⟨T, hT, hu⟩ := C.actor
      obtain ⟨H, hH, hHa, -⟩ := C.target
      exact recall_inv (c' := .load k a y) I hT hu hH C.cons (I.noSelfTarget hc rfl) rfl hHa.symm trivial rfl rfl rfl
    · cases h
  | wake t w =>
    simp only [step] at h
    split at h
    · next T hT =>
      split at h
      · next hs =>
        split at h
        · split at h
          · next hn =>
            injection h with h; subst h
            refine dead_inv I hT (.inl hs) (.inr ?_)
            intro j k a hb
            have C := I.callOk _ _ hb
            obtain ⟨J, hJ, -⟩ := C.actor
            obtain ⟨H, hH, hHa, -⟩ := C.target
            simp only [Call.target, Call.addr] at hH hHa
            rw [hT] at hH; injection hH with hH; subst hH
            have := all_range hn (I.lt _ _ hJ)
            simp only [hb, ← hHa] at this
            simp at this
          · cases h
        · next j =>
          split at h
          · next k a y hc =>
            split at h
            · next ha =>
              injection h with h; subst h
              refine wake_inv I hT hs hc ha ?_
              exact (h1 y).imp id fun h1 => Classical.byContradiction fun hn => h1 ⟨k, a, hc, hn⟩
            · cases h
          · cases h
      · cases h
    · cases h
  | signal t =>
    simp only [step] at h
    split at h
    · next T hT =>
      split at h
      · cases h
      · next hm =>
        split at h
        · cases h
        · cases h
        · cases h
        · next q2 q3 q4 =>
          have hng : ¬ T.stage.gone := by
            intro hg; cases hs : T.stage <;> simp [hs, Stage.gone] at hg
            · exact q2 hs
            · exact q3 hs
            · exact q4 hs
          split at h
          · next hv =>
            injection h with h; subst h
            by_cases hd : T.stage = .dExit
            · rcases h2 t with h2 | h2 | h2
              · exact fault_inv I h2 hT
              · exfalso
                have G := (I.ok _ _ hT).good
                simp only [Good, hd, DetGone] at G
                rw [G.2.2.2, h2] at hm
                exact hm rfl
              · exact absurd ⟨rfl, T, hT, hd⟩ h2
            · exact notFault hT hd hng hv
          · injection h with h; subst h; exact I
    · cases h

theorem init_inv (a tid : Nat) (h : tid ≠ 0) : Inv w sig (init a tid) := by
  constructor
  · simp [init]
  · intro h T hT
    simp only [init] at hT ⊢
    split at hT
    · next h => rw [h]; exact Nat.zero_lt_one
    · cases hT
  · intro h hc; simp [init] at hc
  · intro h T hT
    simp only [init] at hT
    split at hT
    · next hh =>
      subst hh
      injection hT with hT; subst hT
      have hv : (init a tid).view a 0 = some ⟨0, tid, .initial, 0, false⟩ := view_of (by simp [init]) rfl
      rw [hv]
      refine ⟨⟨⟨rfl, .inr ⟨_, rfl, rfl, .inl ⟨rfl, .inl rfl⟩⟩⟩, rfl⟩, ?_, ⟨fun _ => rfl, ?_, fun _ => ⟨by simp, by simp [init]⟩⟩, h⟩
      · constructor <;> simp [init, Stage.gone, Stage.past, unmaps]
      · intro r hr; injection hr with hr; subst hr; rfl
    · cases hT
  · intro b r hr
    simp only [init] at hr
    split at hr
    · next hb =>
      injection hr with hr; subst hr
      exact ⟨⟨a, tid, .body, true, false, none, false⟩, by simp [init], hb.symm⟩
    · cases hr
  · intro j c hc; simp [init] at hc
  · intro e he; simp [init] at he; subst he; exact ⟨_, rfl⟩
  · exact ⟨trivial, trivial⟩
  · intro h T h' T' h1 h2 _ _ _
    simp only [init] at h1 h2
    split at h1
    · next a1 =>
      split at h2
      · next a2 => rw [a1, a2]
      · cases h2
    · cases h1
  · intro T0 t T h0 h1 hne
    simp only [init, if_neg hne] at h1
    cases h1

/-- The invariant of every reachable state: strong for each thread spared by stray wake-ups and late signals (`w h = false`). -/
theorem reach_inv {P : State → Action → Prop} (h1 : ∀ s x, P s x → ∀ h, w h = true ∨ ¬ StrayFor h s x)
    (h2 : ∀ s x, P s x → ∀ h, w h = true ∨ sig = true ∨ ¬ LateSignalFor h s x) (h : Reach sig P s) : Inv w sig s := by
  induction h with
  | init a tid ht => exact init_inv a tid ht
  | step _ hp hs ih => exact step_inv ih (h1 _ _ hp) (h2 _ _ hp) hs

end Origin.Life
