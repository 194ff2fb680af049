import Verif.Proof.Lifecycle3
/-!
# The lifecycle invariant: API calls, kernel actions, all actions
-/

namespace Origin.Life

variable {w : Inst → Bool} {b sig : Bool} {s s' : State}

theorem afterWait_props (k : Kind) (a : Nat) (h : Inst) : (afterWait k a h).target = h ∧ (afterWait k a h).addr = a ∧
    (afterWait k a h).kind = k ∧ (afterWait k a h).phase = .freeing ∧ ∀ H, CallVal b (afterWait k a h) H := by
  cases k <;> simp [afterWait, Call.target, Call.addr, Call.kind, Call.phase, CallVal]

theorem finish_inv (I : Inv w sig s) {t h : Inst} {T H : Thr} {k : Kind} {a v : Nat}
    (hT : s.thr t = some T) (huser : T.stage.user) (hH : s.thr h = some H) (ha : H.addr = a)
    (hcons : s.cons h = some (t, k, .freeing)) (hret : k = .join → w h = true ∨ H.ret = some v)
    (hexcl : ∀ j c, s.call j = some c → c.target = h → j = t) :
    Inv w sig (((s.setRec a none).ev (.unmap h t)).finish t k h v) := by
  subst ha
  have O := I.ok h H hH
  have G := O.good
  have L := O.link
  rw [hcons] at G L
  obtain ⟨f1, r, f3, f4⟩ := G.freeing
  have h0 : h ≠ 0 := fun h0 => ((O.main.2.2 h0).2 t k).1 hcons
  have hvn : (s.setRec H.addr none).view H.addr h = none := view_setRec_none
  have hEx : w h = true ∨ Ev.exited h ∈ s.log := f4.imp id fun f4 => L.ex.mpr (by
    have := f4.1; cases hs : H.stage <;> simp_all [Stage.past, Stage.gone])
  have hnone : ∀ j, Ev.unmap h j ∉ s.log := fun j hj => by
    have := L.um.mp ⟨j, hj⟩; rw [f3] at this; cases this
  have hmain : ∀ c, MainOk h H c none := fun c => ⟨O.main.1, by simp, fun h => absurd h h0⟩
  cases k with
  | join =>
    refine inv_call I t h [.joined t h v, .unmap h t] hT huser hH rfl (by frame) (by frame) (by frame)
      (.inr ⟨⟨r, f3⟩, .inl setRec_at⟩) rfl (by intro e he; simp at he; rcases he with rfl | rfl <;> rfl) rfl ?_ hexcl
      (by intro c hc; simp [State.finish, State.setCall, State.setCons, State.ev] at hc) ?_
    · have hv' : (((s.setRec H.addr none).ev (.unmap h t)).finish t .join h v).view H.addr h = none := hvn
      have hc' : (((s.setRec H.addr none).ev (.unmap h t)).finish t .join h v).cons h = some (t, .join, .freed) := by
        simp [State.finish, State.setCons, State.ev]
      rw [hv', hc']
      exact ⟨G.freed, L.addJoined (by simp) (by rw [f3]; simp), hmain _, O.tid⟩
    · refine ⟨⟨?_, List.mem_cons_self⟩, ⟨hnone, .inr ⟨hEx, .inl ((L.jc t).mpr ⟨_, rfl⟩)⟩⟩, I.trace⟩
      rcases hEx with h | hEx
      · exact .inl h
      · exact (hret rfl).imp id fun h => ⟨List.mem_cons_of_mem _ ((L.ret v).mpr h), List.mem_cons_of_mem _ hEx⟩
  | detach =>
    refine inv_call I t h [.detachDone t h, .unmap h t] hT huser hH rfl (by frame) (by frame) (by frame)
      (.inr ⟨⟨r, f3⟩, .inl setRec_at⟩) rfl (by intro e he; simp at he; rcases he with rfl | rfl <;> rfl) rfl ?_ hexcl
      (by intro c hc; simp [State.finish, State.setCall, State.setCons, State.ev] at hc) ?_
    · have hv' : (((s.setRec H.addr none).ev (.unmap h t)).finish t .detach h v).view H.addr h = none := hvn
      have hc' : (((s.setRec H.addr none).ev (.unmap h t)).finish t .detach h v).cons h = some (t, .detach, .freed) := by
        simp [State.finish, State.setCons, State.ev]
      rw [hv', hc']
      exact ⟨G.freed, L.addDetachFreed (by rw [f3]; simp), hmain _, O.tid⟩
    · exact ⟨trivial, ⟨hnone, .inr ⟨hEx, .inr ((L.dc t).mpr ⟨_, rfl⟩)⟩⟩, I.trace⟩

/-- A change of `call t` (and of the phase of `cons h`, `h` its target) only. -/
theorem recall_inv (I : Inv w sig s) {t h : Inst} {c' : Call} {T H : Thr} {k : Kind} {p : Phase}
    (hT : s.thr t = some T) (huser : T.stage.user) (hH : s.thr h = some H)
    (hcons : s.cons h = some (t, k, p))
    (hexcl : ∀ j c, s.call j = some c → c.target = h → j = t)
    (h1 : c'.target = h) (h2 : c'.addr = H.addr) (h3 : CallVal (w h) c' H) (h4 : c'.kind = k) (h5 : c'.phase = p)
    {s' : State} (hs' : s' = s.setCall t (some c')) : Inv w sig s' := by
  subst hs'
  refine inv_call I t h [] hT huser hH rfl (by frame) (by frame) (by frame) (.inl rfl) rfl (by frame) rfl ?_ hexcl ?_ I.trace
  · exact I.ok h H hH
  · intro c hc
    simp [State.setCall] at hc
    subst hc
    refine ⟨h1, h2, h3, ?_⟩
    show s.cons h = _
    rw [hcons, h4, h5]

theorem startFree_inv (I : Inv w sig s) {t h : Inst} {T H : Thr} {k : Kind} {r : Rec}
    (hT : s.thr t = some T) (huser : T.stage.user) (hH : s.thr h = some H)
    (hcons : s.cons h = some (t, k, .waiting))
    (hexcl : ∀ j c, s.call j = some c → c.target = h → j = t)
    (hv : s.view H.addr h = some r) (hr : w h = true ∨ r.tid = 0) (h0 : h ≠ 0) :
    Inv w sig ((s.setCall t (some (afterWait k H.addr h))).setCons h (t, k, .freeing)) := by
  have O := I.ok h H hH
  have G := O.good
  have L := O.link
  obtain ⟨p1, p2, p3, p4, p5⟩ := afterWait_props k H.addr h
  refine inv_call I t h [] hT huser hH rfl (by frame) (by frame) (by frame) (.inl rfl) rfl (by frame) rfl ?_ hexcl ?_ I.trace
  · have hv' : ((s.setCall t (some (afterWait k H.addr h))).setCons h (t, k, .freeing)).view H.addr h
        = s.view H.addr h := rfl
    have hc' : ((s.setCall t (some (afterWait k H.addr h))).setCons h (t, k, .freeing)).cons h
        = some (t, k, .freeing) := by simp [State.setCons]
    rw [hv', hc']
    rw [hcons] at G L
    exact ⟨G.startFree hv hr O.tid, L.mono rfl Iff.rfl Iff.rfl rfl rfl Iff.rfl
      (.inr ⟨_, _, _, _, rfl, rfl, by simp, by simp, by simp, by simp⟩),
      ⟨O.main.1, O.main.2.1, fun h => absurd h h0⟩, O.tid⟩
  · intro c hc
    simp [State.setCall, State.setCons] at hc
    subst hc
    exact ⟨p1, p2, p5 H, by rw [p3, p4]; simp [State.setCons]⟩

theorem callStep_inv (I : Inv w sig s) {t : Inst} {c : Call} {r : Rec} (hc : s.call t = some c)
    (hv : s.view c.addr c.target = some r) (h : callStep s t r c = some s') : Inv w sig s' := by
  have C := I.callOk t c hc
  obtain ⟨T, hT, huser⟩ := C.actor
  obtain ⟨H, hH, ha, hval⟩ := C.target
  have hcons := C.cons
  have hexcl := I.noSelfTarget hc rfl
  have O := I.ok _ H hH
  have ho := (view_some hv).2
  have htr := I.trace
  cases c with
  | swap a x =>
    simp only [Call.target, Call.addr, Call.kind, Call.phase] at *
    subst ha
    have G := O.good
    have L := O.link
    have M := O.main
    rw [hv, hcons] at G L
    rw [hv] at M
    have hvw : (s.setRec H.addr (some { r with detached := .detached })).view H.addr x
        = some { r with detached := .detached } := view_setRec_same ho
    have hM : ∀ p, p ≠ .freeing → p ≠ .freed → MainOk x H (some (t, .detach, p)) (some { r with detached := .detached }) :=
      fun p h1 h2 => ⟨M.1, fun r' hr' => by injection hr' with hr'; subst hr'; exact M.2.1 r rfl, fun _ => ⟨by simp, by simp [h1, h2]⟩⟩
    simp only [callStep] at h
    split at h
    · next hab =>
      injection h with h; subst h
      refine inv_call I t x [] hT huser hH rfl (by frame) (by frame) (by frame)
        (.inr ⟨⟨r, hv⟩, .inr ⟨_, setRec_at, ho⟩⟩) rfl (by frame) rfl ?_ hexcl ?_ htr
      · refine cast (by congr 1; · simp [State.setCons]) (?_ : Ok (w x) sig x H (some (t, .detach, .waiting)) _ s.log)
        · show Ok (w x) sig x H _ ((s.setRec H.addr (some { r with detached := .detached })).view H.addr x) _
          rw [hvw]
          exact ⟨G.swapWaiting hab, L.mono rfl Iff.rfl Iff.rfl rfl rfl (by simp)
            (.inr ⟨_, _, _, _, rfl, rfl, by simp, by simp, by simp, by simp⟩), hM _ (by simp) (by simp), O.tid⟩
      · intro c hc
        simp [State.setCall, State.setCons] at hc
        subst hc
        exact ⟨rfl, rfl, trivial, by simp [State.setCons, Call.kind, Call.phase]⟩
    · next hab =>
      injection h with h; subst h
      refine inv_call I t x [.detachDone t x] hT huser hH rfl (by frame) (by frame) (by frame)
        (.inr ⟨⟨r, hv⟩, .inr ⟨_, setRec_at, ho⟩⟩) rfl (by frame) rfl ?_ hexcl ?_ ⟨trivial, htr⟩
      · refine cast (by congr 1; · simp [State.setCons, State.ev]) (?_ : Ok (w x) sig x H (some (t, .detach, .released)) _ (.detachDone t x :: s.log))
        · show Ok (w x) sig x H _ ((s.setRec H.addr (some { r with detached := .detached })).view H.addr x) _
          rw [hvw]
          exact ⟨G.swapReleased hab, L.addReleased (by simp), hM _ (by simp) (by simp), O.tid⟩
      · intro c hc
        simp [State.setCall, State.setCons, State.ev] at hc
  | load k a x =>
    simp only [Call.target, Call.addr, Call.kind, Call.phase] at *
    subst ha
    simp only [callStep] at h
    split at h
    · next hz =>
      injection h with h; subst h
      refine startFree_inv I hT huser hH hcons hexcl hv (.inr hz) ?_
      rintro rfl
      have G := O.good
      simp only [Good, O.main.1 rfl] at G
      rw [hv] at G
      exact O.tid (G.1.rec.2.1.symm.trans hz)
    · next hz =>
      injection h with h; subst h
      refine recall_inv I hT huser hH hcons hexcl rfl rfl ?_ rfl rfl rfl
      have G := O.good
      rw [hcons] at G
      obtain ⟨r', hr', hh⟩ := G.waitRec
      rw [hv] at hr'; injection hr' with hr'; subst hr'
      show r.tid = H.tid
      rcases hh with hh | hh
      · exact hh
      · exact absurd hh hz
  | wait k a x v =>
    simp only [Call.target, Call.addr, Call.kind, Call.phase, CallVal] at *
    subst ha
    simp only [callStep] at h
    split at h
    · next hz =>
      injection h with h; subst h
      refine recall_inv I hT huser hH hcons hexcl rfl rfl ?_ rfl rfl rfl
      show H.forked = true ∨ H.stage ≠ .dead
      refine Classical.or_iff_not_imp_left.mpr fun hfk => ?_
      intro hd
      have G := O.good
      rw [hcons, hv] at G
      simp only [Good, hd, Over, DetGone, Released, Stuck, hfk, false_and, or_false] at G
      have := O.tid
      simp at G
      grind
    · next hz =>
      injection h with h; subst h
      refine recall_inv I hT huser hH hcons hexcl rfl rfl ?_ rfl rfl rfl
      trivial
  | blocked k a x => simp [callStep] at h
  | loadRet a x =>
    simp only [Call.target, Call.addr, Call.kind, Call.phase] at *
    subst ha
    simp only [callStep] at h
    injection h with h; subst h
    refine recall_inv I hT huser hH hcons hexcl rfl rfl ?_ rfl rfl rfl
    have G := O.good
    rw [hcons] at G
    obtain ⟨_, r', hr', hh⟩ := G.freeing
    rw [hv] at hr'; injection hr' with hr'; subst hr'
    exact hh.imp id fun h => h.2.2.1
  | readFields k a x v =>
    simp only [Call.target, Call.addr, Call.kind, Call.phase] at *
    subst ha
    simp only [callStep] at h
    injection h with h; subst h
    refine recall_inv I hT huser hH hcons hexcl rfl rfl ?_ rfl rfl rfl
    have hx0 : x ≠ 0 := fun h0 => ((O.main.2.2 h0).2 t k).1 hcons
    have how : r.owned = true := by rw [O.main.2.1 r hv]; simpa using hx0
    cases k with
    | join => exact ⟨hval, how⟩
    | detach => exact how
  | drop k a x v o =>
    simp only [Call.target, Call.addr, Call.kind, Call.phase] at *
    subst ha
    have ho : o = true := by cases k with
      | join => exact hval.2
      | detach => exact hval
    subst ho
    simp only [callStep, if_pos] at h
    injection h with h; subst h
    refine recall_inv I hT huser hH hcons hexcl rfl rfl ?_ rfl rfl rfl
    cases k with
    | join => exact hval.1
    | detach => trivial
  | unmap k a x v =>
    simp only [Call.target, Call.addr, Call.kind, Call.phase] at *
    simp only [callStep] at h
    injection h with h; subst h
    refine finish_inv I hT huser hH ha hcons ?_ hexcl
    rintro rfl
    exact hval

/-! ### the remaining actions -/

theorem Stage.user_cases {T : Thr} (h : (match T.stage with | .body | .dtors _ => true | _ => false) = true) :
    T.stage.user := by
  cases hs : T.stage <;> simp [hs] at h <;> trivial

theorem inUser_iff {t : Inst} {T : Thr} (h : s.inUser t T = true) : s.call t = none ∧ T.stage.user := by
  unfold State.inUser at h
  rw [Bool.and_eq_true] at h
  exact ⟨by simpa using h.1, Stage.user_cases h.2⟩

theorem Good.user_rec {T : Thr} {c : Cons} {m : Option Rec} (G : Good b sig T c m) (h : T.stage.user) :
    (b = true ∧ m = none) ∨ ∃ r, m = some r ∧ r.tid = T.tid := by
  cases hs : T.stage <;> simp only [Good, hs, Live, Lost] at G <;> simp [hs, Stage.user] at h <;> grind

theorem Good.none_rec {T : Thr} {m : Option Rec} (G : Good b sig T none m) : ∃ r, m = some r := by
  cases hs : T.stage <;> simp only [Good, hs, Live, Stuck, Aband, Lost, Over, Det, DetGone, Released, Pending] at G <;>
    simp at G <;> grind

theorem Good.stage_rec {T : Thr} {c : Cons} {m : Option Rec} (G : Good b sig T c m)
    (h1 : T.stage ≠ .dExit) (h2 : ¬ T.stage.gone) : b = true ∨ ∃ r, m = some r := by
  cases hs : T.stage <;> simp only [Good, hs, Live, Stuck, Aband, Lost, Over, Det, DetGone, Released, Pending] at G <;>
    simp [hs, Stage.gone] at h1 h2 <;> grind

theorem Good.setCons_join {T : Thr} {m : Option Rec} (j : Inst) (G : Good b sig T none m) :
    Good b sig T (some (j, .join, .waiting)) m := by
  cases hs : T.stage <;> simp only [Good, hs, Live, Stuck, Aband, Lost, Over, Det, DetGone, Released, Pending] at G ⊢ <;>
    simp at G ⊢ <;> grind

theorem Good.setCons_detach {T : Thr} {m : Option Rec} (j : Inst) (G : Good b sig T none m) :
    Good b sig T (some (j, .detach, .start)) m := by
  cases hs : T.stage <;> simp only [Good, hs, Live, Stuck, Aband, Lost, Over, Det, DetGone, Released, Pending] at G ⊢ <;>
    simp at G ⊢ <;> grind

theorem Inv.no_target_of_unconsumed (I : Inv w sig s) {h t : Inst} (hc : s.cons h = none) :
    ∀ j c, s.call j = some c → c.target = h → j = t := by
  intro j c h1 h2
  have := (I.callOk j c h1).cons
  rw [h2, hc] at this; cases this

theorem join_inv (I : Inv w sig s) {t h : Inst} {T H : Thr} (hT : s.thr t = some T) (hu : T.stage.user)
    (hH : s.thr h = some H) (hc : s.cons h = none) :
    Inv w sig (((s.setCall t (some (.load .join H.addr h))).setCons h (t, .join, .waiting)).ev (.joinCall t h)) := by
  have O := I.ok h H hH
  have G := O.good
  have L := O.link
  rw [hc] at G L
  refine inv_call I t h [.joinCall t h] hT hu hH rfl (by frame) (by frame) (by frame) (.inl rfl) rfl (by frame) rfl ?_
    (I.no_target_of_unconsumed hc) ?_ ⟨trivial, I.trace⟩
  · refine cast (by congr 1; · simp [State.setCons, State.ev])
      (?_ : Ok (w h) sig h H (some (t, .join, .waiting)) (s.view H.addr h) (.joinCall t h :: s.log))
    refine ⟨G.setCons_join t, ?_, ⟨O.main.1, O.main.2.1, fun h0 => ⟨(O.main.2.2 h0).1, by simp⟩⟩, O.tid⟩
    constructor <;> try intros
    · simp [L.ret]
    · simp [L.ex]
    · simp [L.cl]
    · simp [L.jc, eq_comm]
    · simp [L.dc]
    · next h => simp at h; have := L.jd _ _ h; simp at this
    · simp [L.dd]
    · obtain ⟨p, hp⟩ := L.cr; exact ⟨p, List.mem_cons_of_mem _ hp⟩
    · next h => simp at h; exact L.cr1 _ _ _ h
    · simp [← L.um]
    · rw [unmaps_cons_other (by simp)]; exact L.um1
  · intro c hc'
    simp [State.setCall, State.setCons, State.ev] at hc'
    subst hc'
    exact ⟨rfl, rfl, trivial, by simp [State.setCons, State.ev, Call.kind, Call.phase]⟩

theorem detach_inv (I : Inv w sig s) {t h : Inst} {T H : Thr} (hT : s.thr t = some T) (hu : T.stage.user)
    (hH : s.thr h = some H) (hc : s.cons h = none) :
    Inv w sig (((s.setCall t (some (.swap H.addr h))).setCons h (t, .detach, .start)).ev (.detachCall t h)) := by
  have O := I.ok h H hH
  have G := O.good
  have L := O.link
  rw [hc] at G L
  refine inv_call I t h [.detachCall t h] hT hu hH rfl (by frame) (by frame) (by frame) (.inl rfl) rfl (by frame) rfl ?_
    (I.no_target_of_unconsumed hc) ?_ ⟨trivial, I.trace⟩
  · refine cast (by congr 1; · simp [State.setCons, State.ev])
      (?_ : Ok (w h) sig h H (some (t, .detach, .start)) (s.view H.addr h) (.detachCall t h :: s.log))
    refine ⟨G.setCons_detach t, ?_, ⟨O.main.1, O.main.2.1, fun h0 => ⟨(O.main.2.2 h0).1, by simp⟩⟩, O.tid⟩
    constructor <;> try intros
    · simp [L.ret]
    · simp [L.ex]
    · simp [L.cl]
    · simp [L.jc]
    · simp [L.dc, eq_comm]
    · next h => simp at h; have := L.jd _ _ h; simp at this
    · simp [L.dd]
    · obtain ⟨p, hp⟩ := L.cr; exact ⟨p, List.mem_cons_of_mem _ hp⟩
    · next h => simp at h; exact L.cr1 _ _ _ h
    · simp [← L.um]
    · rw [unmaps_cons_other (by simp)]; exact L.um1
  · intro c hc'
    simp [State.setCall, State.setCons, State.ev] at hc'
    subst hc'
    exact ⟨rfl, rfl, trivial, by simp [State.setCons, State.ev, Call.kind, Call.phase]⟩

theorem id_inv (I : Inv w sig s) {t h : Inst} {H : Thr} {r : Rec} (hH : s.thr h = some H)
    (hr : s.view H.addr h = some r) :
    Inv w sig (s.ev (.idRes t h (if r.tid = 0 then none else some r.tid))) := by
  have O := I.ok h H hH
  have G := O.good
  have L := O.link
  generalize hx : (if r.tid = 0 then none else some r.tid) = res
  refine inv_upd I h [.idRes t h res] hH hH rfl rfl (by frame) (by frame) (by frame) (.inl rfl) rfl (by frame) rfl
    ⟨G, ?_, O.main, O.tid⟩ ?_ ⟨?_, I.trace⟩ id
  · show Link h H (s.cons h) (s.view H.addr h) (.idRes t h res :: s.log)
    constructor <;> try intros
    · simp [L.ret]
    · simp [L.ex]
    · simp [L.cl]
    · simp [L.jc]
    · simp [L.dc]
    · next h => simp at h; have := L.jd _ _ h; exact this
    · simp [L.dd]
    · obtain ⟨p, hp⟩ := L.cr; exact ⟨p, List.mem_cons_of_mem _ hp⟩
    · next h => simp at h; exact L.cr1 _ _ _ h
    · exact (by simp : (∃ j, Ev.unmap h j ∈ Ev.idRes t h res :: s.log) ↔ ∃ j, Ev.unmap h j ∈ s.log).trans L.um
    · rw [unmaps_cons_other (by simp)]; exact L.um1
  · intro j c hc
    have C := I.callOk j c hc
    exact ⟨C.actor, C.target, C.cons⟩
  · obtain ⟨p, hp⟩ := L.cr
    refine ⟨p, H.addr, H.tid, hp, ?_, ?_⟩
    · intro hn
      rw [L.cl] at hn
      rw [hr] at G
      have := O.tid
      have : r.tid = H.tid := by
        cases hs : H.stage <;> simp only [Good, hs, Live, Stuck, Aband, Lost, Over, Det, DetGone, Released, Pending] at G <;>
          simp [hs, Stage.past] at G hn <;> grind
      rw [← hx, if_neg (by omega), this]
    · intro hn
      rw [L.cl] at hn
      rw [hr] at G
      have : r.tid = 0 := by
        cases hs : H.stage <;> simp only [Good, hs, Live, Stuck, Aband, Lost, Over, Det, DetGone, Released, Pending] at G <;>
          simp [hs, Stage.past] at G hn <;> grind
      rw [← hx, if_pos this]

theorem ret_inv (I : Inv w sig s) {t : Inst} {T : Thr} {v : Nat} (hT : s.thr t = some T) (hb : T.stage = .body)
    (hidle : s.call t = none) (h0 : t ≠ 0) :
    Inv w sig ((s.modThr t fun T => { T with ret := some v, stage := .dtors v }).ev (.returned t v)) := by
  have O := I.ok t T hT
  have G := O.good
  have L := O.link
  simp only [Good, hb] at G
  refine inv_own I t (X' := { T with ret := some v, stage := .dtors v }) [.returned t v] hT (by simp [State.modThr, State.ev, hT]) rfl rfl
    (by frame) rfl rfl (by frame) (.inl rfl) rfl (by frame) rfl ?_ hidle
    (fun j c _ _ hc => callVal_mono (X := T) (fun v' h => by rw [G.2] at h; cases h) rfl (by simp) hc) ⟨trivial, I.trace⟩
    (by rw [hb]; simp)
  have hv' : ((s.modThr t fun T => { T with ret := some v, stage := .dtors v }).ev (.returned t v)).view T.addr t
    = s.view T.addr t := rfl
  rw [hv']
  refine ⟨⟨G.1, rfl⟩, ?_, ⟨fun h => absurd h h0, O.main.2.1, fun h => absurd h h0⟩, O.tid⟩
  show Link t _ _ _ (.returned t v :: s.log)
  constructor <;> try intros
  · simp [L.ret, G.2, eq_comm]
  · simp [L.ex, hb, Stage.gone]
  · simp [L.cl, hb, Stage.past]
  · simp [L.jc]
  · simp [L.dc]
  · next h => simp at h; have := L.jd _ _ h; exact this
  · simp [L.dd]
  · obtain ⟨p, hp⟩ := L.cr; exact ⟨p, List.mem_cons_of_mem _ hp⟩
  · next h => simp at h; exact L.cr1 _ _ _ h
  · simp [← L.um]
  · rw [unmaps_cons_other (by simp)]; exact L.um1

theorem dtorsDone_inv (I : Inv w sig s) {t : Inst} {T : Thr} {v : Nat} (hT : s.thr t = some T) (hb : T.stage = .dtors v)
    (hidle : s.call t = none) : Inv w sig (s.setStage t (.cas v)) := by
  have O := I.ok t T hT
  have G := O.good
  have L := O.link
  simp only [Good, hb] at G
  have h0 : t ≠ 0 := fun h => by have := O.main.1 h; rw [hb] at this; cases this
  refine inv_own I t (X' := { T with stage := .cas v }) [] hT (by simp [State.setStage, State.modThr, hT]) rfl rfl
    (by frame) rfl rfl (by frame) (.inl rfl) rfl (by frame) rfl ?_ hidle
    (callVal_own rfl rfl (by simp)) I.trace (by rw [hb]; simp)
  have hv' : (s.setStage t (.cas v)).view T.addr t = s.view T.addr t := rfl
  rw [hv']
  exact ⟨G, L.mono rfl (by simp [hb, Stage.gone]) (by simp [hb, Stage.past]) rfl rfl Iff.rfl (.inl rfl),
    ⟨fun h => absurd h h0, O.main.2.1, fun h => absurd h h0⟩, O.tid⟩

theorem Inv.idle_of_not_user (I : Inv w sig s) {t : Inst} {T : Thr} (hT : s.thr t = some T) (h : ¬ T.stage.user) :
    s.call t = none := by
  cases hc : s.call t with
  | none => rfl
  | some c =>
    obtain ⟨T', h1, h2⟩ := (I.callOk t c hc).actor
    rw [hT] at h1; injection h1 with h1; subst h1
    exact absurd h2 h

theorem dExit_inv (I : Inv w sig s) {t : Inst} {T : Thr} (hT : s.thr t = some T) (hb : T.stage = .dExit) :
    Inv w sig ((s.ev (.exited t)).setStage t .kClear) := by
  have O := I.ok t T hT
  have G := O.good
  have L := O.link
  simp only [Good, hb] at G
  have h0 : t ≠ 0 := fun h => by have := O.main.1 h; rw [hb] at this; cases this
  refine inv_own I t (X' := { T with stage := .kClear }) [.exited t] hT (by simp [State.ev, State.setStage, State.modThr, hT]) rfl rfl
    (by frame) rfl rfl (by frame) (.inl rfl) rfl (by frame) rfl ?_ (I.idle_of_not_user hT (by simp [hb, Stage.user]))
    (callVal_own rfl rfl (by simp)) ⟨trivial, I.trace⟩ (by rw [hb]; simp)
  have hv' : ((s.ev (.exited t)).setStage t .kClear).view T.addr t = s.view T.addr t := rfl
  rw [hv']
  exact ⟨.inr G, L.addExited rfl (by simp [hb, Stage.past]), ⟨fun h => absurd h h0, O.main.2.1, fun h => absurd h h0⟩, O.tid⟩

theorem kClear_inv (I : Inv w sig s) {t : Inst} {T : Thr} {r : Rec} (hT : s.thr t = some T) (hb : T.stage = .kClear)
    (hcl : T.clear = true) (hv : s.view T.addr t = some r) :
    Inv w sig (((s.setRec T.addr (some { r with tid := 0 })).ev (.cleared t)).setStage t .kWake) := by
  have O := I.ok t T hT
  have G := O.good
  have L := O.link
  have M := O.main
  have ho := (view_some hv).2
  rw [hv] at G L M
  simp only [Good, hb] at G
  have h0 : t ≠ 0 := fun h => by have := O.main.1 h; rw [hb] at this; cases this
  refine inv_own I t (X' := { T with stage := .kWake }) [.cleared t] hT (by simp [State.ev, State.setRec, State.setStage, State.modThr, hT]) rfl rfl
    (by frame) rfl rfl (by frame) (.inr ⟨⟨r, hv⟩, .inr ⟨_, setRec_at, ho⟩⟩) rfl (by frame) rfl ?_
    (I.idle_of_not_user hT (by simp [hb, Stage.user])) (callVal_own rfl rfl (by simp)) ⟨trivial, I.trace⟩ (by rw [hb]; simp)
  have hv' : (((s.setRec T.addr (some { r with tid := 0 })).ev (.cleared t)).setStage t .kWake).view T.addr t
      = some { r with tid := 0 } := view_setRec_same ho
  rw [hv']
  refine ⟨?_, ?_, M.upd rfl (fun h => absurd h h0), O.tid⟩
  · rcases G with ⟨g, g6⟩ | g
    · obtain ⟨g1, g3, g4⟩ := g.rec
      refine ⟨hcl, .inr ⟨_, rfl, rfl, g6 r rfl, ?_⟩⟩
      rcases g4 with g4 | ⟨g4, j, hj⟩
      · exact .inl ⟨g4.1, .inl g4.2⟩
      · exact .inr ⟨g4, j, hj.imp id And.right⟩
    · exact absurd g.2.1 (by simp)
  · show Link t _ _ _ (.cleared t :: s.log)
    constructor <;> try intros
    · simp [L.ret]
    · simp [L.ex, hb, Stage.gone]
    · simp [Stage.past, hcl]
    · simp [L.jc]
    · simp [L.dc]
    · next h => simp at h; have := L.jd _ _ h; exact this
    · simp [L.dd]
    · obtain ⟨p, hp⟩ := L.cr; exact ⟨p, List.mem_cons_of_mem _ hp⟩
    · next h => simp at h; exact L.cr1 _ _ _ h
    · exact (by simp : (∃ j, Ev.unmap t j ∈ Ev.cleared t :: s.log) ↔ ∃ j, Ev.unmap t j ∈ s.log).trans (L.um.trans (by simp))
    · rw [unmaps_cons_other (by simp)]; exact L.um1

theorem dead_inv (I : Inv w sig s) {t : Inst} {T : Thr} (hT : s.thr t = some T)
    (hb : T.stage = .kWake ∨ (T.stage = .kClear ∧ T.clear = false))
    (hw : T.forked = true ∨ ∀ j k a, s.call j ≠ some (.blocked k a t)) : Inv w sig (s.setStage t .dead) := by
  have O := I.ok t T hT
  have G := O.good
  have L := O.link
  have hs : ¬ T.stage.user ∧ T.stage ≠ .body := by rcases hb with h | h <;> simp [h, Stage.user]
  have h0 : t ≠ 0 := fun h => hs.2 (O.main.1 h)
  refine inv_own I t (X' := { T with stage := .dead }) [] hT (by simp [State.setStage, State.modThr, hT]) rfl rfl
    (by frame) rfl rfl (by frame) (.inl rfl) rfl (by frame) rfl ?_ (I.idle_of_not_user hT hs.1)
    ?_ I.trace (by simp)
  · have hv' : (s.setStage t .dead).view T.addr t = s.view T.addr t := rfl
    rw [hv']
    refine ⟨?_, ?_, ⟨fun h => absurd h h0, O.main.2.1, fun h => absurd h h0⟩, O.tid⟩
    · rcases hb with hb | ⟨hb, hcl⟩
      · simp only [Good, hb] at G ⊢; exact .inl G
      · simp only [Good, hb] at G ⊢
        rcases G with G | G
        · have := G.1.1; rw [hcl] at this
          exact .inr (.inr ⟨by simpa using this, G.1, G.2⟩)
        · exact .inr (.inl G)
    · rcases hb with hb | ⟨hb, hcl⟩
      · exact L.mono rfl (by simp [hb, Stage.gone]) (by simp [hb, Stage.past]) rfl rfl Iff.rfl (.inl rfl)
      · exact L.mono rfl (by simp [hb, Stage.gone]) (by simp [hcl]) rfl rfl Iff.rfl (.inl rfl)
  · intro j c hc ht hval
    cases c with
    | blocked k a h =>
      rcases hw with hw | hw
      · exact .inl hw
      exact absurd (show s.call j = some (.blocked k a t) by rw [hc]; simp [Call.target] at ht; rw [ht]) (hw j k a)
    | wait k a h v => exact hval
    | readFields k a h v => cases k <;> exact hval
    | drop k a h v o => cases k <;> exact hval
    | unmap k a h v => cases k <;> exact hval
    | _ => trivial

end Origin.Life
