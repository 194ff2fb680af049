import Verif.Proof.Lifecycle2
/-!
# The lifecycle invariant: each transition
-/

namespace Origin.Life

variable {w : Inst → Bool} {b sig : Bool} {s s' : State}

theorem modThr_same {t : Inst} {X : Thr} {f : Thr → Thr} (hx : s.thr t = some X) :
    (s.modThr t f).thr t = some (f X) := by simp [State.modThr, hx]

theorem view_setRec_same {a : Nat} {h : Inst} {r : Rec} (ho : r.owner = h) :
    (s.setRec a (some r)).view a h = some r := by simp [State.view, State.setRec, ho]

theorem view_setRec_none {a : Nat} {h : Inst} : (s.setRec a none).view a h = none := by
  simp [State.view, State.setRec]

theorem setRec_at {a : Nat} {m : Option Rec} : (s.setRec a m).recs a = m := by simp [State.setRec]

theorem callVal_own {t : Inst} {X X' : Thr} (h1 : X'.ret = X.ret) (h2 : X'.tid = X.tid) (h3 : X'.stage ≠ .dead) :
    ∀ j c, s.call j = some c → c.target = t → CallVal b c X → CallVal b c X' :=
  fun _ _ _ _ hc => callVal_mono (fun _ h => h1 ▸ h) h2 h3 hc

/-- discharge the frame conditions -/
syntax "frame" : tactic
macro_rules
  | `(tactic| frame) => `(tactic| first
    | rfl
    | (intro y hy; first | rfl | (simp [State.setStage, State.modThr, State.ev, State.setRec, State.setCall, State.setCons, State.finish, hy]; done))
    | (simp [State.setStage, State.modThr, State.ev, State.setRec, State.setCall, State.setCons, *]; done)
    | (intro y hy; simp at hy; subst hy; rfl)
    | (intro y hy; exact absurd hy (List.not_mem_nil)))

theorem unmaps_cons_other {h : Inst} {e : Ev} {l : List Ev} (he : ∀ j, e ≠ .unmap h j) :
    unmaps h (e :: l) = unmaps h l := by
  unfold unmaps
  rw [List.filter_cons]
  cases e with
  | unmap h' j =>
    by_cases hh : h' = h
    · subst hh; exact absurd rfl (he j)
    · simp [hh]
  | _ => simp

theorem unmaps_zero {h : Inst} {l : List Ev} (hn : ∀ j, Ev.unmap h j ∉ l) : unmaps h l = 0 := by
  unfold unmaps
  rw [List.length_eq_zero_iff, List.filter_eq_nil_iff]
  intro e he
  cases e with
  | unmap h' j => simp; rintro rfl; exact hn j he
  | _ => simp

theorem Link.addExited {h : Inst} {T T' : Thr} {c : Cons} {m : Option Rec} {l : List Ev} (L : Link h T c m l)
    (hT' : T' = { T with stage := .kClear }) (h1 : ¬ T.stage.past) : Link h T' c m (.exited h :: l) := by
  subst hT'
  constructor <;> try intros
  · simp [L.ret]
  · simp [Stage.gone]
  · exact ⟨fun hh => by simp at hh; exact absurd (L.cl.mp hh).2 h1, fun hh => hh.2.elim⟩
  · simp [L.jc]
  · simp [L.dc]
  · next h => simp at h; exact L.jd _ _ h
  · simp [L.dd]
  · obtain ⟨p, hp⟩ := L.cr; exact ⟨p, List.mem_cons_of_mem _ hp⟩
  · next h => simp at h; exact L.cr1 _ _ _ h
  · simp [← L.um]
  · rw [unmaps_cons_other (by simp)]; exact L.um1

theorem MainOk.upd {h : Inst} {T T' : Thr} {c : Cons} {r r' : Rec} (M : MainOk h T c (some r)) (ho : r'.owned = r.owned)
    (hs : h = 0 → T'.stage = .body) : MainOk h T' c (some r') :=
  ⟨hs, fun x hx => by injection hx with hx; subst hx; rw [ho]; exact M.2.1 r rfl, fun h0 => ⟨by simp, (M.2.2 h0).2⟩⟩

theorem Live.rec {b : Bool} {T : Thr} {c : Cons} {r : Rec} (L : Live b T c (some r)) : T.clear = !T.forked ∧ r.tid = T.tid ∧
    ((r.detached = .initial ∧ Pending b c) ∨ (r.detached = .detached ∧ Released c)) := by
  obtain ⟨g1, ⟨-, g, -⟩ | ⟨r', hr', g2, g3⟩⟩ := L
  · cases g
  · injection hr' with hr'; subst hr'; exact ⟨g1, g2, g3⟩

theorem Aband.rec {b : Bool} {T : Thr} {c : Cons} {r : Rec} (L : Aband b T c (some r)) : T.clear = !T.forked ∧ r.tid = T.tid ∧
    ((r.detached = .abandoned ∧ Pending b c) ∨
     (r.detached = .detached ∧ ∃ j, c = some (j, .detach, .waiting) ∨ (b = true ∧ c = some (j, .detach, .freeing)))) := by
  obtain ⟨g1, ⟨-, g, -⟩ | ⟨r', hr', g2, g3⟩⟩ := L
  · cases g
  · injection hr' with hr'; subst hr'; exact ⟨g1, g2, g3⟩

theorem ownStep_inv (I : Inv w sig s) {t : Inst} {X : Thr} {r : Rec} (hx : s.thr t = some X)
    (hidle : s.call t = none) (hv : s.view X.addr t = some r) (h : ownStep sig s t X r = some s') :
    Inv w sig s' := by
  have O := I.ok t X hx
  have G := O.good
  have L := O.link
  have M := O.main
  have ho := (view_some hv).2
  have htid := O.tid
  obtain ⟨xa, xt, xs, xc, xm, xr, xf⟩ := X
  simp only at *
  rw [hv] at G L M
  have hne0 : xs ≠ .body → t ≠ 0 := fun h1 h2 => h1 (M.1 h2)
  have hown : xs ≠ .body → r.owned = true := fun h1 => by
    rw [M.2.1 r rfl]; simpa using hne0 h1
  cases xs with
  | born =>
    simp only [ownStep] at h
    injection h with h; subst h
    refine inv_own I t (X' := ⟨xa, xt, .body, xc, xm, xr, xf⟩) [] hx (by frame) rfl rfl (by frame) rfl rfl (by frame)
      (.inr ⟨⟨r, hv⟩, .inr ⟨_, setRec_at, ho⟩⟩) rfl (by frame) rfl ?_ hidle
      (callVal_own rfl rfl (by simp)) I.trace (by simp)
    have hv' : ((s.setRec xa (some { r with tid := xt })).setStage t .body).view xa t = some { r with tid := xt } :=
      view_setRec_same ho
    rw [hv']
    refine ⟨?_, L.mono rfl Iff.rfl (by simp [Stage.past]) rfl rfl (by simp) (.inl rfl), M.upd rfl (fun _ => rfl), htid⟩
    simp only [Good] at G ⊢
    obtain ⟨g, g4⟩ := G
    obtain ⟨g1, g2, g3⟩ := g.rec
    exact ⟨⟨g1, .inr ⟨_, rfl, rfl, g3⟩⟩, g4⟩
  | body => simp [ownStep] at h
  | dtors v => simp [ownStep] at h
  | cas v =>
    simp only [ownStep] at h
    simp only [Good] at G
    obtain ⟨g, g4⟩ := G
    obtain ⟨g1, g2, g3⟩ := g.rec
    split at h
    · next hini =>
      injection h with h; subst h
      refine inv_own I t (X' := ⟨xa, xt, .storeRet v, xc, xm, xr, xf⟩) [] hx (by frame) rfl rfl (by frame) rfl rfl (by frame)
        (.inr ⟨⟨r, hv⟩, .inr ⟨_, setRec_at, ho⟩⟩) rfl (by frame) rfl ?_ hidle
        (callVal_own rfl rfl (by simp)) I.trace (by simp)
      have hv' : ((s.setRec xa (some { r with detached := .abandoned })).setStage t (.storeRet v)).view xa t
          = some { r with detached := .abandoned } := view_setRec_same ho
      rw [hv']
      refine ⟨?_, L.mono rfl Iff.rfl (by simp [Stage.past]) rfl rfl (by simp) (.inl rfl), M.upd rfl (fun h => absurd h (hne0 (by simp))), htid⟩
      simp only [Good, Aband]
      refine ⟨⟨g1, .inr ⟨_, rfl, g2, .inl ⟨rfl, ?_⟩⟩⟩, g4⟩
      rcases g3 with g | g
      · exact g.2
      · rw [hini] at g; exact absurd g.1 (by simp)
    · next hini =>
      injection h with h; subst h
      refine inv_own I t (X' := ⟨xa, xt, .dRead, xc, xm, xr, xf⟩) [] hx (by frame) rfl rfl (by frame) rfl rfl (by frame)
        (.inl rfl) rfl (by frame) rfl ?_ hidle
        (callVal_own rfl rfl (by simp)) I.trace (by simp)
      have hv' : (s.setStage t .dRead).view xa t = some r := hv
      rw [hv']
      refine ⟨?_, L.mono rfl Iff.rfl (by simp [Stage.past]) rfl rfl (by simp) (.inl rfl), M.upd rfl (fun h => absurd h (hne0 (by simp))), htid⟩
      simp only [Good, Det]
      rcases g3 with g | g
      · exact absurd g.1 hini
      · exact ⟨⟨g.2, r, rfl, g2, g.1⟩, g1⟩
  | storeRet v =>
    simp only [ownStep] at h
    injection h with h; subst h
    simp only [Good] at G
    obtain ⟨g, g4⟩ := G
    obtain ⟨g1, g2, g3⟩ := g.rec
    refine inv_own I t (X' := ⟨xa, xt, .exitCall, xc, xm, xr, xf⟩) [] hx (by frame) rfl rfl (by frame) rfl rfl (by frame)
      (.inr ⟨⟨r, hv⟩, .inr ⟨_, setRec_at, ho⟩⟩) rfl (by frame) rfl ?_ hidle
      (callVal_own rfl rfl (by simp)) I.trace (by simp)
    have hv' : ((s.setRec xa (some { r with ret := v })).setStage t .exitCall).view xa t = some { r with ret := v } :=
      view_setRec_same ho
    rw [hv']
    refine ⟨?_, L.mono rfl Iff.rfl (by simp [Stage.past]) rfl rfl (by simp) (.inl rfl), M.upd rfl (fun h => absurd h (hne0 (by simp))), htid⟩
    simp only [Good, Aband]
    exact ⟨⟨g1, .inr ⟨_, rfl, g2, g3⟩⟩, fun r' hr' => by injection hr' with hr'; subst hr'; exact g4⟩
  | dRead =>
    simp only [ownStep] at h
    injection h with h; subst h
    refine inv_own I t (X' := ⟨xa, xt, .dDrop r.owned, xc, xm, xr, xf⟩) [] hx (by frame) rfl rfl (by frame) rfl rfl (by frame)
      (.inl rfl) rfl (by frame) rfl ?_ hidle
      (callVal_own rfl rfl (by simp)) I.trace (by simp)
    have hv' : (s.setStage t (.dDrop r.owned)).view xa t = some r := hv
    rw [hv']
    refine ⟨?_, L.mono rfl Iff.rfl (by simp [Stage.past]) rfl rfl (by simp) (.inl rfl), M.upd rfl (fun h => absurd h (hne0 (by simp))), htid⟩
    simp only [Good, Det] at G ⊢
    exact ⟨G.1, G.2, hown (by simp)⟩
  | dDrop o =>
    simp only [ownStep] at h
    injection h with h; subst h
    have ho' : o = true := G.2.2
    subst ho'
    refine inv_own I t (X' := ⟨xa, xt, .dSetTid, xc, xm, xr, xf⟩) [] hx (by frame) rfl rfl (by frame) rfl rfl (by frame)
      (.inl rfl) rfl (by frame) rfl ?_ hidle
      (callVal_own rfl rfl (by simp)) I.trace (by simp)
    have hv' : (s.setStage t (if true = true then .dSetTid else .exitCall)).view xa t = some r := hv
    rw [hv']
    refine ⟨?_, L.mono rfl Iff.rfl (by simp [Stage.past]) rfl rfl (by simp) (.inl rfl), M.upd rfl (fun h => absurd h (hne0 (by simp))), htid⟩
    simp only [Good, Det] at G ⊢
    exact ⟨G.1, G.2.1⟩
  | dSetTid =>
    simp only [ownStep] at h
    injection h with h; subst h
    refine inv_own I t (X' := ⟨xa, xt, .dMask, false, xm, xr, xf⟩) [] hx (by frame) rfl rfl (by frame) rfl rfl (by frame)
      (.inl rfl) rfl (by frame) rfl ?_ hidle
      (callVal_own rfl rfl (by simp)) I.trace (by simp)
    have hv' : ((s.modThr t fun T => { T with clear := false }).setStage t .dMask).view xa t = some r := hv
    rw [hv']
    refine ⟨?_, L.mono rfl Iff.rfl (by simp [Stage.past]) rfl rfl (by simp) (.inl rfl), M.upd rfl (fun h => absurd h (hne0 (by simp))), htid⟩
    simp only [Good, Det] at G ⊢
    exact ⟨G.1, trivial⟩
  | dMask =>
    simp only [ownStep] at h
    injection h with h; subst h
    refine inv_own I t (X' := ⟨xa, xt, .dUnmap, xc, sig, xr, xf⟩) [] hx (by frame) rfl rfl (by frame) rfl rfl (by frame)
      (.inl rfl) rfl (by frame) rfl ?_ hidle
      (callVal_own rfl rfl (by simp)) I.trace (by simp)
    have hv' : ((s.modThr t fun T => { T with masked := sig }).setStage t .dUnmap).view xa t = some r := hv
    rw [hv']
    refine ⟨?_, L.mono rfl Iff.rfl (by simp [Stage.past]) rfl rfl (by simp) (.inl rfl), M.upd rfl (fun h => absurd h (hne0 (by simp))), htid⟩
    simp only [Good, Det] at G ⊢
    exact ⟨G.1, G.2, trivial⟩
  | dUnmap =>
    simp only [ownStep] at h
    injection h with h; subst h
    simp only [Good, Det] at G
    obtain ⟨⟨g1, g2⟩, g3, g4⟩ := G
    have hnone : ∀ j, Ev.unmap t j ∉ s.log := fun j hj => by
      have := L.um.mp ⟨j, hj⟩; cases this
    refine inv_own I t (X' := ⟨xa, xt, .dExit, xc, xm, xr, xf⟩) [.unmap t t] hx (by frame) rfl rfl (by frame) rfl rfl (by frame)
      (.inr ⟨⟨r, hv⟩, .inl setRec_at⟩) rfl (by frame) rfl ?_ hidle
      (callVal_own rfl rfl (by simp)) ?_ (by simp)
    · have hv' : (((s.setRec xa none).ev (.unmap t t)).setStage t .dExit).view xa t = none := view_setRec_none
      rw [hv']
      refine ⟨⟨g1, rfl, g3, g4⟩, ?_, ⟨fun h => absurd h (hne0 (by simp)), by simp, fun h => absurd h (hne0 (by simp))⟩, htid⟩
      show Link t _ _ _ (.unmap t t :: s.log)
      constructor <;> try intros
      · simp [L.ret]
      · simp [L.ex, Stage.gone]
      · simp [L.cl, Stage.past]
      · simp [L.jc]
      · simp [L.dc]
      · next h => simp at h; exact L.jd _ _ h
      · simp [L.dd]
      · obtain ⟨p, hp⟩ := L.cr; exact ⟨p, List.mem_cons_of_mem _ hp⟩
      · next h => simp at h; exact L.cr1 _ _ _ h
      · simp
      · have := unmaps_zero hnone
        unfold unmaps at this ⊢
        rw [List.filter_cons]; simp [this]
    · refine ⟨⟨hnone, .inl ⟨rfl, fun h => by simpa [Stage.gone] using L.ex.mp h, ?_⟩⟩, I.trace⟩
      obtain ⟨j, hj⟩ := g1
      exact ⟨j, (L.dd j).mpr (.inl hj)⟩
  | dExit => simp [ownStep] at h
  | exitCall =>
    simp only [ownStep] at h
    injection h with h; subst h
    refine inv_own I t (X' := ⟨xa, xt, .kClear, xc, xm, xr, xf⟩) [.exited t] hx (by frame) rfl rfl (by frame) rfl rfl (by frame)
      (.inl rfl) rfl (by frame) rfl ?_ hidle
      (callVal_own rfl rfl (by simp)) ⟨trivial, I.trace⟩ (by simp)
    have hv' : ((s.ev (.exited t)).setStage t .kClear).view xa t = some r := hv
    rw [hv']
    refine ⟨.inl G, ?_, M.upd rfl (fun h => absurd h (hne0 (by simp))), htid⟩
    exact L.addExited rfl (by simp [Stage.past])
  | kClear => simp [ownStep] at h
  | kWake => simp [ownStep] at h
  | dead => simp [ownStep] at h

theorem Good.waiting_user {T : Thr} {c : Cons} {m : Option Rec} (G : Good b sig T c m) :
    (∀ j, c = some (j, .detach, .start) → ∃ r, m = some r) := by
  intro j hc
  cases h : T.stage <;> simp only [Good, h, Live, Stuck, Aband, Lost, Over, Det, DetGone, Released, Pending] at G <;> grind

/-- Link under a change of consumption phase with an event. -/
theorem Link.addJoined {h j : Inst} {T : Thr} {l : List Ev} {v : Nat} {m : Option Rec} {p : Phase}
    (L : Link h T (some (j, .join, p)) m l) (hp : p ≠ .freed) (hm : m ≠ none) :
    Link h T (some (j, .join, .freed)) none (.joined j h v :: .unmap h j :: l) := by
  have hnone : ∀ j, Ev.unmap h j ∉ l := fun j hj => hm (L.um.mp ⟨j, hj⟩)
  constructor <;> try intros
  · simp [L.ret]
  · simp [L.ex]
  · simp [L.cl]
  · simp [L.jc]
  · simp [L.dc]
  · next h => simp at h; rcases h with h | h
              · rw [h.1]
              · have := L.jd _ _ h; simp [hp] at this
  · simp [L.dd]
  · obtain ⟨p, hp⟩ := L.cr; exact ⟨p, List.mem_cons_of_mem _ (List.mem_cons_of_mem _ hp)⟩
  · next h => simp at h; exact L.cr1 _ _ _ h
  · simp
  · rw [unmaps_cons_other (by simp)]
    have := unmaps_zero hnone
    unfold unmaps at this ⊢
    rw [List.filter_cons]; simp [this]

theorem Link.addDetachFreed {h j : Inst} {T : Thr} {l : List Ev} {m : Option Rec} {p : Phase}
    (L : Link h T (some (j, .detach, p)) m l) (hm : m ≠ none) :
    Link h T (some (j, .detach, .freed)) none (.detachDone j h :: .unmap h j :: l) := by
  have hnone : ∀ j, Ev.unmap h j ∉ l := fun j hj => hm (L.um.mp ⟨j, hj⟩)
  constructor <;> try intros
  · simp [L.ret]
  · simp [L.ex]
  · simp [L.cl]
  · simp [L.jc]
  · simp [L.dc]
  · next h => simp at h; have := L.jd _ _ h; simp at this
  · next j' =>
    simp [L.dd]
    constructor
    · rintro (rfl | h | h)
      · rfl
      · exact h.1
      · exact h.1
    · rintro rfl; exact .inl rfl
  · obtain ⟨p, hp⟩ := L.cr; exact ⟨p, List.mem_cons_of_mem _ (List.mem_cons_of_mem _ hp)⟩
  · next h => simp at h; exact L.cr1 _ _ _ h
  · simp
  · rw [unmaps_cons_other (by simp)]
    have := unmaps_zero hnone
    unfold unmaps at this ⊢
    rw [List.filter_cons]; simp [this]

theorem Link.addReleased {h j : Inst} {T : Thr} {l : List Ev} {m m' : Option Rec}
    (L : Link h T (some (j, .detach, .start)) m l) (hm : m' = none ↔ m = none) :
    Link h T (some (j, .detach, .released)) m' (.detachDone j h :: l) := by
  constructor <;> try intros
  · simp [L.ret]
  · simp [L.ex]
  · simp [L.cl]
  · simp [L.jc]
  · simp [L.dc]
  · next h => simp at h; have := L.jd _ _ h; simp at this
  · simp [L.dd, eq_comm]
  · obtain ⟨p, hp⟩ := L.cr; exact ⟨p, List.mem_cons_of_mem _ hp⟩
  · next h => simp at h; exact L.cr1 _ _ _ h
  · simp [L.um, hm]
  · rw [unmaps_cons_other (by simp)]; exact L.um1

/-- In the freeing phase the target has been cleared. -/
theorem Good.freeing {T : Thr} {m : Option Rec} {j : Inst} {k : Kind} (G : Good b sig T (some (j, k, .freeing)) m) :
    (b = true ∨ T.clear = true) ∧ ∃ r, m = some r ∧
      (b = true ∨ T.stage.past ∧ r.tid = 0 ∧ T.ret = some r.ret ∧
        (k = .join → r.detached = .abandoned) ∧ (k = .detach → r.detached = .detached)) := by
  cases h : T.stage <;> simp only [Good, h, Live, Stuck, Aband, Lost, Over, Det, DetGone, Released, Pending] at G <;>
    simp [Stage.past] at G ⊢ <;> grind

theorem Good.freed {T : Thr} {m : Option Rec} {j : Inst} {k : Kind} (G : Good b sig T (some (j, k, .freeing)) m) :
    Good b sig T (some (j, k, .freed)) none := by
  cases h : T.stage <;> simp only [Good, h, Live, Stuck, Aband, Lost, Over, Det, DetGone, Released, Pending] at G ⊢ <;>
    simp at G ⊢ <;> grind

theorem Good.startFree {T : Thr} {m : Option Rec} {j : Inst} {k : Kind} {r : Rec}
    (G : Good b sig T (some (j, k, .waiting)) m) (hm : m = some r) (hr : b = true ∨ r.tid = 0) (ht : T.tid ≠ 0) :
    Good b sig T (some (j, k, .freeing)) m := by
  subst hm
  cases h : T.stage <;> simp only [Good, h, Live, Stuck, Aband, Lost, Over, Det, DetGone, Released, Pending] at G ⊢ <;>
    cases k <;> simp at G ⊢ <;> grind

theorem Good.waitRec {T : Thr} {m : Option Rec} {j : Inst} {k : Kind}
    (G : Good b sig T (some (j, k, .waiting)) m) : ∃ r, m = some r ∧ (r.tid = T.tid ∨ r.tid = 0) := by
  cases h : T.stage <;> simp only [Good, h, Live, Stuck, Aband, Lost, Over, Det, DetGone, Released, Pending] at G <;>
    cases k <;> simp at G <;> grind

theorem Good.swapReleased {T : Thr} {j : Inst} {r : Rec} (G : Good b sig T (some (j, .detach, .start)) (some r))
    (hr : r.detached ≠ .abandoned) :
    Good b sig T (some (j, .detach, .released)) (some { r with detached := .detached }) := by
  cases h : T.stage <;> simp only [Good, h, Live, Stuck, Aband, Lost, Over, Det, DetGone, Released, Pending] at G ⊢ <;>
    simp at G ⊢ <;> grind

theorem Good.swapWaiting {T : Thr} {j : Inst} {r : Rec} (G : Good b sig T (some (j, .detach, .start)) (some r))
    (hr : r.detached = .abandoned) :
    Good b sig T (some (j, .detach, .waiting)) (some { r with detached := .detached }) := by
  cases h : T.stage <;> simp only [Good, h, Live, Stuck, Aband, Lost, Over, Det, DetGone, Released, Pending] at G ⊢ <;>
    simp at G ⊢ <;> grind

end Origin.Life
