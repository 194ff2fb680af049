import Verif.Props.LogProc
/-! # Program start with any logger -/

namespace Origin.LogProc

open Proc (Cfg Fn Tid FnId Exit Ev Action boots bootCourse)

set_option linter.unusedSimpArgs false
set_option linter.unusedVariables false

variable {c : Cfg} {n m : Nat} {s s' : State}

/-- The frame of `entry` (or of `origin_main`) on a stack. -/
def bootTop (l : List Frame) : Option Frame := l.find? fun g => g.loop = some .boot

/-- `entry` before slot `k`. -/
def bootPre (c : Cfg) (k : Nat) : List Ev := .runtimeInit :: (List.range k).map fun i => .ctor (c.initStart + i * c.ws) c.args

structure BI (c : Cfg) (n : Nat) (s : State) : Prop where
  pos : 1 ≤ s.nextT
  at_ : match bootTop (s.stk 0) with
    | some .entry => boots (plain c s.log) = []
    | some (.init p) => ∃ k, k ≤ n ∧ p = c.initFirst + k * c.ws ∧ boots (plain c s.log) = bootPre c k
    | some .callMain | some (.user .main) | some (.mainDone _) => boots (plain c s.log) = bootPre c n ++ [.main c.args]
    | some _ => False
    | none => ∃ v, boots (plain c s.log) = bootCourse c n v

theorem bootTop_cons (g : Frame) (l : List Frame) : bootTop (g :: l) = if g.loop = some .boot then some g else bootTop l := by
  unfold bootTop
  rw [List.find?_cons]
  by_cases h : g.loop = some .boot <;> simp [h]

theorem bootTop_none {l : List Frame} (h : ∀ g ∈ l, g.loop ≠ some .boot) : bootTop l = none := by
  unfold bootTop
  simpa using h

theorem BI.same (B : BI c n s) (h0 : 1 ≤ s'.nextT) (h1 : bootTop (s'.stk 0) = bootTop (s.stk 0)) (h2 : boots (plain c s'.log) = boots (plain c s.log)) : BI c n s' := by
  refine ⟨h0, ?_⟩
  have := B.at_
  rw [h1, h2]
  exact this

theorem user_bi (B : BI c n s) (I : CInv c s) {t : Tid} {top : Frame} {rest : List Frame} (hs : s.stk t = top :: rest) (hu : top.users = true) {x : Action} (ht : x.tid = t)
    (h : userStep c s t top rest x = some s') : BI c n s' := by
  have hpos := B.pos
  by_cases hm : top = .user .main ∧ ∃ t' v, x = .ret t' v
  · obtain ⟨rfl, t', v, rfl⟩ := hm
    simp only [userStep, Option.some.injEq] at h
    subst h
    have h0 : t = 0 := Classical.byContradiction fun h0 => I.boot t h0 (.user .main) (by rw [hs]; simp) rfl
    subst h0
    have := B.at_
    simp only [hs, bootTop_cons, Frame.loop, if_true] at this
    exact ⟨hpos, by simpa [State.trace, State.setStk, bootTop_cons, Frame.loop, plain, Msg.announces] using this⟩
  · have hz : s.nextT ≠ 0 := Nat.pos_iff_ne_zero.mp hpos
    have key : ∀ (l : List Frame), (∀ g ∈ l, g.loop ≠ some .boot) → s'.stk 0 = (if 0 = t then l ++ top :: rest else s.stk 0) → bootTop (s'.stk 0) = bootTop (s.stk 0) := by
      intro l hl h
      rw [h]
      split
      · next h0 =>
        subst h0; rw [hs]
        unfold bootTop
        rw [List.find?_append, List.find?_eq_none.mpr (by simpa using hl), Option.none_or]
      · rfl
    cases x with
    | spawn u =>
      simp only [userStep] at h
      split at h <;> cases h
      refine B.same (Nat.le_add_left ..) (key [.createdMsg s.nextT] (by simp [Frame.loop]) ?_) (by simp [State.ev, State.setStk, plain, announced, boots, Ev.boot])
      simp only [State.ev, State.setStk]
      split
      · rfl
      · rw [if_neg (Ne.symm hz)]
    | regThr u =>
      simp only [userStep] at h
      split at h <;> cases h
      exact B.same hpos rfl (by simp [State.ev, State.setTd, plain, announced, boots, Ev.boot])
    | regProg u =>
      simp only [userStep] at h
      split at h <;> cases h
      exact B.same hpos (key [.regLock] (by simp [Frame.loop]) rfl) rfl
    | exit u v =>
      simp only [userStep] at h
      cases h
      exact B.same hpos (key [.exitThr s.nextE v] (by simp [Frame.loop]) rfl) (by simp [State.beginExit, State.ev, State.setStk, plain, announced, boots, Ev.boot])
    | immExit u v =>
      simp only [userStep] at h
      cases h
      exact B.same hpos (key [.logger (.exiting none v), .immGrp v] (by simp [Frame.loop]) rfl) (by simp [State.trace, plain, Msg.announces])
    | ret u v =>
      have key2 : top.loop ≠ some .boot → ∀ (l : List Frame), (∀ g ∈ l, g.loop ≠ some .boot) → s'.stk 0 = (if 0 = t then l ++ rest else s.stk 0) → bootTop (s'.stk 0) = bootTop (s.stk 0) := by
        intro hb l hl h
        rw [h]
        split
        · next h0 =>
          subst h0; rw [hs, bootTop_cons, if_neg hb]
          unfold bootTop
          rw [List.find?_append, List.find?_eq_none.mpr (by simpa using hl), Option.none_or]
        · rfl
      simp only [userStep] at h
      split at h
      · exact absurd ⟨rfl, _, _, rfl⟩ hm
      · cases h
        exact B.same hpos (key2 (by simp [Frame.loop]) [.logger .returned, .startDone] (by simp [Frame.loop]) rfl) (by simp [State.trace, plain, Msg.announces])
      · next h1 h2 =>
        cases h
        refine B.same hpos (key2 ?_ [] (by simp) rfl) rfl
        cases top <;> first | (cases hu; done) | skip
        · next fn => cases fn <;> first | (simp [Frame.loop]; done) | exact absurd rfl h1
        · simp [Frame.loop]
    | step u => cases h

theorem bootPre_succ (k : Nat) : bootPre c (k + 1) = bootPre c k ++ [.ctor (c.initStart + k * c.ws) c.args] := by
  simp [bootPre, List.range_succ]

theorem boots_cons' {x : Ev} (hx : x.boot = true) (l : List Ev) : boots (x :: l) = boots l ++ [x] := by simp [boots, hx]

theorem frame_bi (hok : c.Ok n m) (B : BI c n s) (I : CInv c s) {t : Tid} {fr : Frame} {rest : List Frame} (hs : s.stk t = fr :: rest) (h : frameStep c s t rest fr = some s') : BI c n s' := by
  have hpos := B.pos
  have K := I.ok t
  rw [hs] at K
  by_cases hb : fr.loop = some .boot
  · have h0 : t = 0 := Classical.byContradiction fun h0 => I.boot t h0 fr (by rw [hs]; simp) hb
    subst h0
    have hr : bootTop rest = none := bootTop_none (K.2.1 _ hb)
    have W := B.at_
    rw [hs, bootTop_cons, if_pos hb] at W
    cases fr <;> first | (cases hb; done) | skip
    case entry =>
      simp only [frameStep, Option.some.injEq] at h; subst h
      refine ⟨hpos, ?_⟩
      simp only [State.ev, State.setStk, if_true, bootTop_cons, Frame.loop]
      refine ⟨0, Nat.zero_le _, by simp, ?_⟩
      rw [plain_ev rfl, boots_cons' rfl, show boots (plain c s.log) = [] from W]; simp [bootPre]
    case init p =>
      obtain ⟨k, hk, hp, hW⟩ := W
      have hF : n ≠ 0 → c.initFirst = c.initStart := by
        intro h0
        unfold Cfg.initFirst
        split
        · rfl
        · next hf => exact absurd (hok.init0 (by simpa using hf)) h0
      have hE : c.initEnd = c.initFirst + n * c.ws := by
        unfold Cfg.initFirst
        split
        · next hf => exact hok.init hf
        · next hf => rw [hok.init0 (by simpa using hf)]; simp
      simp only [frameStep] at h
      split at h <;> (simp only [Option.some.injEq] at h; subst h)
      · next hp' =>
        have hkn : k = n := by
          rw [hp, hE] at hp'
          exact Nat.eq_of_mul_eq_mul_right hok.ws (by omega)
        refine ⟨hpos, ?_⟩
        simp only [State.trace, State.setStk, if_true, bootTop_cons, Frame.loop]
        simp only [reduceCtorEq, if_false]
        rw [plain_msg rfl, boots_cons' rfl, hW, hkn]
      · next hp' =>
        have hkn : k < n := by
          rcases Nat.lt_or_eq_of_le hk with h | h
          · exact h
          · exact absurd (by rw [hp, hE, h]) hp'
        refine ⟨hpos, ?_⟩
        simp only [State.trace, State.setStk, if_true, bootTop_cons, Frame.loop]
        simp only [reduceCtorEq, if_false]
        refine ⟨k + 1, hkn, by rw [hp, Nat.add_mul]; omega, ?_⟩
        rw [plain_msg rfl, boots_cons' rfl, hW, bootPre_succ, hp, hF (by omega)]
    case user fn => cases h
    case callMain =>
      simp only [frameStep, Option.some.injEq] at h; subst h
      refine ⟨hpos, ?_⟩
      simp only [State.ev, State.setStk, if_true, bootTop_cons, Frame.loop]
      simpa [plain, announced] using W
    case mainDone v =>
      simp only [frameStep, Option.some.injEq] at h; subst h
      refine ⟨hpos, ?_⟩
      simp only [State.ev, State.setStk, if_true, bootTop_cons, Frame.loop, State.beginExit, hr, reduceCtorEq, if_false]
      refine ⟨v, ?_⟩
      have W' : boots (plain c s.log) = bootPre c n ++ [.main c.args] := W
      have e1 : boots (plain c (.ev (.exitBegin 0 s.nextE v) :: .ev (.mainRet v) :: s.log)) = boots (plain c s.log) ++ [.mainRet v] := by
        rw [plain_ev rfl, plain_ev rfl, ← boots_cons' rfl]; simp [boots, Ev.boot]
      rw [e1, W']
      simp [bootCourse, bootPre]
  · have hstay : ∀ (l : List Frame), (∀ g ∈ l, g.loop ≠ some .boot) → s'.stk 0 = (if 0 = t then l ++ rest else s.stk 0) → bootTop (s'.stk 0) = bootTop (s.stk 0) := by
      intro l hl h
      rw [h]
      split
      · next h0 =>
        subst h0; rw [hs, bootTop_cons, if_neg hb]
        unfold bootTop
        rw [List.find?_append, List.find?_eq_none.mpr (by simpa using hl), Option.none_or]
      · rfl
    have R : (s.release c).log = s.log ∧ (s.release c).nextT = s.nextT ∧ (s.release c).dead = s.dead ∧ (s.release c).stk = s.stk := by unfold State.release; split <;> exact ⟨rfl, rfl, rfl, rfl⟩
    have A : ∀ s1, s.acquire c t = some s1 → s1.log = s.log ∧ s1.nextT = s.nextT ∧ s1.dead = s.dead ∧ s1.stk = s.stk := by
      intro s1 h
      unfold State.acquire at h
      (repeat' split at h) <;> cases h <;> exact ⟨rfl, rfl, rfl, rfl⟩
    cases fr <;> first | (exact absurd rfl hb; done) | skip
    all_goals simp only [frameStep] at h
    all_goals (repeat' split at h)
    all_goals try cases h
    all_goals try
      (rw [Option.map_eq_some_iff] at h
       obtain ⟨s1, h1, h2⟩ := h
       subst h2
       obtain ⟨a1, a2, a3, a4⟩ := A s1 h1)
    all_goals refine B.same ?_ ?_ ?_
    all_goals first
      | exact hpos
      | (simp [State.trace, State.ev, State.setStk, State.setTd, *]; done)
      | (simp [State.trace, State.ev, State.setStk, State.setTd, plain, announced, Msg.announces, boots, Ev.boot, *]; done)
      | exact hstay [] (by simp) rfl
      | exact hstay [_] (by simp [Frame.loop]) rfl
      | exact hstay [_, _] (by simp [Frame.loop]) rfl
      | exact hstay [_, _, _] (by simp [Frame.loop]) rfl
      | (refine hstay [.regPush] ?_ ?_ <;> simp [Frame.loop, State.ev, State.setStk, a4]; done)
      | (by_cases h0 : 0 = t
         · subst h0; simp [State.ev, State.setStk, bootTop_cons, Frame.loop, hs]; done
         · simp [State.ev, State.setStk, h0, a4]; done)
      | (by_cases h0 : 0 = t
         · subst h0; simp [State.ev, State.setStk, bootTop_cons, Frame.loop, hs]; done
         · simp [State.ev, State.setStk, h0, R.2.2.2]; done)
      | (refine hstay [] ?_ ?_ <;> simp [State.ev, State.setStk, R.2.2.2] <;> done)
      | (have hK : rest = [] := K.2.2
         refine hstay [] ?_ ?_ <;> simp [State.ev, State.setStk, hK] <;> done)

theorem Reach.bi (hok : c.Ok n m) (h : Reach c s) : BI c n s := by
  induction h with
  | init => exact ⟨Nat.le_refl _, rfl⟩
  | step h0 h ih =>
    have I := h0.cinv
    unfold LogProc.step at h
    split at h
    · cases h
    next hd =>
    split at h
    · cases h
    next top rest hs =>
    split at h
    · next hu => exact user_bi ih I hs hu rfl h
    · split at h
      · exact frame_bi hok ih I hs h
      · cases h

end Origin.LogProc
