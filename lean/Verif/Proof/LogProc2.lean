import Verif.Proof.LogProc
/-! # Each announced function is called when the logger returns -/

namespace Origin.LogProc

open Proc (Cfg Fn Tid FnId Exit Ev Action)

set_option linter.unusedSimpArgs false

/-- What an event, or a loop of origin's, belongs to. -/
inductive Key
  | boot
  | thr
  | exit (e : Exit)
deriving DecidableEq

/-- The thread and what the event belongs to. -/
def key : Ev → Option (Tid × Key)
  | .runtimeInit | .ctor .. | .main _ | .mainRet _ => some (0, .boot)
  | .tCall t none _ | .released t => some (t, .thr)
  | .tCall t (some e) _ | .exitBegin t e _ | .tDone t e | .pTake t e _ | .pCall t e _ | .pDone t e | .fini t e _ | .immBegin t e _ | .group t e _ => some (t, .exit e)
  | .spawned _ | .tReg .. | .pReg .. | .pRegRet .. => none

/-- The frames of origin's that make the calls, or go on to. -/
def Frame.loop : Frame → Option Key
  | .entry | .init _ | .callMain | .user .main | .mainDone _ => some .boot
  | .launch | .callStart | .user .start | .startDone | .thrLoop | .thrGone => some .thr
  | .exitThr e _ | .exitLock e _ | .exitPop e _ | .exitUnlock e _ _ | .exitMsg e _ _ | .exitCall e _ _ | .exitFini e _ _ | .exitGrp e _ => some (.exit e)
  | _ => none

/-- The call that is next, and has been announced. -/
def Frame.pend (c : Cfg) (t : Tid) : Frame → Option Ev
  | .callCtor p => some (.ctor p c.args)
  | .callMain => some (.main c.args)
  | .callT o f => some (.tCall t o f)
  | .exitCall e _ f => some (.pCall t e f)
  | .callFini e p => some (.fini t e p)
  | _ => none

/-- Calls of `κ` pending on a stack. -/
def pends (c : Cfg) (t : Tid) (κ : Key) (l : List Frame) : List Ev := (l.filterMap (Frame.pend c t)).filter fun e => key e = some (t, κ)

/-- The events of `κ` on `t`. -/
def evs (t : Tid) (κ : Key) (l : List Ev) : List Ev := l.filter fun e => key e = some (t, κ)

/-- A pending call is right above its loop. -/
def Frame.over : Frame → List Frame → Prop
  | .callCtor _, r => ∃ q r', r = .init q :: r'
  | .callT none _, r => ∃ r', r = .thrLoop :: r'
  | .callT (some e) _, r => ∃ st r', r = .exitThr e st :: r'
  | .callFini e _, r => ∃ st q r', r = .exitFini e st q :: r'
  | .launch, r | .callStart, r | .user .start, r | .startDone, r | .thrLoop, r | .thrGone, r => r = []
  | _, _ => True

/-- Each loop occurs once. -/
def Ok : List Frame → Prop
  | [] => True
  | fr :: r => Ok r ∧ (∀ κ, fr.loop = some κ → ∀ g ∈ r, g.loop ≠ some κ) ∧ fr.over r

structure CInv (c : Cfg) (s : State) : Prop where
  ok : ∀ t, Ok (s.stk t)
  lt : ∀ t, ∀ g ∈ s.stk t, ∀ e, g.loop = some (.exit e) → e < s.nextE
  boot : ∀ t, t ≠ 0 → ∀ g ∈ s.stk t, g.loop ≠ some .boot
  new : ∀ t, s.nextT ≤ t → s.stk t = []
  rel : ∀ t, LEv.ev (.released t) ∈ s.log → s.stk t = [] ∧ t < s.nextT
  eq : ∀ t κ, evs t κ (plain c s.log) = pends c t κ (s.stk t) ++ evs t κ (real s.log)

theorem pends_nil {c t κ} : ∀ {l : List Frame}, Ok l → (∀ g ∈ l, g.loop ≠ some κ) → pends c t κ l = []
  | [], _, _ => rfl
  | fr :: r, h, hn => by
    have ih := pends_nil (c := c) (t := t) h.1 fun g hg => hn g (List.mem_cons_of_mem _ hg)
    have hov := h.2.2
    have hfr := hn fr (List.mem_cons_self ..)
    have hd : ∀ g r', r = g :: r' → g.loop ≠ some κ := fun g r' hg => hn g (by rw [hg]; simp)
    cases fr <;> simp only [pends, List.filterMap_cons, Frame.pend] at ih ⊢ <;> try exact ih
    all_goals simp only [List.filter_cons, ih]
    case callCtor p =>
      obtain ⟨q, r', h1⟩ := hov
      have := hd _ _ h1
      simp [key]; rintro - rfl; exact this rfl
    case callMain => simp [key]; rintro - rfl; exact hfr rfl
    case callT o f =>
      cases o with
      | none =>
        obtain ⟨r', h1⟩ := hov
        have := hd _ _ h1
        simp [key]; rintro rfl; exact this rfl
      | some e =>
        obtain ⟨st, r', h1⟩ := hov
        have := hd _ _ h1
        simp [key]; rintro rfl; exact this rfl
    case exitCall e st f => simp [key]; rintro rfl; exact hfr rfl
    case callFini e p =>
      obtain ⟨st, q, r', h1⟩ := hov
      have := hd _ _ h1
      simp [key]; rintro rfl; exact this rfl

/-- With a loop on top nothing of it is pending below. -/
theorem pends_top {c t κ fr r} (h : Ok (fr :: r)) (hk : fr.loop = some κ) : pends c t κ r = [] := pends_nil h.1 (h.2.1 κ hk)

/-- A step on `t`: its stack becomes `l`, and `new` is added to the history. -/
theorem CInv.put {c s} (I : CInv c s) {t : Tid} {l : List Frame} {s' : State} {new : List LEv} (hstk : s'.stk = upd s.stk t l) (hlog : s'.log = new ++ s.log)
    (hT : s'.nextT = s.nextT) (hE : s.nextE ≤ s'.nextE) (hrun : s.stk t ≠ [])
    (hok : Ok l) (hlt : ∀ g ∈ l, ∀ e, g.loop = some (.exit e) → e < s'.nextE) (hb : t ≠ 0 → ∀ g ∈ l, g.loop ≠ some .boot)
    (hrel : ∀ u, .ev (.released u) ∈ new → u = t ∧ l = [])
    (hkey : ∀ x ∈ plain c new ++ real new, ∀ u κ, key x = some (u, κ) → u = t)
    (heq : ∀ κ, evs t κ (plain c new) ++ pends c t κ (s.stk t) = pends c t κ l ++ evs t κ (real new)) : CInv c s' := by
  have htn : t < s.nextT := Nat.lt_of_not_le fun h => hrun (I.new t h)
  have hpl : plain c s'.log = plain c new ++ plain c s.log := by simp [hlog, plain]
  have hre : real s'.log = real new ++ real s.log := by simp [hlog, real]
  constructor
  · intro u; rw [hstk]; unfold upd; split
    · exact hok
    · exact I.ok u
  · intro u g hg e he; rw [hstk] at hg; unfold upd at hg; split at hg
    · exact hlt g hg e he
    · exact Nat.lt_of_lt_of_le (I.lt u g hg e he) hE
  · intro u hu g hg; rw [hstk] at hg; unfold upd at hg; split at hg
    · next h => exact hb (h ▸ hu) g hg
    · exact I.boot u hu g hg
  · intro u hu; rw [hT] at hu; rw [hstk]; unfold upd
    have : u ≠ t := fun h => absurd hu (Nat.not_le.mpr (h ▸ htn))
    rw [if_neg this]; exact I.new u hu
  · intro u hu
    rw [hlog, List.mem_append] at hu
    rw [hT, hstk]; unfold upd
    rcases hu with hu | hu
    · obtain ⟨rfl, rfl⟩ := hrel u hu
      exact ⟨if_pos rfl, htn⟩
    · obtain ⟨h1, h2⟩ := I.rel u hu
      have : u ≠ t := fun h => hrun (h ▸ h1)
      rw [if_neg this]; exact ⟨h1, h2⟩
  · intro u κ
    rw [hpl, hre, hstk]
    simp only [evs, List.filter_append]
    by_cases hu : u = t
    · subst hu
      have h1 := I.eq u κ
      have h2 := heq κ
      simp only [evs] at h1 h2
      rw [h1, ← List.append_assoc, h2, List.append_assoc]
      simp [upd]
    · have h1 := I.eq u κ
      simp only [evs] at h1
      have e1 : (plain c new).filter (fun e => decide (key e = some (u, κ))) = [] := by
        rw [List.filter_eq_nil_iff]; intro x hx h
        exact hu (hkey x (List.mem_append_left _ hx) u κ (by simpa using h))
      have e2 : (real new).filter (fun e => decide (key e = some (u, κ))) = [] := by
        rw [List.filter_eq_nil_iff]; intro x hx h
        exact hu (hkey x (List.mem_append_right _ hx) u κ (by simpa using h))
      rw [e1, e2, h1]
      simp [upd, hu]

theorem pends_append {c t κ} (l l' : List Frame) : pends c t κ (l ++ l') = pends c t κ l ++ pends c t κ l' := by simp [pends]

/-- A step of the frame on top. -/
theorem CInv.frame {c s} (I : CInv c s) {t : Tid} {fr : Frame} {rest front : List Frame} {s' : State} {new : List LEv} (hs : s.stk t = fr :: rest)
    (hstk : s'.stk = upd s.stk t (front ++ rest)) (hlog : s'.log = new ++ s.log) (hT : s'.nextT = s.nextT) (hE : s'.nextE = s.nextE)
    (hok : Ok (front ++ rest)) (hfront : ∀ g ∈ front, g.loop = none ∨ g.loop = fr.loop)
    (hrel : ∀ u, .ev (.released u) ∉ new)
    (hkey : ∀ x ∈ plain c new ++ real new, ∀ u κ, key x = some (u, κ) → u = t)
    (heq : ∀ κ, evs t κ (plain c new) ++ pends c t κ [fr] ++ pends c t κ rest = pends c t κ front ++ pends c t κ rest ++ evs t κ (real new)) : CInv c s' := by
  refine I.put hstk hlog hT (Nat.le_of_eq hE.symm) (by rw [hs]; simp) hok (fun g hg e he => ?_) (fun h0 g hg => ?_) (fun u hu => absurd hu (hrel u)) hkey (fun κ => ?_)
  · rw [hE]
    rcases List.mem_append.mp hg with hg | hg
    · rcases hfront g hg with h | h
      · rw [h] at he; cases he
      · exact I.lt t fr (by rw [hs]; simp) e (by rw [← h]; exact he)
    · exact I.lt t g (by rw [hs]; exact List.mem_cons_of_mem _ hg) e he
  · rcases List.mem_append.mp hg with hg | hg
    · rcases hfront g hg with h | h
      · rw [h]; simp
      · rw [h]; exact I.boot t h0 fr (by rw [hs]; simp)
    · exact I.boot t h0 g (by rw [hs]; exact List.mem_cons_of_mem _ hg)
  · have : fr :: rest = [fr] ++ rest := rfl
    rw [hs, this, pends_append, pends_append, ← List.append_assoc, heq]

/-- An event of a loop that is on top, or comes next. -/
theorem swap {c t κ x} {rest : List Frame} (h : ∀ κ, key x = some (t, κ) → pends c t κ rest = []) :
    evs t κ [x] ++ pends c t κ rest = pends c t κ rest ++ evs t κ [x] := by
  by_cases hk : key x = some (t, κ)
  · rw [h κ hk]; simp
  · simp [evs, hk]

theorem Ok.same {fr fr' : Frame} {r} (h : Ok (fr :: r)) (hl : fr'.loop = fr.loop) (ho : fr'.over r) : Ok (fr' :: r) :=
  ⟨h.1, by rw [hl]; exact h.2.1, ho⟩

theorem Ok.push {fr : Frame} {r} (h : Ok r) (hl : fr.loop = none) (ho : fr.over r) : Ok (fr :: r) :=
  ⟨h, by rw [hl]; simp, ho⟩

theorem CInv.congr {c s s'} (I : CInv c s) (h1 : s'.stk = s.stk) (h2 : s'.log = s.log) (h3 : s'.nextT = s.nextT) (h4 : s'.nextE = s.nextE) : CInv c s' := by
  constructor
  · rw [h1]; exact I.ok
  · rw [h1, h4]; exact I.lt
  · rw [h1]; exact I.boot
  · rw [h1, h3]; exact I.new
  · rw [h1, h2, h3]; exact I.rel
  · rw [h1, h2]; exact I.eq

/-- A step that makes no call: `new` is nothing, or a message. -/
theorem CInv.msg {c s} (I : CInv c s) {t : Tid} {fr : Frame} {rest front : List Frame} {s' : State} {new : List LEv} (hs : s.stk t = fr :: rest)
    (hstk : s'.stk = upd s.stk t (front ++ rest)) (hlog : s'.log = new ++ s.log) (hT : s'.nextT = s.nextT) (hE : s'.nextE = s.nextE)
    (hok : Ok (front ++ rest)) (hfront : ∀ g ∈ front, g.loop = none ∨ g.loop = fr.loop)
    (hkey : ∀ x ∈ plain c new, ∀ u κ, key x = some (u, κ) → u = t)
    (hr : real new = []) (hp : plain c new ++ [fr].filterMap (Frame.pend c t) = front.filterMap (Frame.pend c t)) : CInv c s' := by
  refine I.frame hs hstk hlog hT hE hok hfront (fun u hu => ?_) (by rw [hr, List.append_nil]; exact hkey) (fun κ => ?_)
  · have : Ev.released u ∈ real new := List.mem_filterMap.mpr ⟨_, hu, rfl⟩
    rw [hr] at this; cases this
  · rw [hr, evs, pends, ← List.filter_append, hp]; simp [pends, evs]

/-- A step that makes a call, or has another effect. -/
theorem CInv.call {c s} (I : CInv c s) {t : Tid} {fr : Frame} {rest front : List Frame} {s' : State} {new : List LEv} (x : Ev) (hs : s.stk t = fr :: rest)
    (hstk : s'.stk = upd s.stk t (front ++ rest)) (hlog : s'.log = new ++ s.log) (hT : s'.nextT = s.nextT) (hE : s'.nextE = s.nextE)
    (hok : Ok (front ++ rest)) (hfront : ∀ g ∈ front, g.loop = none ∨ g.loop = fr.loop)
    (hx : ∀ u κ, key x = some (u, κ) → u = t ∧ pends c t κ rest = []) (hrel : ∀ u, x ≠ .released u)
    (hr : real new = [x]) (hp : plain c new ++ [fr].filterMap (Frame.pend c t) = [x]) (hq : front.filterMap (Frame.pend c t) = []) : CInv c s' := by
  refine I.frame hs hstk hlog hT hE hok hfront (fun u hu => ?_) (fun y hy u κ hk => ?_) (fun κ => ?_)
  · have : Ev.released u ∈ real new := List.mem_filterMap.mpr ⟨_, hu, rfl⟩
    rw [hr] at this; simp at this; exact hrel u this.symm
  · have : y ∈ [x] := by
      rcases List.mem_append.mp hy with hy | hy
      · rw [← hp]; exact List.mem_append_left _ hy
      · rw [← hr]; exact hy
    simp at this; subst this
    exact (hx u κ hk).1
  · have h1 : evs t κ (plain c new) ++ pends c t κ [fr] = evs t κ [x] := by rw [evs, pends, ← List.filter_append, hp]; rfl
    have h2 : pends c t κ front = [] := by rw [pends, hq]; rfl
    rw [h1, h2, hr, List.nil_append]
    exact swap fun κ hk => (hx t κ hk).2

theorem stk_same {s : State} {t : Tid} {l : List Frame} (h : s.stk t = l) : s.stk = upd s.stk t l := by
  funext x; simp only [upd]; split
  · next hx => rw [hx, h]
  · rfl

theorem acquire_same {c s s' t} (h : State.acquire c s t = some s') : s'.stk = s.stk ∧ s'.log = s.log ∧ s'.nextT = s.nextT ∧ s'.nextE = s.nextE := by
  unfold State.acquire at h
  split at h
  · split at h
    · simp only [Option.some.injEq] at h; subst h; exact ⟨rfl, rfl, rfl, rfl⟩
    · cases h
  · simp only [Option.some.injEq] at h; subst h; exact ⟨rfl, rfl, rfl, rfl⟩

theorem frame_cinv {c s s'} (I : CInv c s) {t : Tid} {fr : Frame} {rest : List Frame} (hs : s.stk t = fr :: rest)
    (h : frameStep c s t rest fr = some s') : CInv c s' := by
  have K := I.ok t
  rw [hs] at K
  have ne : ∀ {κ}, fr.loop = some κ → pends c t κ rest = [] := fun h => pends_top K h
  have b0 : fr.loop = some .boot → 0 = t := fun h => Classical.byContradiction fun h0 => I.boot t (fun h => h0 h.symm) fr (by rw [hs]; simp) h
  cases fr with
  | user fn => cases h
  | logger m => cases h
  | entry =>
    simp only [frameStep, Option.some.injEq] at h; subst h
    exact I.call (.runtimeInit) (front := [.init c.initFirst]) (new := [.ev (.runtimeInit)]) hs rfl rfl rfl rfl (K.same rfl trivial) (by simp [Frame.loop]) (by simp only [key, Option.some.injEq, Prod.mk.injEq]; rintro u κ ⟨rfl, rfl⟩; exact ⟨b0 rfl, ne rfl⟩) (by simp) rfl rfl rfl
  | init q =>
    simp only [frameStep] at h
    split at h <;> (simp only [Option.some.injEq] at h; subst h)
    · exact I.msg (front := [.logger .main, .callMain]) (new := [.msg t (.main)]) hs rfl rfl rfl rfl (.push (K.same rfl trivial) rfl trivial) (by simp [Frame.loop]) (by simp only [plain, Msg.announces, List.filterMap_cons, List.filterMap_nil, List.mem_singleton, forall_eq, key, Option.some.injEq, Prod.mk.injEq]; rintro u κ ⟨rfl, rfl⟩; exact b0 rfl) rfl rfl
    · exact I.msg (front := [.logger (.ctor q), .callCtor q, .init (q + c.ws)]) (new := [.msg t (.ctor q)]) hs rfl rfl rfl rfl (.push (.push (K.same rfl trivial) rfl ⟨_, _, rfl⟩) rfl trivial) (by simp [Frame.loop]) (by simp only [plain, Msg.announces, List.filterMap_cons, List.filterMap_nil, List.mem_singleton, forall_eq, key, Option.some.injEq, Prod.mk.injEq]; rintro u κ ⟨rfl, rfl⟩; exact b0 rfl) rfl rfl
  | callCtor q =>
    simp only [frameStep, Option.some.injEq] at h; subst h
    obtain ⟨q', r', rfl⟩ := K.2.2
    have h0 : 0 = t := Classical.byContradiction fun h0 => I.boot t (fun h => h0 h.symm) (.init q') (by rw [hs]; simp) rfl
    exact I.call (.ctor q c.args) (front := [.user (.ctor q)]) (new := [.ev (.ctor q c.args)]) hs rfl rfl rfl rfl (.push K.1 rfl trivial) (by simp [Frame.loop]) (by simp only [key, Option.some.injEq, Prod.mk.injEq]; rintro u κ ⟨rfl, rfl⟩; exact ⟨h0, (pends_top K.1 rfl : pends c t _ r' = [])⟩) (by simp) rfl rfl rfl
  | callMain =>
    simp only [frameStep, Option.some.injEq] at h; subst h
    exact I.call (.main c.args) (front := [.user .main]) (new := [.ev (.main c.args)]) hs rfl rfl rfl rfl (K.same rfl trivial) (by simp [Frame.loop]) (by simp only [key, Option.some.injEq, Prod.mk.injEq]; rintro u κ ⟨rfl, rfl⟩; exact ⟨b0 rfl, ne rfl⟩) (by simp) rfl rfl rfl
  | mainDone st =>
    simp only [frameStep, Option.some.injEq] at h; subst h
    have h0 := b0 rfl
    subst h0
    have nb := ne rfl
    have fresh : ∀ g ∈ rest, g.loop ≠ some (.exit s.nextE) := fun g hg he =>
      absurd (I.lt 0 g (by rw [hs]; exact List.mem_cons_of_mem _ hg) _ he) (Nat.lt_irrefl _)
    refine I.put (t := 0) (l := .exitThr s.nextE st :: rest) (new := [.ev (.exitBegin 0 s.nextE st), .ev (.mainRet st)]) rfl rfl rfl (Nat.le_succ _) (by rw [hs]; simp)
      ⟨K.1, by simp only [Frame.loop, Option.some.injEq]; rintro κ rfl; exact fresh, trivial⟩ (fun g hg e he => ?_) (fun h => absurd rfl h) (by simp)
      (by simp [plain, real, announced, key]) (fun κ => ?_)
    · rcases List.mem_cons.mp hg with rfl | hg
      · simp only [Frame.loop, Option.some.injEq, Key.exit.injEq] at he; subst he; exact Nat.lt_succ_self _
      · exact Nat.lt_succ_of_lt (I.lt 0 g (by rw [hs]; exact List.mem_cons_of_mem _ hg) e he)
    · have e1 : pends c 0 κ (s.stk 0) = pends c 0 κ rest := by rw [hs]; rfl
      have e2 : pends c 0 κ (.exitThr s.nextE st :: rest) = pends c 0 κ rest := rfl
      rw [e1, e2]
      have s1 := swap (c := c) (t := 0) (κ := κ) (x := .mainRet st) (rest := rest) (by simp [key]; exact nb)
      have s2 := swap (c := c) (t := 0) (κ := κ) (x := .exitBegin 0 s.nextE st) (rest := rest) (by simp [key]; exact pends_nil K.1 fresh)
      have e3 : plain c [.ev (.exitBegin 0 s.nextE st), .ev (.mainRet st)] = [.exitBegin 0 s.nextE st] ++ [.mainRet st] := rfl
      have e4 : real [.ev (.exitBegin 0 s.nextE st), .ev (.mainRet st)] = [.exitBegin 0 s.nextE st] ++ [.mainRet st] := rfl
      rw [e3, e4]
      have e5 : ∀ a b, evs 0 κ (a ++ b) = evs 0 κ a ++ evs 0 κ b := fun a b => by simp [evs]
      rw [e5, List.append_assoc, s1, ← List.append_assoc, s2, List.append_assoc]
  | createdMsg u =>
    simp only [frameStep, Option.some.injEq] at h; subst h
    exact I.msg (front := [.logger (.created u)]) (new := [.msg t (.created u)]) hs rfl rfl rfl rfl (.push K.1 rfl trivial) (by simp [Frame.loop]) (by simp [plain, Msg.announces]) rfl rfl
  | launch =>
    simp only [frameStep, Option.some.injEq] at h; subst h
    exact I.msg (front := [.logger .launched, .callStart]) (new := [.msg t (.launched)]) hs rfl rfl rfl rfl (.push (K.same rfl K.2.2) rfl trivial) (by simp [Frame.loop]) (by simp [plain, Msg.announces]) rfl rfl
  | callStart =>
    simp only [frameStep, Option.some.injEq] at h; subst h
    exact I.msg (front := [.user .start]) (new := []) hs rfl rfl rfl rfl (K.same rfl K.2.2) (by simp [Frame.loop]) (by simp [plain, Msg.announces]) rfl rfl
  | startDone =>
    simp only [frameStep, Option.some.injEq] at h; subst h
    exact I.msg (front := [.thrLoop]) (new := []) hs rfl rfl rfl rfl (K.same rfl K.2.2) (by simp [Frame.loop]) (by simp [plain, Msg.announces]) rfl rfl
  | thrLoop =>
    simp only [frameStep] at h
    split at h <;> (simp only [Option.some.injEq] at h; subst h)
    · next f fs _ _ =>
      exact I.msg (front := [.logger (.tdtor none f), .callT none f, .thrLoop]) (new := [.msg t (.tdtor none f)]) hs rfl rfl rfl rfl (.push (.push K rfl ⟨_, rfl⟩) rfl trivial) (by simp [Frame.loop]) (by simp [plain, Msg.announces, key]) rfl rfl
    · exact I.msg (front := [.logger .gone, .thrGone]) (new := [.msg t (.gone)]) hs rfl rfl rfl rfl (.push (K.same rfl K.2.2) rfl trivial) (by simp [Frame.loop]) (by simp [plain, Msg.announces]) rfl rfl
  | callT o f =>
    simp only [frameStep, Option.some.injEq] at h; subst h
    cases o with
    | none =>
      obtain ⟨r', rfl⟩ := K.2.2
      exact I.call (.tCall t none f) (front := [.user (.tdtor f)]) (new := [.ev (.tCall t none f)]) hs rfl rfl rfl rfl (.push K.1 rfl trivial) (by simp [Frame.loop]) (by simp only [key, Option.some.injEq, Prod.mk.injEq]; rintro u κ ⟨rfl, rfl⟩; exact ⟨rfl, (pends_top K.1 rfl : pends c t _ r' = [])⟩) (by simp) rfl rfl rfl
    | some e =>
      obtain ⟨st, r', rfl⟩ := K.2.2
      exact I.call (.tCall t (some e) f) (front := [.user (.tdtor f)]) (new := [.ev (.tCall t (some e) f)]) hs rfl rfl rfl rfl (.push K.1 rfl trivial) (by simp [Frame.loop]) (by simp only [key, Option.some.injEq, Prod.mk.injEq]; rintro u κ ⟨rfl, rfl⟩; exact ⟨rfl, (pends_top K.1 rfl : pends c t _ r' = [])⟩) (by simp) rfl rfl rfl
  | thrGone =>
    simp only [frameStep, Option.some.injEq] at h; subst h
    have hn : rest = [] := K.2.2
    subst hn
    refine I.put (t := t) (l := []) (new := [.ev (.released t)]) rfl rfl rfl (Nat.le_refl _) (by rw [hs]; simp) trivial (by simp) (by simp) (by simp) (by simp [plain, real, announced, key]) (fun κ => ?_)
    rw [hs]; simp [plain, real, announced, pends, Frame.pend]
  | regLock =>
    simp only [frameStep] at h
    simp only [Option.map_eq_some_iff] at h
    obtain ⟨s1, h1, rfl⟩ := h
    obtain ⟨a1, a2, a3, a4⟩ := acquire_same h1
    exact I.msg (front := [.regPush]) (new := []) hs (by simp [State.setStk, a1, upd_def]) a2 a3 a4 (K.same rfl trivial) (by simp [Frame.loop]) (by simp [plain]) rfl rfl
  | regPush =>
    simp only [frameStep, Option.some.injEq] at h; subst h
    exact I.call (.pReg t s.nextF) (front := [.regUnlock s.nextF]) (new := [.ev (.pReg t s.nextF)]) hs rfl rfl rfl rfl (K.same rfl trivial) (by simp [Frame.loop]) (by simp [key]) (by simp) rfl rfl rfl
  | regUnlock f =>
    simp only [frameStep, Option.some.injEq] at h; subst h
    refine (I.congr (s' := s.release c) ?_ ?_ ?_ ?_).call (.pRegRet t f) (fr := .regUnlock f) (rest := rest) (front := []) (new := [.ev (.pRegRet t f)]) ?_ rfl rfl rfl rfl K.1 (by simp) (by simp [key]) (by simp) rfl rfl rfl <;> (unfold State.release; split <;> first | rfl | exact hs)
  | exitThr e st =>
    simp only [frameStep] at h
    split at h <;> (simp only [Option.some.injEq] at h; subst h)
    · next f fs _ _ =>
      exact I.msg (front := [.logger (.tdtor (some e) f), .callT (some e) f, .exitThr e st]) (new := [.msg t (.tdtor (some e) f)]) hs rfl rfl rfl rfl (.push (.push K rfl ⟨_, _, rfl⟩) rfl trivial) (by simp [Frame.loop]) (by simp [plain, Msg.announces, key]) rfl rfl
    · exact I.call (.tDone t e) (front := [.exitLock e st]) (new := [.ev (.tDone t e)]) hs rfl rfl rfl rfl (K.same rfl trivial) (by simp [Frame.loop]) (by simp only [key, Option.some.injEq, Prod.mk.injEq]; rintro u κ ⟨rfl, rfl⟩; exact ⟨rfl, ne rfl⟩) (by simp) rfl rfl rfl
  | exitLock e st =>
    simp only [frameStep] at h
    split at h
    · simp only [Option.map_eq_some_iff] at h
      obtain ⟨s1, h1, rfl⟩ := h
      obtain ⟨a1, a2, a3, a4⟩ := acquire_same h1
      exact I.msg (front := [.exitPop e st]) (new := []) hs (by simp [State.setStk, a1, upd_def]) a2 a3 a4 (K.same rfl trivial) (by simp [Frame.loop]) (by simp [plain]) rfl rfl
    · simp only [Option.some.injEq] at h; subst h
      exact I.call (.pDone t e) (front := [.exitFini e st c.finiFirst]) (new := [.ev (.pDone t e)]) hs rfl rfl rfl rfl (K.same rfl trivial) (by simp [Frame.loop]) (by simp only [key, Option.some.injEq, Prod.mk.injEq]; rintro u κ ⟨rfl, rfl⟩; exact ⟨rfl, ne rfl⟩) (by simp) rfl rfl rfl
  | exitPop e st =>
    simp only [frameStep] at h
    split at h <;> (simp only [Option.some.injEq] at h; subst h)
    · next f fs _ =>
      exact I.call (.pTake t e f) (front := [.exitUnlock e st f]) (new := [.ev (.pTake t e f)]) hs rfl rfl rfl rfl (K.same rfl trivial) (by simp [Frame.loop]) (by simp only [key, Option.some.injEq, Prod.mk.injEq]; rintro u κ ⟨rfl, rfl⟩; exact ⟨rfl, ne rfl⟩) (by simp) rfl rfl rfl
    · exact I.call (.pDone t e) (front := [.exitFini e st c.finiFirst]) (new := [.ev (.pDone t e)]) hs rfl rfl rfl rfl (K.same rfl trivial) (by simp [Frame.loop]) (by simp only [key, Option.some.injEq, Prod.mk.injEq]; rintro u κ ⟨rfl, rfl⟩; exact ⟨rfl, ne rfl⟩) (by simp) rfl rfl rfl
  | exitUnlock e st f =>
    simp only [frameStep, Option.some.injEq] at h; subst h
    refine (I.congr (s' := s.release c) ?_ ?_ ?_ ?_).msg (fr := .exitUnlock e st f) (rest := rest) (front := [.exitMsg e st f]) (new := []) ?_ rfl rfl rfl rfl (K.same rfl trivial) (by simp [Frame.loop]) (by simp [plain]) rfl rfl <;> (unfold State.release; split <;> first | rfl | exact hs)
  | exitMsg e st f =>
    simp only [frameStep, Option.some.injEq] at h; subst h
    exact I.msg (front := [.logger (.pdtor e f), .exitCall e st f]) (new := [.msg t (.pdtor e f)]) hs rfl rfl rfl rfl (.push (K.same rfl trivial) rfl trivial) (by simp [Frame.loop]) (by simp [plain, Msg.announces, key]) rfl rfl
  | exitCall e st f =>
    simp only [frameStep, Option.some.injEq] at h; subst h
    exact I.call (.pCall t e f) (front := [.user (.pdtor f), .exitLock e st]) (new := [.ev (.pCall t e f)]) hs rfl rfl rfl rfl (.push (K.same rfl trivial) rfl trivial) (by simp [Frame.loop]) (by simp only [key, Option.some.injEq, Prod.mk.injEq]; rintro u κ ⟨rfl, rfl⟩; exact ⟨rfl, ne rfl⟩) (by simp) rfl rfl rfl
  | exitFini e st q =>
    simp only [frameStep] at h
    split at h <;> (simp only [Option.some.injEq] at h; subst h)
    · exact I.msg (front := [.logger (.exiting (some e) st), .exitGrp e st]) (new := [.msg t (.exiting (some e) st)]) hs rfl rfl rfl rfl (.push (K.same rfl trivial) rfl trivial) (by simp [Frame.loop]) (by simp [plain, Msg.announces]) rfl rfl
    · exact I.msg (front := [.logger (.fini e (q - c.ws)), .callFini e (q - c.ws), .exitFini e st (q - c.ws)]) (new := [.msg t (.fini e (q - c.ws))]) hs rfl rfl rfl rfl (.push (.push (K.same rfl trivial) rfl ⟨_, _, _, rfl⟩) rfl trivial) (by simp [Frame.loop]) (by simp [plain, Msg.announces, key]) rfl rfl
  | callFini e q =>
    simp only [frameStep, Option.some.injEq] at h; subst h
    obtain ⟨st, q', r', rfl⟩ := K.2.2
    exact I.call (.fini t e q) (front := [.user (.fini q)]) (new := [.ev (.fini t e q)]) hs rfl rfl rfl rfl (.push K.1 rfl trivial) (by simp [Frame.loop]) (by simp only [key, Option.some.injEq, Prod.mk.injEq]; rintro u κ ⟨rfl, rfl⟩; exact ⟨rfl, (pends_top K.1 rfl : pends c t _ r' = [])⟩) (by simp) rfl rfl rfl
  | exitGrp e st =>
    simp only [frameStep, Option.some.injEq] at h; subst h
    exact I.call (.group t e st) (front := [.exitGrp e st]) (new := [.ev (.group t e st)]) hs (stk_same hs) rfl rfl rfl (K) (by simp [Frame.loop]) (by simp only [key, Option.some.injEq, Prod.mk.injEq]; rintro u κ ⟨rfl, rfl⟩; exact ⟨rfl, ne rfl⟩) (by simp) rfl rfl rfl
  | immGrp st =>
    simp only [frameStep, Option.some.injEq] at h; subst h
    have fresh : ∀ g ∈ rest, g.loop ≠ some (.exit s.nextE) := fun g hg he =>
      absurd (I.lt t g (by rw [hs]; exact List.mem_cons_of_mem _ hg) _ he) (Nat.lt_irrefl _)
    refine I.put (t := t) (l := .immGrp st :: rest) (new := [.ev (.group t s.nextE st), .ev (.immBegin t s.nextE st)]) (stk_same hs) rfl rfl (Nat.le_succ _) (by rw [hs]; simp) K (fun g hg e he => ?_) (fun h g hg => ?_) (by simp)
      (by simp [plain, real, announced, key]) (fun κ => ?_)
    · exact Nat.lt_succ_of_lt (I.lt t g (by rw [hs]; exact hg) e he)
    · exact I.boot t h g (by rw [hs]; exact hg)
    · have e1 : pends c t κ (s.stk t) = pends c t κ rest := by rw [hs]; rfl
      have e2 : pends c t κ (.immGrp st :: rest) = pends c t κ rest := rfl
      rw [e1, e2]
      have s1 := swap (c := c) (t := t) (κ := κ) (x := .immBegin t s.nextE st) (rest := rest) (by simp [key]; exact pends_nil K.1 fresh)
      have s2 := swap (c := c) (t := t) (κ := κ) (x := .group t s.nextE st) (rest := rest) (by simp [key]; exact pends_nil K.1 fresh)
      have e3 : plain c [.ev (.group t s.nextE st), .ev (.immBegin t s.nextE st)] = [.group t s.nextE st] ++ [.immBegin t s.nextE st] := rfl
      have e4 : real [.ev (.group t s.nextE st), .ev (.immBegin t s.nextE st)] = [.group t s.nextE st] ++ [.immBegin t s.nextE st] := rfl
      rw [e3, e4]
      have e5 : ∀ a b, evs t κ (a ++ b) = evs t κ a ++ evs t κ b := fun a b => by simp [evs]
      rw [e5, List.append_assoc, s1, ← List.append_assoc, s2, List.append_assoc]

theorem user_cinv {c s s'} (I : CInv c s) {x : Action} {top : Frame} {rest : List Frame} (hs : s.stk x.tid = top :: rest)
    (hu : top.users = true) (h : userStep c s x.tid top rest x = some s') : CInv c s' := by
  have K := I.ok x.tid
  rw [hs] at K
  have hp0 : ∀ t, top.pend c t = none := fun t => by cases top <;> first | rfl | cases hu
  have fresh : ∀ g ∈ top :: rest, g.loop ≠ some (.exit s.nextE) := fun g hg he =>
    absurd (I.lt x.tid g (by rw [hs]; exact hg) _ he) (Nat.lt_irrefl _)
  cases x with
  | spawn t =>
    simp only [Action.tid] at hs K h fresh
    simp only [userStep] at h
    split at h
    rotate_left
    · cases h
    simp only [Option.some.injEq] at h; subst h
    have hnew := I.new s.nextT (Nat.le_refl _)
    have hne : t ≠ s.nextT := by rintro rfl; rw [hnew] at hs; cases hs
    have htn : t < s.nextT := Nat.lt_of_not_le fun h => by rw [I.new t h] at hs; cases hs
    constructor
    · intro u
      simp only [State.ev, State.setStk]
      split
      · exact .push K rfl trivial
      · split
        · exact ⟨trivial, by simp, rfl⟩
        · exact I.ok u
    · intro u g hg e he
      simp only [State.ev, State.setStk] at hg
      split at hg
      · rcases List.mem_cons.mp hg with rfl | hg
        · cases he
        · exact I.lt t g (by rw [hs]; exact hg) e he
      · split at hg
        · simp at hg; subst hg; cases he
        · exact I.lt u g hg e he
    · intro u h0 g hg
      simp only [State.ev, State.setStk] at hg
      split at hg
      · next h => rcases List.mem_cons.mp hg with rfl | hg
                  · simp [Frame.loop]
                  · exact I.boot t (h ▸ h0) g (by rw [hs]; exact hg)
      · split at hg
        · simp at hg; subst hg; simp [Frame.loop]
        · exact I.boot u h0 g hg
    · intro u hu'
      simp only [State.ev, State.setStk] at hu' ⊢
      rw [if_neg (by rintro rfl; exact absurd hu' (Nat.not_le.mpr (Nat.lt_succ_of_lt htn))), if_neg (by rintro rfl; exact absurd hu' (Nat.not_succ_le_self _))]
      exact I.new u (Nat.le_of_succ_le hu')
    · intro u hu'
      simp only [State.ev, State.setStk, List.mem_cons, LEv.ev.injEq, reduceCtorEq, false_or] at hu' ⊢
      obtain ⟨h1, h2⟩ := I.rel u hu'
      rw [if_neg (by rintro rfl; rw [hs] at h1; cases h1), if_neg (by rintro rfl; exact Nat.lt_irrefl _ h2)]
      exact ⟨h1, Nat.lt_succ_of_lt h2⟩
    · intro u κ
      have e0 : ∀ l, evs u κ (plain c (.ev (.spawned s.nextT) :: l)) = evs u κ (plain c l) := fun l => by simp [plain, evs, announced, key]
      have e1 : ∀ l, evs u κ (real (.ev (.spawned s.nextT) :: l)) = evs u κ (real l) := fun l => by simp [real, evs, key]
      simp only [State.ev, State.setStk]
      rw [e0, e1, I.eq u κ]
      split
      · next h => subst h; rw [hs]; rfl
      · split
        · next h => subst h; rw [hnew]; rfl
        · rfl
  | regThr t =>
    simp only [Action.tid] at hs K h fresh
    simp only [userStep] at h
    split at h
    rotate_left
    · cases h
    simp only [Option.some.injEq] at h; subst h
    exact I.call (.tReg t s.nextF) (front := [top]) (new := [.ev (.tReg t s.nextF)]) hs (stk_same hs) rfl rfl rfl K (by simp) (by simp [key]) (by simp) rfl
      (by simp [plain, announced, hp0]) (by simp [hp0])
  | regProg t =>
    simp only [Action.tid] at hs K h fresh
    simp only [userStep] at h
    split at h
    rotate_left
    · cases h
    simp only [Option.some.injEq] at h; subst h
    exact I.msg (front := [.regLock, top]) (new := []) hs rfl rfl rfl rfl (.push K rfl trivial) (by simp [Frame.loop]) (by simp [plain]) rfl rfl
  | exit t st =>
    simp only [Action.tid] at hs K h fresh
    simp only [userStep, Option.some.injEq] at h; subst h
    refine I.put (t := t) (l := .exitThr s.nextE st :: top :: rest) (new := [.ev (.exitBegin t s.nextE st)]) rfl rfl rfl (Nat.le_succ _) (by rw [hs]; simp)
      ⟨K, by simp only [Frame.loop, Option.some.injEq]; rintro κ rfl; exact fresh, trivial⟩ (fun g hg e he => ?_) (fun h0 g hg => ?_) (by simp)
      (by simp [plain, real, announced, key]) (fun κ => ?_)
    · rcases List.mem_cons.mp hg with rfl | hg
      · simp only [Frame.loop, Option.some.injEq, Key.exit.injEq] at he; subst he; exact Nat.lt_succ_self _
      · exact Nat.lt_succ_of_lt (I.lt t g (by rw [hs]; exact hg) e he)
    · rcases List.mem_cons.mp hg with rfl | hg
      · simp [Frame.loop]
      · exact I.boot t h0 g (by rw [hs]; exact hg)
    · rw [hs]
      exact swap (x := .exitBegin t s.nextE st) (by simp [key]; exact pends_nil K fresh)
  | immExit t st =>
    simp only [Action.tid] at hs K h fresh
    simp only [userStep, Option.some.injEq] at h; subst h
    exact I.msg (front := [.logger (.exiting none st), .immGrp st, top]) (new := [.msg t (.exiting none st)]) hs rfl rfl rfl rfl (.push (.push K rfl trivial) rfl trivial) (by simp [Frame.loop])
      (by simp [plain, Msg.announces]) rfl rfl
  | ret t st =>
    simp only [Action.tid] at hs K h fresh
    simp only [userStep] at h
    split at h <;> (simp only [Option.some.injEq] at h; subst h)
    · exact I.msg (front := [.logger (.mainRet st), .mainDone st]) (new := [.msg t (.mainRet st)]) hs rfl rfl rfl rfl (.push (K.same rfl trivial) rfl trivial) (by simp [Frame.loop])
        (by simp [plain, Msg.announces]) rfl rfl
    · exact I.msg (front := [.logger .returned, .startDone]) (new := [.msg t .returned]) hs rfl rfl rfl rfl (.push (K.same rfl K.2.2) rfl trivial) (by simp [Frame.loop])
        (by simp [plain, Msg.announces]) rfl rfl
    · exact I.msg (front := []) (new := []) hs rfl rfl rfl rfl K.1 (by simp) (by simp [plain]) rfl (by simp [plain, hp0])
  | step t => cases h

theorem step_cinv {c s s'} (I : CInv c s) {x : Action} (h : step c s x = some s') : CInv c s' := by
  unfold step at h
  split at h
  · cases h
  split at h
  · cases h
  next top rest hs =>
  split at h
  · next hu => exact user_cinv I hs hu h
  · split at h
    · exact frame_cinv I hs h
    · cases h

theorem Reach.cinv {c s} (h : Reach c s) : CInv c s := by
  induction h with
  | init =>
    constructor
    · intro t; simp only [LogProc.init]; split
      · exact ⟨trivial, by simp, trivial⟩
      · trivial
    · intro t g hg e he; simp only [LogProc.init] at hg; split at hg
      · simp at hg; subst hg; cases he
      · cases hg
    · intro t h0 g hg; simp only [LogProc.init, if_neg h0] at hg; cases hg
    · intro t ht
      have : t ≠ 0 := by rintro rfl; exact absurd ht (by decide)
      simp [LogProc.init, this]
    · intro t ht; cases ht
    · intro t κ; simp only [LogProc.init]; split <;> rfl
  | step _ hs ih => exact step_cinv ih hs

theorem QReach.reach {c s} (h : QReach c s) : Reach c s := by
  induction h with
  | init => exact .init
  | step _ _ hs ih => exact .step ih hs

end Origin.LogProc
