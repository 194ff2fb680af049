import Verif.Spec.Process
/-! # Steps of the process model as a relation, and lemmas about histories -/

namespace Origin.Proc

theorem if_self {α : Sort _} {t : Nat} {a b : α} : (if t = t then a else b) = a := if_pos rfl

/-- The steps, one constructor per case of `step`. -/
inductive Tr (c : Cfg) (s : State) : State → Prop
  | spawn (t fn rest) : s.stk t = .user fn :: rest → c.thread = true →
      Tr c s (({ s with nextT := s.nextT + 1 }.setStk s.nextT [.user .start]).ev (.spawned s.nextT))
  | regThr (t fn rest) : s.stk t = .user fn :: rest → c.threadAtExit = true →
      Tr c s (({ s with nextF := s.nextF + 1 }.setTd t (s.nextF :: s.tdtors t)).ev (.tReg t s.nextF))
  | regProg (t fn rest) : s.stk t = .user fn :: rest → c.programAtExit = true →
      Tr c s (s.setStk t (.regLock :: .user fn :: rest))
  | exit (t fn rest st) : s.stk t = .user fn :: rest → Tr c s (s.beginExit t (.user fn :: rest) st)
  | imm (t fn rest st) : s.stk t = .user fn :: rest →
      Tr c s (({ s with nextE := s.nextE + 1 }.setStk t (.exitImm s.nextE st :: .user fn :: rest)).ev (.immBegin t s.nextE st))
  | retMain (t rest st) : s.stk t = .user .main :: rest → Tr c s ((s.ev (.mainRet st)).beginExit t rest st)
  | retStart (t rest) : s.stk t = .user .start :: rest → Tr c s (s.setStk t (.thrLoop :: rest))
  | ret (t fn rest) : s.stk t = .user fn :: rest → fn ≠ .main → fn ≠ .start → Tr c s (s.setStk t rest)
  | entry (t rest) : s.stk t = .entry :: rest → Tr c s ((s.setStk t (.init c.initFirst :: rest)).ev .runtimeInit)
  | initEnd (t rest) : s.stk t = .init c.initEnd :: rest → Tr c s ((s.setStk t (.user .main :: rest)).ev (.main c.args))
  | init (t p rest) : s.stk t = .init p :: rest → p ≠ c.initEnd →
      Tr c s ((s.setStk t (.user (.ctor p) :: .init (p + c.ws) :: rest)).ev (.ctor p c.args))
  | thrCall (t rest f fs) : s.stk t = .thrLoop :: rest → c.threadAtExit = true → s.tdtors t = f :: fs →
      Tr c s (((s.setTd t fs).setStk t (.user (.tdtor f) :: .thrLoop :: rest)).ev (.tCall t none f))
  | thrEnd (t rest) : s.stk t = .thrLoop :: rest → (c.threadAtExit = true → s.tdtors t = []) →
      Tr c s ((s.setStk t []).ev (.released t))
  | regLock (t rest s') : s.stk t = .regLock :: rest → s.acquire c t = some s' →
      Tr c s (s'.setStk t (.regPush :: rest))
  | regPush (t rest) : s.stk t = .regPush :: rest →
      Tr c s (({ s with dtors := s.nextF :: s.dtors, nextF := s.nextF + 1 }.setStk t
      (.regUnlock s.nextF :: rest)).ev (.pReg t s.nextF))
  | regUnlock (t rest f) : s.stk t = .regUnlock f :: rest →
      Tr c s (((s.release c).setStk t rest).ev (.pRegRet t f))
  | exitThrCall (t rest e st f fs) : s.stk t = .exitThr e st :: rest → c.threadAtExit = true → s.tdtors t = f :: fs →
      Tr c s (((s.setTd t fs).setStk t (.user (.tdtor f) :: .exitThr e st :: rest)).ev (.tCall t (some e) f))
  | exitThr (t rest e st) : s.stk t = .exitThr e st :: rest → (c.threadAtExit = true → s.tdtors t = []) →
      Tr c s ((s.setStk t (.exitLock e st :: rest)).ev (.tDone t e))
  | exitLock (t rest e st s') : s.stk t = .exitLock e st :: rest → c.programAtExit = true → s.acquire c t = some s' →
      Tr c s (s'.setStk t (.exitPop e st :: rest))
  | exitNoLock (t rest e st) : s.stk t = .exitLock e st :: rest → c.programAtExit = false →
      Tr c s ((s.setStk t (.exitFini e st c.finiFirst :: rest)).ev (.pDone t e))
  | exitPop (t rest e st f fs) : s.stk t = .exitPop e st :: rest → s.dtors = f :: fs →
      Tr c s (({ s with dtors := fs }.setStk t (.exitUnlock e st f :: rest)).ev (.pTake t e f))
  | exitPopEnd (t rest e st) : s.stk t = .exitPop e st :: rest → s.dtors = [] →
      Tr c s ((s.setStk t (.exitFini e st c.finiFirst :: rest)).ev (.pDone t e))
  | exitUnlock (t rest e st f) : s.stk t = .exitUnlock e st f :: rest →
      Tr c s ((s.release c).setStk t (.exitCall e st f :: rest))
  | exitCall (t rest e st f) : s.stk t = .exitCall e st f :: rest →
      Tr c s ((s.setStk t (.user (.pdtor f) :: .exitLock e st :: rest)).ev (.pCall t e f))
  | exitFiniEnd (t rest e st) : s.stk t = .exitFini e st c.finiStart :: rest → Tr c s (s.setStk t (.exitImm e st :: rest))
  | exitFini (t rest e st p) : s.stk t = .exitFini e st p :: rest → p ≠ c.finiStart →
      Tr c s ((s.setStk t (.user (.fini (p - c.ws)) :: .exitFini e st (p - c.ws) :: rest)).ev (.fini t e (p - c.ws)))
  | group (t rest e st) : s.stk t = .exitImm e st :: rest → s.dead = false → Tr c s ({ s with dead := true }.ev (.group t e st))

theorem step_tr {c : Cfg} {s s' : State} {x : Action} (h : step c s x = some s') : s.dead = false ∧ Tr c s s' := by
  unfold step at h
  split at h
  · cases h
  · next hd =>
    have hd : s.dead = false := by simpa using hd
    refine ⟨hd, ?_⟩
    split at h
    · cases h
    · next fn rest hs =>
      cases x <;> simp only [userStep, Action.tid] at h hs
      · split at h
        · next hc => cases h; exact .spawn _ _ _ hs hc
        · cases h
      · split at h
        · next hc => cases h; exact .regThr _ _ _ hs hc
        · cases h
      · split at h
        · next hc => cases h; exact .regProg _ _ _ hs hc
        · cases h
      · cases h; exact .exit _ _ _ _ hs
      · cases h; exact .imm _ _ _ _ hs
      · split at h
        · cases h; exact .retMain _ _ _ hs
        · cases h; exact .retStart _ _ hs
        · next h1 h2 => cases h; exact .ret _ _ _ hs (by simpa using h1) (by simpa using h2)
      · cases h
    · next fr rest hnu hs =>
      split at h
      rotate_left
      · cases h
      generalize x.tid = t at h hs
      cases fr <;> simp only [frameStep] at h
      · cases h
      · cases h; exact .entry _ _ hs
      · split at h
        · next hp => cases h; subst hp; exact .initEnd _ _ hs
        · next hp => cases h; exact .init _ _ _ hs hp
      · split at h
        · next f fs h1 h2 => cases h; exact .thrCall _ _ _ _ hs h1 h2
        · next hn =>
          cases h
          refine .thrEnd _ _ hs fun hc => ?_
          cases ht : s.tdtors t with
          | nil => rfl
          | cons f fs => exact absurd ht (hn f fs hc)
      · rw [Option.map_eq_some_iff] at h
        obtain ⟨s1, h1, h2⟩ := h
        subst h2
        exact .regLock _ _ _ hs h1
      · cases h; exact .regPush _ _ hs
      · cases h; exact .regUnlock _ _ _ hs
      · split at h
        · next f fs h1 h2 => cases h; exact .exitThrCall _ _ _ _ _ _ hs h1 h2
        · next hn =>
          cases h
          refine .exitThr _ _ _ _ hs fun hc => ?_
          cases ht : s.tdtors t with
          | nil => rfl
          | cons f fs => exact absurd ht (hn f fs hc)
      · split at h
        · next hc =>
          rw [Option.map_eq_some_iff] at h
          obtain ⟨s1, h1, h2⟩ := h
          subst h2
          exact .exitLock _ _ _ _ _ hs hc h1
        · next hc => cases h; exact .exitNoLock _ _ _ _ hs (by simpa using hc)
      · split at h
        · next f fs hf => cases h; exact .exitPop _ _ _ _ _ _ hs hf
        · next hf => cases h; exact .exitPopEnd _ _ _ _ hs hf
      · cases h; exact .exitUnlock _ _ _ _ _ hs
      · cases h; exact .exitCall _ _ _ _ _ hs
      · split at h
        · next hp => cases h; subst hp; exact .exitFiniEnd _ _ _ _ hs
        · next hp => cases h; exact .exitFini _ _ _ _ _ hs hp
      · cases h; exact .group _ _ _ _ hs hd

theorem acquire_some {c : Cfg} {s s' : State} {t : Tid} (h : s.acquire c t = some s') :
    (c.thread = true ∧ s.lock = none ∧ s' = { s with lock := some t }) ∨ (c.thread = false ∧ s' = s) := by
  unfold State.acquire at h
  split at h
  · next hc =>
    split at h
    · next hl => cases h; exact .inl ⟨hc, hl, rfl⟩
    · cases h
  · next hc => cases h; exact .inr ⟨by simpa using hc, rfl⟩

@[simp] theorem release_fields (c : Cfg) (s : State) : (s.release c).stk = s.stk ∧ (s.release c).tdtors = s.tdtors ∧
    (s.release c).dtors = s.dtors ∧ (s.release c).nextT = s.nextT ∧ (s.release c).nextF = s.nextF ∧
    (s.release c).nextE = s.nextE ∧ (s.release c).dead = s.dead ∧ (s.release c).log = s.log := by
  unfold State.release; split <;> simp

theorem acquire_fields {c : Cfg} {s s' : State} {t : Tid} (h : s.acquire c t = some s') : s'.stk = s.stk ∧ s'.tdtors = s.tdtors ∧
    s'.dtors = s.dtors ∧ s'.nextT = s.nextT ∧ s'.nextF = s.nextF ∧ s'.nextE = s.nextE ∧ s'.dead = s.dead ∧ s'.log = s.log := by
  rcases acquire_some h with ⟨-, -, rfl⟩ | ⟨-, rfl⟩ <;> simp

/-! ## histories -/

def TraceOk {α : Type} (P : α → List α → Prop) : List α → Prop
  | [] => True
  | e :: l => P e l ∧ TraceOk P l

theorem TraceOk.at {α : Type} {P : α → List α → Prop} {l newer older : List α} {e : α} (h : TraceOk P l)
    (hl : l = newer ++ e :: older) : P e older := by
  induction newer generalizing l with
  | nil => subst hl; exact h.1
  | cons x xs ih => subst hl; exact ih h.2 rfl

theorem TraceOk.mem {α : Type} {P : α → List α → Prop} {l : List α} {e : α} (h : TraceOk P l) (he : e ∈ l) :
    ∃ old, P e old ∧ ∀ x ∈ old, x ∈ l := by
  obtain ⟨newer, older, hl⟩ := List.append_of_mem he
  refine ⟨older, h.at hl, fun x hx => ?_⟩
  rw [hl]; exact List.mem_append_right _ (List.mem_cons_of_mem _ hx)

/-- Numbers picked out of a history. -/
theorem filter_head {l fs : List Nat} {f : Nat} {p : Nat → Bool} (h : l.filter p = f :: fs) :
    ∃ A B, l = A ++ f :: B ∧ (∀ a ∈ A, p a = false) ∧ p f = true ∧ B.filter p = fs := by
  induction l with
  | nil => cases h
  | cons x xs ih =>
    rw [List.filter_cons] at h
    split at h
    · next hx => cases h; exact ⟨[], xs, rfl, by simp, hx, rfl⟩
    · next hx =>
      obtain ⟨A, B, h1, h2, h3, h4⟩ := ih h
      refine ⟨x :: A, B, by rw [h1]; rfl, ?_, h3, h4⟩
      intro a ha
      rcases List.mem_cons.mp ha with rfl | ha
      · simpa using hx
      · exact h2 a ha

theorem later_filterMap {α : Type} {l : List α} {q : α → Option Nat} {a b : α} {g f : Nat} (h : Later l a b)
    (ha : q a = some g) (hb : q b = some f) : ∃ A B, l.filterMap q = A ++ g :: B ∧ f ∈ B := by
  obtain ⟨l1, l2, rfl, hm⟩ := h
  refine ⟨l1.filterMap q, l2.filterMap q, ?_, ?_⟩
  · simp [List.filterMap_append, ha]
  · exact List.mem_filterMap.mpr ⟨b, hm, hb⟩

theorem nodup_before {l A B A' B' : List Nat} {f g : Nat} (hn : l.Nodup) (h : l = A ++ f :: B) (h' : l = A' ++ g :: B')
    (hf : f ∈ B') : g ∈ A := by
  subst h
  induction A generalizing A' with
  | nil =>
    cases A' with
    | nil =>
      simp at h'
      obtain ⟨rfl, rfl⟩ := h'
      simp [hf] at hn
    | cons x xs =>
      simp at h'
      obtain ⟨rfl, rfl⟩ := h'
      simp [hf] at hn
  | cons a A ih =>
    cases A' with
    | nil => simp at h'; simp [h'.1]
    | cons x xs =>
      simp at h'
      exact List.mem_cons_of_mem _ (ih (List.nodup_cons.mp hn).2 h'.2)

end Origin.Proc
