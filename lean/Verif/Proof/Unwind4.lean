import Verif.Proof.Unwind3
/-!
# Stacks and history: which call of `exit` called what
-/

namespace Origin.Proc

set_option linter.unusedSimpArgs false

variable {c : Cfg} {s s' : State} {u u' : UState} {st : Nat → UState} {act : Nat → Option UAct}

/-- The call that called a function on the stack, and the bottom of the stack. -/
def Linked (t : Tid) (L : List Ev) : List Frame → Prop
  | [] => True
  | fr :: rest => Linked t L rest ∧ (match fr with
    | .user (.tdtor f) => ∃ fr' r, rest = fr' :: r ∧ Ev.tCall t fr'.inst f ∈ L
    | .user (.pdtor f) => ∃ fr' r e, rest = fr' :: r ∧ fr'.inst = some e ∧ Ev.pCall t e f ∈ L
    | _ => True) ∧ ∀ e, fr.inst = some e → (rest = [] ∨ ∃ g r, rest = .user g :: r) ∧ (rest = [] ↔ FromMain L e)

theorem FromMain.cons {L : List Ev} {e : Exit} {x : Ev} (hx : ∀ v, x ≠ .exitBegin 0 e v) : FromMain (x :: L) e ↔ FromMain L e := by
  constructor
  · rintro ⟨newer, older, v, h⟩
    cases newer with
    | nil => simp at h; exact absurd h.1 (hx v)
    | cons y ys => simp at h; exact ⟨ys, older, v, h.2⟩
  · rintro ⟨newer, older, v, rfl⟩
    exact ⟨x :: newer, older, v, rfl⟩

theorem FromMain.mem {L : List Ev} {e : Exit} (h : FromMain L e) : ∃ v, Ev.exitBegin 0 e v ∈ L := by
  obtain ⟨newer, older, v, rfl⟩ := h
  exact ⟨v, by simp⟩

/-- More history: nothing changes for the frames there are, unless one of their calls begins now. -/
theorem Linked.cons {t : Tid} {L : List Ev} {x : Ev} {l : List Frame} (h : Linked t L l) (hx : ∀ e ∈ insts l, ∀ v, x ≠ .exitBegin 0 e v) :
    Linked t (x :: L) l := by
  induction l with
  | nil => trivial
  | cons fr rest ih =>
    obtain ⟨h1, h2, h3⟩ := h
    have sub : ∀ e ∈ insts rest, e ∈ insts (fr :: rest) := fun e he => by
      obtain ⟨fr', hm, hi⟩ := mem_insts.mp he
      exact mem_insts.mpr ⟨fr', List.mem_cons_of_mem _ hm, hi⟩
    refine ⟨ih h1 (fun e he => hx e (sub e he)), ?_, ?_⟩
    · clear ih h3 hx sub h1
      cases fr <;> first | trivial | skip
      rename_i fn; cases fn <;> first | trivial | skip
      · obtain ⟨fr', r, e1, e2⟩ := h2; exact ⟨fr', r, e1, List.mem_cons_of_mem _ e2⟩
      · obtain ⟨fr', r, e, e1, e2, e3⟩ := h2; exact ⟨fr', r, e, e1, e2, List.mem_cons_of_mem _ e3⟩
    · intro e he
      refine ⟨(h3 e he).1, ?_⟩
      rw [(h3 e he).2]
      exact (FromMain.cons (hx e (mem_insts.mpr ⟨fr, List.mem_cons_self, he⟩))).symm

/-- Replacing the top frame by one of the same call. -/
theorem Linked.top {t : Tid} {L : List Ev} {fr fr' : Frame} {l : List Frame} (h : Linked t L (fr :: l)) (hi : fr'.inst = fr.inst)
    (hu : ∀ fn, fr' ≠ .user fn) : Linked t L (fr' :: l) := by
  obtain ⟨h1, h2, h3⟩ := h
  refine ⟨h1, ?_, by rw [hi]; exact h3⟩
  cases fr' <;> first | trivial | exact absurd rfl (hu _)

theorem Linked.push {t : Tid} {L : List Ev} {fr : Frame} {l : List Frame} (h : Linked t L l) (hi : fr.inst = none)
    (hu : ∀ fn, fr = .user fn → (∀ f, fn ≠ .tdtor f) ∧ ∀ f, fn ≠ .pdtor f) : Linked t L (fr :: l) := by
  refine ⟨h, ?_, by rw [hi]; simp⟩
  cases fr <;> first | trivial | skip
  rename_i fn
  have := hu fn rfl
  cases fn <;> first | trivial | exact absurd rfl (this.1 _) | exact absurd rfl (this.2 _)

/-- A step keeps the links; `hne`: calls that have not begun yet, and what the history can look like. -/
theorem linked_step (I : ∀ t, Linked t s.log (s.stk t)) (S : SInv c s) (lt : ∀ t, ∀ e ∈ insts (s.stk t), e < s.nextE)
    (hne : ∀ t e v, Ev.exitBegin t e v ∈ s.log → e < s.nextE) (hmr : ∀ v older, s.log ≠ .mainRet v :: older) (tr : Tr c s s') :
    ∀ t, Linked t s'.log (s'.stk t) := by
  have upd : ∀ {t : Tid} {l : List Frame} (x : Ev), (s'.stk = fun y => if y = t then l else s.stk y) → s'.log = x :: s.log →
      (∀ e v, e < s.nextE → x ≠ .exitBegin 0 e v) → Linked t (x :: s.log) l → ∀ t, Linked t s'.log (s'.stk t) := by
    intro t l x h1 h2 h3 h4 t'
    rw [h1, h2]; simp only
    split
    · next h => subst h; exact h4
    · exact (I t').cons fun e he v => h3 e v (lt t' e he)
  have upd0 : ∀ {t : Tid} {l : List Frame}, (s'.stk = fun y => if y = t then l else s.stk y) → s'.log = s.log →
      Linked t s.log l → ∀ t, Linked t s'.log (s'.stk t) := by
    intro t l h1 h2 h4 t'
    rw [h1, h2]; simp only
    split
    · next h => subst h; exact h4
    · exact I t'
  have J : ∀ {t l}, s.stk t = l → Linked t s.log l := fun {t l} h => by rw [← h]; exact I t
  have Jc : ∀ {t l} (x : Ev), s.stk t = l → (∀ e v, e < s.nextE → x ≠ .exitBegin 0 e v) → Linked t (x :: s.log) l := fun {t l} x h hx =>
    (J h).cons fun e he v => hx e v (lt t e (by rw [h]; exact he))
  have fresh : ¬ FromMain s.log s.nextE := fun h => by
    obtain ⟨v, h⟩ := h.mem
    exact Nat.lt_irrefl _ (hne _ _ _ h)
  have begins : ∀ {t fn rest} (x : Ev) (fr : Frame), s.stk t = .user fn :: rest → fr.inst = some s.nextE → (∀ fn, fr ≠ .user fn) →
      (∃ v, x = .exitBegin t s.nextE v) ∨ (∀ e v, x ≠ .exitBegin 0 e v) → Linked t (x :: s.log) (fr :: .user fn :: rest) := by
    intro t fn rest x fr hs hi hu hx
    have hx' : ∀ e v, e < s.nextE → x ≠ .exitBegin 0 e v := by
      intro e v he
      rcases hx with ⟨v', rfl⟩ | hx
      · intro h; injection h with _ h _; rw [h] at he; exact Nat.lt_irrefl _ he
      · exact hx e v
    refine ⟨Jc x hs hx', ?_, ?_⟩
    · cases fr <;> first | trivial | exact absurd rfl (hu _)
    · intro e he
      rw [hi] at he; injection he with he; subst he
      refine ⟨.inr ⟨_, _, rfl⟩, ?_⟩
      simp only [reduceCtorEq, false_iff]
      rcases hx with ⟨v', rfl⟩ | hx
      · rintro ⟨newer, older, v, h⟩
        cases newer with
        | nil => simp at h; exact hmr _ _ h.2
        | cons y ys => simp at h; exact fresh ⟨ys, older, v, h.2⟩
      · rw [FromMain.cons (hx _)]; exact fresh
  cases tr with
  | spawn t fn rest hs _ =>
    exact upd (t := s.nextT) _ rfl rfl (by simp) (Linked.push trivial rfl (by rintro fn h; injection h with h; subst h; simp))
  | regThr t fn rest hs _ => exact fun t' => (I t').cons (by simp)
  | group t rest e v hs _ => exact fun t' => (I t').cons (by simp)
  | regProg t fn rest hs _ => exact upd0 (t := t) rfl rfl ((J hs).push rfl (by simp))
  | exit t fn rest v hs =>
    exact upd (t := t) _ rfl rfl (by intro e v he h; injection h with _ h _; rw [h] at he; exact Nat.lt_irrefl _ he)
      (begins _ _ hs rfl (by simp) (.inl ⟨v, rfl⟩))
  | imm t fn rest v hs => exact upd (t := t) _ rfl rfl (by simp) (begins _ _ hs rfl (by simp) (.inr (by simp)))
  | retMain t rest v hs =>
    have Sh := S.shape t
    rw [hs] at Sh
    have := Sh.bottom_nil rfl
    subst this
    have ht : t = 0 := S.boot t (.user .main) (by rw [hs]; exact List.mem_cons_self) rfl
    subst ht
    intro t'
    show Linked t' (.exitBegin 0 s.nextE v :: .mainRet v :: s.log) (if t' = 0 then [.exitThr s.nextE v] else s.stk t')
    split
    · refine ⟨trivial, trivial, fun e he => ?_⟩
      injection he with he; subst he
      exact ⟨.inl rfl, fun _ => ⟨[], s.log, v, rfl⟩, fun _ => rfl⟩
    · refine ((I t').cons (by simp)).cons fun e he v' h => ?_
      injection h with _ h _
      have := lt t' e he
      rw [h] at this; exact Nat.lt_irrefl _ this
  | retStart t rest hs => exact upd0 (t := t) rfl rfl ((J hs).top rfl (by simp))
  | ret t fn rest hs _ _ => exact upd0 (t := t) rfl rfl (J hs).1
  | entry t rest hs => exact upd (t := t) _ rfl rfl (by simp) ((Jc _ hs (by simp)).top rfl (by simp))
  | initEnd t rest hs =>
    exact upd (t := t) _ rfl rfl (by simp) (((Jc _ hs (by simp)).1).push rfl (by rintro fn h; injection h with h; subst h; simp))
  | init t p rest hs _ =>
    refine upd (t := t) (.ctor p c.args) rfl rfl (by simp) (Linked.push (fr := .user (.ctor p)) ?_ rfl (by rintro fn h; injection h with h; subst h; simp))
    exact (Jc (.ctor p c.args) hs (by simp)).top (fr' := .init (p + c.ws)) rfl (by simp)
  | thrCall t rest f fs hs _ _ =>
    exact upd (t := t) _ rfl rfl (by simp) ⟨Jc _ hs (by simp), ⟨_, _, rfl, List.mem_cons_self⟩, by simp [Frame.inst]⟩
  | thrEnd t rest hs _ => exact upd (t := t) _ rfl rfl (by simp) trivial
  | regLock t rest s1 hs ha =>
    exact upd0 (t := t) (l := .regPush :: rest) (by simp [State.setStk, acquire_fields ha]) (by simp [State.setStk, acquire_fields ha])
      ((J hs).top rfl (by simp))
  | regPush t rest hs => exact upd (t := t) _ rfl rfl (by simp) ((Jc _ hs (by simp)).top rfl (by simp))
  | regUnlock t rest f hs =>
    exact upd (t := t) (l := rest) (.pRegRet t f) (by simp [State.setStk, State.ev]) (by simp [State.setStk, State.ev]) (by simp) (Jc _ hs (by simp)).1
  | exitThrCall t rest e v f fs hs _ _ =>
    exact upd (t := t) _ rfl rfl (by simp) ⟨Jc _ hs (by simp), ⟨_, _, rfl, List.mem_cons_self⟩, by simp [Frame.inst]⟩
  | exitThr t rest e v hs _ => exact upd (t := t) _ rfl rfl (by simp) ((Jc _ hs (by simp)).top rfl (by simp))
  | exitLock t rest e v s1 hs _ ha =>
    exact upd0 (t := t) (l := .exitPop e v :: rest) (by simp [State.setStk, acquire_fields ha]) (by simp [State.setStk, acquire_fields ha])
      ((J hs).top rfl (by simp))
  | exitNoLock t rest e v hs _ => exact upd (t := t) _ rfl rfl (by simp) ((Jc _ hs (by simp)).top rfl (by simp))
  | exitPop t rest e v f fs hs _ => exact upd (t := t) _ rfl rfl (by simp) ((Jc _ hs (by simp)).top rfl (by simp))
  | exitPopEnd t rest e v hs _ => exact upd (t := t) _ rfl rfl (by simp) ((Jc _ hs (by simp)).top rfl (by simp))
  | exitUnlock t rest e v f hs =>
    exact upd0 (t := t) (l := .exitCall e v f :: rest) (by simp [State.setStk]) (by simp [State.setStk]) ((J hs).top rfl (by simp))
  | exitCall t rest e v f hs =>
    exact upd (t := t) _ rfl rfl (by simp) ⟨(Jc _ hs (by simp)).top (fr' := .exitLock e v) rfl (by simp), ⟨_, _, e, rfl, rfl, List.mem_cons_self⟩,
      by simp [Frame.inst]⟩
  | exitFiniEnd t rest e v hs => exact upd0 (t := t) rfl rfl ((J hs).top rfl (by simp))
  | exitFini t rest e v p hs _ =>
    refine upd (t := t) (.fini t e (p - c.ws)) rfl rfl (by simp)
      (Linked.push (fr := .user (.fini (p - c.ws))) ?_ rfl (by rintro fn h; injection h with h; subst h; simp))
    exact (Jc (.fini t e (p - c.ws)) hs (by simp)).top (fr' := .exitFini e v (p - c.ws)) rfl (by simp)

theorem UReach.linked {n m : Nat} (hok : c.Ok n m) (h : UReach c u) : ∀ t, Linked t u.s.log (u.s.stk t) := by
  induction h with
  | init =>
    intro t
    simp only [uinit, Proc.init]
    split
    · exact ⟨trivial, trivial, by simp [Frame.inst]⟩
    · trivial
  | @step u u' x hr hs ih =>
    cases (ustep_tr hs).2 with
    | abort => exact ih
    | leave t e fn g below hl =>
      obtain ⟨fr, hst, -, -, -, -, -⟩ := hl.shape
      intro t'
      simp only [State.setStk]
      split
      · next h => subst h; have := ih t'; rw [hst] at this; exact this.1.1
      · exact ih t'
    | act x s' hs1 =>
      have E := hr.einv hok
      refine linked_step ih hr.inv.S E.lt (fun t e v he => ?_) (fun v older hl => ?_) (step_tr hs1).2
      · rcases E.begun t e v (.inl he) with h | h
        · exact (E.left e h).1
        · exact E.lt t e h
      · obtain ⟨n', e, h⟩ := (hr.binv hok).mr [] older v hl
        simp at h

/-! ### a thread's exit -/

theorem thr_keeps (tr : Tr c s s') (S : SInv c s) {t : Tid} (hm : .thrLoop ∈ s.stk t) : .thrLoop ∈ s'.stk t ∨ Ev.released t ∈ s'.log := by
  have upd : ∀ {t' : Tid} {l : List Frame}, (s'.stk = fun y => if y = t' then l else s.stk y) →
      (.thrLoop ∈ s.stk t' → .thrLoop ∈ l) → .thrLoop ∈ s'.stk t ∨ Ev.released t ∈ s'.log := by
    intro t' l h1 h2
    left
    rw [h1]; simp only
    split
    · next h => subst h; exact h2 hm
    · exact hm
  cases tr with
  | spawn t' fn rest hs _ => exact upd (t' := s.nextT) rfl (by rw [S.new _ (Nat.le_refl _)]; intro h; cases h)
  | regThr t' fn rest hs _ => exact .inl hm
  | group t' rest e v hs _ => exact .inl hm
  | thrEnd t' rest hs _ =>
    by_cases ht : t = t'
    · subst ht; exact .inr List.mem_cons_self
    · left; simp only [State.ev, State.setStk]; rw [if_neg ht]; exact hm
  | regLock t' rest s1 hs ha => exact upd (t' := t') (l := .regPush :: rest) (by simp [State.setStk, acquire_fields ha]) (by rw [hs]; simp)
  | exitLock t' rest e v s1 hs _ ha => exact upd (t' := t') (l := .exitPop e v :: rest) (by simp [State.setStk, acquire_fields ha]) (by rw [hs]; simp)
  | regUnlock t' rest f hs => exact upd (t' := t') (l := rest) (by simp [State.setStk, State.ev]) (by rw [hs]; simp)
  | exitUnlock t' rest e v f hs => exact upd (t' := t') (l := .exitCall e v f :: rest) (by simp [State.setStk]) (by rw [hs]; simp)
  | regProg t' fn rest hs _ => exact upd (t' := t') rfl (by rw [hs]; simp)
  | exit t' fn rest v hs => exact upd (t' := t') rfl (by rw [hs]; simp)
  | imm t' fn rest v hs => exact upd (t' := t') rfl (by rw [hs]; simp)
  | retMain t' rest v hs => exact upd (t' := t') rfl (by rw [hs]; simp)
  | retStart t' rest hs => exact upd (t' := t') rfl (by rw [hs]; simp)
  | ret t' fn rest hs _ _ => exact upd (t' := t') rfl (by rw [hs]; simp)
  | entry t' rest hs => exact upd (t' := t') rfl (by rw [hs]; simp)
  | initEnd t' rest hs => exact upd (t' := t') rfl (by rw [hs]; simp)
  | init t' p rest hs _ => exact upd (t' := t') rfl (by rw [hs]; simp)
  | thrCall t' rest f fs hs _ _ => exact upd (t' := t') rfl (by rw [hs]; simp)
  | regPush t' rest hs => exact upd (t' := t') rfl (by rw [hs]; simp)
  | exitThrCall t' rest e v f fs hs _ _ => exact upd (t' := t') rfl (by rw [hs]; simp)
  | exitThr t' rest e v hs _ => exact upd (t' := t') rfl (by rw [hs]; simp)
  | exitNoLock t' rest e v hs _ => exact upd (t' := t') rfl (by rw [hs]; simp)
  | exitPop t' rest e v f fs hs _ => exact upd (t' := t') rfl (by rw [hs]; simp)
  | exitPopEnd t' rest e v hs _ => exact upd (t' := t') rfl (by rw [hs]; simp)
  | exitCall t' rest e v f hs => exact upd (t' := t') rfl (by rw [hs]; simp)
  | exitFiniEnd t' rest e v hs => exact upd (t' := t') rfl (by rw [hs]; simp)
  | exitFini t' rest e v p hs _ => exact upd (t' := t') rfl (by rw [hs]; simp)

theorem UExec.thr_keeps (X : UExec c st act) {t : Tid} {n m : Nat} (hm : n ≤ m) (h : .thrLoop ∈ (st n).s.stk t) :
    .thrLoop ∈ (st m).s.stk t ∨ Ev.released t ∈ (st m).s.log := by
  induction hm with
  | refl => exact .inl h
  | @step k hk ih =>
    cases ha : act k with
    | none => rw [X.idle k ha]; exact ih
    | some x =>
      have hs := X.next k x ha
      rcases ih with ih | ih
      · generalize st (k + 1) = u' at *
        cases (ustep_tr hs).2 with
        | abort => exact .inl ih
        | act y s' hs1 => exact Proc.thr_keeps (step_tr hs1).2 (X.reach k).inv.S ih
        | leave t' e fn g below hl =>
          obtain ⟨fr, hst, hi, -, -, -, -⟩ := hl.shape
          left
          simp only [State.setStk]
          split
          · next h =>
            subst h
            rw [hst] at ih
            rcases List.mem_cons.mp ih with h | ih
            · cases h
            rcases List.mem_cons.mp ih with h | ih
            · rw [← h] at hi; cases hi
            · exact ih
          · exact ih
      · exact .inr (ulog_mono hs ih)

end Origin.Proc
