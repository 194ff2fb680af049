import Verif.Proof.Process5
set_option linter.unusedSimpArgs false
/-! # Program start -/

namespace Origin.Proc

theorem boots_other {x : Ev} (l : List Ev) (h : x.boot = false) : boots (x :: l) = boots l := by
  unfold boots; rw [List.filter_cons, if_neg (by simp [h])]
theorem boots_own {x : Ev} (l : List Ev) (h : x.boot = true) : boots (x :: l) = boots l ++ [x] := by
  unfold boots; rw [List.filter_cons, if_pos h]; simp

def ctors (c : Cfg) (k : Nat) : List Ev := (List.range k).map (fun i => .ctor (c.initStart + i * c.ws) c.args)

def BForm (c : Cfg) (n : Nat) (s : State) : Frame → Prop
  | .entry => s.log = [] ∧ s.nextT = 1
  | .init p => ∃ k, k ≤ n ∧ p = (if c.initArray then c.initStart else c.initEnd) + k * c.ws ∧ boots s.log = [.runtimeInit] ++ ctors c k
  | .user .main => boots s.log = [.runtimeInit] ++ ctors c n ++ [.main c.args]
  | fr => fr.inst.isSome ∧ ∃ st, boots s.log = [.runtimeInit] ++ ctors c n ++ [.main c.args, .mainRet st]

structure BInv (c : Cfg) (n : Nat) (s : State) : Prop where
  base : ∃ b, (s.stk 0).getLast? = some b ∧ BForm c n s b
  first : s.log = [] ∨ s.log.getLast? = some .runtimeInit
  mr : ∀ newer older st, s.log = newer ++ .mainRet st :: older → ∃ newer' e, newer = newer' ++ [.exitBegin 0 e st]

theorem BInv.init (c : Cfg) (n : Nat) : BInv c n init := by
  refine ⟨⟨.entry, rfl, rfl, rfl⟩, .inl rfl, ?_⟩
  intro newer older st h
  simp [Proc.init] at h

theorem mr_cons {l : List Ev} {x : Ev} (hx : ∀ st, x ≠ .mainRet st)
    (h : ∀ newer older st, l = newer ++ .mainRet st :: older → ∃ newer' e, newer = newer' ++ [.exitBegin 0 e st]) :
    ∀ newer older st, x :: l = newer ++ .mainRet st :: older → ∃ newer' e, newer = newer' ++ [.exitBegin 0 e st] := by
  intro newer older st hl
  cases newer with
  | nil => simp at hl; exact absurd hl.1 (hx st)
  | cons y ys =>
    simp at hl
    obtain ⟨n', e, h'⟩ := h ys older st hl.2
    exact ⟨y :: n', e, by rw [h']; rfl⟩

theorem first_cons {l : List Ev} {x : Ev} (hne : l ≠ []) (h : l = [] ∨ l.getLast? = some .runtimeInit) :
    x :: l = [] ∨ (x :: l).getLast? = some .runtimeInit := by
  right
  rw [List.getLast?_cons, h.resolve_left hne]; rfl

/-- The log is not empty once anything but `entry` can step. -/
theorem BInv.started {c : Cfg} {n : Nat} {s : State} (B : BInv c n s) (S : SInv c s) {t : Tid} {fr : Frame} {rest : List Frame}
    (hs : s.stk t = fr :: rest) (hfr : fr ≠ .entry) : s.log ≠ [] := by
  intro hl
  obtain ⟨b, h1, h2⟩ := B.base
  cases b
  case entry =>
    obtain ⟨-, hT⟩ := h2
    by_cases ht : t = 0
    · subst ht
      rw [hs] at h1
      have Sh := S.shape 0; rw [hs] at Sh
      cases rest with
      | nil => simp at h1; exact hfr h1
      | cons a r =>
        rw [List.getLast?_cons_cons] at h1
        have := Sh.tail_under _ (List.mem_of_getLast? h1)
        simp [Frame.under] at this
    · have := S.new t (by rw [hT]; exact Nat.pos_of_ne_zero ht)
      rw [this] at hs; cases hs
  all_goals (simp only [BForm, hl, boots] at h2)
  case user f => cases f <;> simp at h2
  all_goals simp at h2

/-- A step which is not part of program start. -/
theorem BInv.upd {c : Cfg} {n : Nat} {s s' : State} (B : BInv c n s) (S : SInv c s) {t : Tid} {fr : Frame} {rest l : List Frame}
    (evs : List Ev) (hs : s.stk t = fr :: rest) (hfr : fr ≠ .entry)
    (h1 : s'.stk = fun x => if x = t then l else s.stk x) (h2 : s'.log = evs ++ s.log) (h3 : ∀ x ∈ evs, x.boot = false)
    (h5 : t = 0 → l.getLast? = (s.stk 0).getLast? ∨
      ∃ b b', (s.stk 0).getLast? = some b ∧ l.getLast? = some b' ∧ b.inst.isSome ∧ b'.inst.isSome) :
    BInv c n s' := by
  have hb : boots s'.log = boots s.log := by
    rw [h2]; clear h2
    induction evs with
    | nil => rfl
    | cons x xs ih => rw [List.cons_append, boots_other _ (h3 x List.mem_cons_self), ih (fun y hy => h3 y (List.mem_cons_of_mem _ hy))]
  have hne := B.started S hs hfr
  obtain ⟨b, q1, q2⟩ := B.base
  have hbe : b ≠ .entry := by rintro rfl; exact hne q2.1
  have hform : ∀ b, b ≠ .entry → BForm c n s b → BForm c n s' b := by
    intro b hbe h
    cases b <;> simp only [BForm, hb] at h ⊢ <;> first | exact absurd rfl hbe | exact h | skip
    rename_i f; cases f <;> simp only [hb] at h ⊢ <;> exact h
  have swap : ∀ b b' : Frame, b.inst.isSome → b'.inst.isSome → BForm c n s b → BForm c n s b' := by
    intro b b' h h' hf
    cases b <;> simp [Frame.inst] at h <;> cases b' <;> simp [Frame.inst] at h' <;> exact ⟨rfl, hf.2⟩
  refine ⟨?_, ?_, ?_⟩
  · rw [h1]; simp only
    split
    · next h0 =>
      rcases h5 h0.symm with h | ⟨b1, b2, w1, w2, w3, w4⟩
      · exact ⟨b, by rw [h]; exact q1, hform b hbe q2⟩
      · rw [q1] at w1; injection w1 with w1; subst w1
        exact ⟨b2, w2, hform b2 (by rintro rfl; simp [Frame.inst] at w4) (swap b b2 w3 w4 q2)⟩
    · exact ⟨b, q1, hform b hbe q2⟩
  · rw [h2]
    clear h2 hb h3
    induction evs with
    | nil => exact B.first
    | cons x xs ih => exact first_cons (by simp; intro h; exact fun h => absurd h hne) ih
  · rw [h2]
    clear h2 hb
    induction evs with
    | nil => exact B.mr
    | cons x xs ih =>
      exact mr_cons (fun st h => by have := h3 x List.mem_cons_self; subst h; cases this) (ih (fun y hy => h3 y (List.mem_cons_of_mem _ hy)))

theorem BForm.not_start {c : Cfg} {n : Nat} {s : State} {b : Frame} (h : BForm c n s b) : b.booting = true ∨ b.inst.isSome = true := by
  cases b <;> simp only [BForm] at h <;> first | exact .inl rfl | exact .inr rfl | skip
  · rename_i f; cases f <;> simp [Frame.inst] at h <;> exact .inl rfl
  all_goals simp [Frame.inst] at h

theorem booting_bottom {fr : Frame} (h : fr.booting = true) : fr.bottom = true := by
  cases fr <;> first | rfl | (cases h; done) | skip
  rename_i f; cases f <;> first | rfl | cases h
theorem bottom_inst {fr : Frame} (h : fr.bottom = true) : fr.inst.isSome = false := by
  cases fr <;> first | rfl | cases h

theorem same_stk (f : Tid → List Frame) (t : Tid) : f = fun x => if x = t then f t else f x := by
  funext x; split
  · next h => rw [h]
  · rfl
theorem user_base {fn : Fn} (h1 : fn ≠ .main) (h2 : fn ≠ .start) : (Frame.user fn).base = false := by
  cases fn <;> first | rfl | exact absurd rfl h1 | exact absurd rfl h2

set_option maxHeartbeats 1000000 in
theorem BInv.step {c : Cfg} {n m : Nat} (hok : c.Ok n m) {s s' : State} (B : BInv c n s) (S : SInv c s) (h : Tr c s s') : BInv c n s' := by
  -- the bottom frame of the main thread when a boot frame is on top
  have onBoot : ∀ {t fr rest}, s.stk t = fr :: rest → fr.booting = true → t = 0 ∧ rest = [] ∧ BForm c n s fr := by
    intro t fr rest hs hb
    have ht : t = 0 := S.boot t fr (by rw [hs]; simp) hb
    subst ht
    have Sh := S.shape 0; rw [hs] at Sh
    have hr : rest = [] := Sh.bottom_nil (booting_bottom hb)
    subst hr
    obtain ⟨b, h1, h2⟩ := B.base
    rw [hs] at h1; simp at h1; subst h1
    exact ⟨rfl, rfl, h2⟩
  -- replacing the top frame by another exit frame
  have repl : ∀ {t : Tid} {fr fr' : Frame} {rest : List Frame}, s.stk t = fr :: rest → fr.inst.isSome → fr'.inst.isSome →
      t = 0 → (fr' :: rest).getLast? = (s.stk 0).getLast? ∨
      ∃ b b', (s.stk 0).getLast? = some b ∧ (fr' :: rest).getLast? = some b' ∧ b.inst.isSome ∧ b'.inst.isSome := by
    intro t fr fr' rest hs h1 h2 ht
    subst ht
    rw [hs]
    cases rest with
    | nil => exact .inr ⟨fr, fr', rfl, rfl, h1, h2⟩
    | cons a r => left; simp [List.getLast?_cons_cons]
  have push : ∀ {t : Tid} {pre : List Frame} {fr : Frame} {rest : List Frame}, s.stk t = fr :: rest → t = 0 →
      (pre ++ fr :: rest).getLast? = (s.stk 0).getLast? := by
    intro t pre fr rest hs ht
    subst ht
    rw [hs, List.getLast?_append]; simp [List.getLast?_cons]
  have push' : ∀ {t : Tid} {x fr fr' : Frame} {rest : List Frame}, s.stk t = fr :: rest → fr.inst.isSome → fr'.inst.isSome →
      t = 0 → (x :: fr' :: rest).getLast? = (s.stk 0).getLast? ∨
      ∃ b b', (s.stk 0).getLast? = some b ∧ (x :: fr' :: rest).getLast? = some b' ∧ b.inst.isSome ∧ b'.inst.isSome := by
    intro t x fr fr' rest hs h1 h2 ht
    rw [List.getLast?_cons_cons]; exact repl hs h1 h2 ht
  have pop : ∀ {t : Tid} {fr : Frame} {rest : List Frame}, s.stk t = fr :: rest → fr.base = false → t = 0 →
      rest.getLast? = (s.stk 0).getLast? := by
    intro t fr rest hs hb ht
    subst ht
    have Sh := S.shape 0; rw [hs] at Sh
    obtain ⟨a, r, rfl, -⟩ := Sh.pop hb
    rw [hs, List.getLast?_cons_cons]
  have nstart : ∀ {t : Tid} {fr : Frame} {rest : List Frame}, s.stk t = fr :: rest → fr.bottom = true → fr.booting = false → t ≠ 0 := by
    rintro t fr rest hs hb hbo rfl
    have Sh := S.shape 0; rw [hs] at Sh
    cases Sh.bottom_nil hb
    obtain ⟨b, h1, h2⟩ := B.base
    rw [hs] at h1; simp at h1; subst h1
    rcases h2.not_start with h | h
    · rw [hbo] at h; cases h
    · rw [bottom_inst hb] at h; cases h
  cases h with
  | spawn t fn rest hs hc =>
    have ht : s.nextT ≠ 0 := Nat.pos_iff_ne_zero.mp S.pos
    have hne := B.started S hs (by simp)
    have hb : boots (.spawned s.nextT :: s.log) = boots s.log := boots_other _ rfl
    obtain ⟨b, q1, q2⟩ := B.base
    refine ⟨⟨b, ?_, ?_⟩, first_cons hne B.first, mr_cons (by simp) B.mr⟩
    · simp only [State.ev, State.setStk]; rw [if_neg (fun h => ht h.symm)]; exact q1
    · cases b <;> simp only [BForm, State.ev, State.setStk] at q2 ⊢ <;> (try rw [hb]) <;> first | exact q2 | skip
      · rename_i f; cases f <;> simp only [hb] at q2 ⊢ <;> exact q2
      · exact absurd q2.1 hne
  | regThr t fn rest hs hc =>
    exact B.upd S [.tReg t s.nextF] hs (by simp) (l := s.stk t) (same_stk s.stk t) rfl
      (by simp [Ev.boot]) (fun h => by subst h; exact .inl rfl)
  | group t rest e st hs _ =>
    exact B.upd S [.group t e st] hs (by simp) (l := s.stk t) (same_stk s.stk t) rfl
      (by simp [Ev.boot]) (fun h => by subst h; exact .inl rfl)
  | regProg t fn rest hs hc => exact B.upd S [] hs (by simp) rfl rfl (by simp) (fun h => .inl (push (pre := [.regLock]) hs h))
  | exit t fn rest st hs =>
    exact B.upd S [_] hs (by simp) rfl rfl (by simp [Ev.boot]) (fun h => .inl (push (pre := [.exitThr s.nextE st]) hs h))
  | imm t fn rest st hs =>
    exact B.upd S [_] hs (by simp) rfl rfl (by simp [Ev.boot]) (fun h => .inl (push (pre := [.exitImm s.nextE st]) hs h))
  | retMain t rest st hs =>
    obtain ⟨rfl, rfl, hf⟩ := onBoot hs rfl
    have hne := B.started S hs (by simp)
    refine ⟨⟨.exitThr s.nextE st, by simp [State.beginExit, State.ev, State.setStk], rfl, st, ?_⟩, ?_, ?_⟩
    · simp only [State.beginExit, State.ev, State.setStk]
      have hf : boots s.log = _ := hf
      rw [boots_other _ rfl, boots_own _ rfl, hf]; simp
    · exact first_cons (by simp [State.setStk, State.ev]) (first_cons (x := .mainRet st) hne B.first)
    · intro newer older st' hl
      simp only [State.beginExit, State.ev, State.setStk] at hl
      cases newer with
      | nil => simp at hl
      | cons y ys =>
        simp at hl
        obtain ⟨rfl, hl⟩ := hl
        cases ys with
        | nil => simp at hl; obtain ⟨rfl, -⟩ := hl; exact ⟨[], _, rfl⟩
        | cons z zs =>
          simp at hl
          obtain ⟨n', e, h'⟩ := B.mr zs older st' hl.2
          exact ⟨_ :: z :: n', e, by rw [h']; rfl⟩
  | retStart t rest hs =>
    exact B.upd S [] hs (by simp) rfl rfl (by simp) (fun h => absurd h (nstart hs rfl rfl))
  | ret t fn rest hs h1 h2 =>
    exact B.upd S [] hs (by simp) rfl rfl (by simp) (fun h => .inl (pop hs (user_base h1 h2) h))
  | entry t rest hs =>
    obtain ⟨rfl, rfl, hf⟩ := onBoot hs rfl
    refine ⟨⟨.init c.initFirst, by simp [State.ev, State.setStk], 0, Nat.zero_le _, by simp [Cfg.initFirst], ?_⟩, ?_, ?_⟩
    · simp only [State.ev, State.setStk, hf.1]; rfl
    · right; simp [State.ev, State.setStk, hf.1]
    · exact mr_cons (by simp) B.mr
  | initEnd t rest hs =>
    obtain ⟨rfl, rfl, hf⟩ := onBoot hs rfl
    have hne := B.started S hs (by simp)
    obtain ⟨k, hk, hp, hb⟩ := hf
    have hkn : k = n := by
      have hws := hok.ws
      split at hp
      · next h =>
        rw [hok.init h] at hp
        have : n * c.ws = k * c.ws := by omega
        exact (Nat.eq_of_mul_eq_mul_right hws this).symm
      · next h => have := hok.init0 (by simpa using h); omega
    subst hkn
    refine ⟨⟨.user .main, by simp [State.ev, State.setStk], ?_⟩, first_cons hne B.first, mr_cons (by simp) B.mr⟩
    show boots (.main c.args :: s.log) = _
    rw [boots_own _ rfl, hb]
  | init t p rest hs hpe =>
    obtain ⟨rfl, rfl, hf⟩ := onBoot hs rfl
    have hne := B.started S hs (by simp)
    obtain ⟨k, hk, hp, hb⟩ := hf
    have hia : c.initArray = true := by
      cases h : c.initArray with
      | true => rfl
      | false =>
        have := hok.init0 h
        rw [h] at hp
        have hk0 : k = 0 := by omega
        subst hk0; simp at hp; exact absurd hp hpe
    rw [hia] at hp; simp only [if_true] at hp
    have hkn : k < n := by
      rcases Nat.lt_or_eq_of_le hk with h | h
      · exact h
      · subst h; rw [hok.init hia] at hpe; exact absurd hp hpe
    refine ⟨⟨.init (p + c.ws), by simp [State.ev, State.setStk], k + 1, hkn, ?_, ?_⟩, first_cons hne B.first, mr_cons (by simp) B.mr⟩
    · rw [hia]; simp only [if_true]; rw [hp, Nat.add_mul]; omega
    · show boots (.ctor p c.args :: s.log) = _
      rw [boots_own _ rfl, hb, hp]
      simp [ctors, List.range_succ]
  | thrCall t rest f fs hs hc ht =>
    exact B.upd S [_] hs (by simp) rfl rfl (by simp [Ev.boot]) (fun h => absurd h (nstart hs rfl rfl))
  | thrEnd t rest hs ht =>
    exact B.upd S [_] hs (by simp) rfl rfl (by simp [Ev.boot]) (fun h => absurd h (nstart hs rfl rfl))
  | regLock t rest s1 hs ha =>
    obtain ⟨h0, -, -, -, -, h1, h2, h3⟩ := acquire_fields ha
    refine B.upd S (l := .regPush :: rest) [] hs (by simp) (by rw [← h0]; rfl) h3 (by simp) (fun h => .inl ?_)
    rw [← pop hs rfl h]
    have Sh := S.shape t; rw [hs] at Sh
    obtain ⟨a, r, rfl, -⟩ := Sh.pop rfl
    rw [List.getLast?_cons_cons]
  | regPush t rest hs =>
    refine B.upd S [_] hs (by simp) rfl rfl (by simp [Ev.boot]) (fun h => .inl ?_)
    rw [← pop hs rfl h]
    have Sh := S.shape t; rw [hs] at Sh
    obtain ⟨a, r, rfl, -⟩ := Sh.pop rfl
    rw [List.getLast?_cons_cons]
  | regUnlock t rest f hs =>
    obtain ⟨h0, -, -, -, -, h1, h2, h3⟩ := release_fields c s
    exact B.upd S (l := rest) [.pRegRet t f] hs (by simp) (by rw [← h0]; rfl) (by rw [← h3]; rfl) (by simp [Ev.boot])
      (fun h => .inl (pop hs rfl h))
  | exitThrCall t rest e st f fs hs hc ht =>
    exact B.upd S [_] hs (by simp) rfl rfl (by simp [Ev.boot]) (fun h => .inl (push (pre := [.user (.tdtor f)]) hs h))
  | exitThr t rest e st hs ht =>
    exact B.upd S [_] hs (by simp) rfl rfl (by simp [Ev.boot]) (repl hs rfl rfl)
  | exitLock t rest e st s1 hs hc ha =>
    obtain ⟨h0, -, -, -, -, h1, h2, h3⟩ := acquire_fields ha
    exact B.upd S (l := .exitPop e st :: rest) [] hs (by simp) (by rw [← h0]; rfl) h3 (by simp) (repl hs rfl rfl)
  | exitNoLock t rest e st hs hc => exact B.upd S [_] hs (by simp) rfl rfl (by simp [Ev.boot]) (repl hs rfl rfl)
  | exitPop t rest e st f fs hs hd => exact B.upd S [_] hs (by simp) rfl rfl (by simp [Ev.boot]) (repl hs rfl rfl)
  | exitPopEnd t rest e st hs hd => exact B.upd S [_] hs (by simp) rfl rfl (by simp [Ev.boot]) (repl hs rfl rfl)
  | exitUnlock t rest e st f hs =>
    obtain ⟨h0, -, -, -, -, h1, h2, h3⟩ := release_fields c s
    exact B.upd S (l := .exitCall e st f :: rest) [] hs (by simp) (by rw [← h0]; rfl) h3 (by simp) (repl hs rfl rfl)
  | exitCall t rest e st f hs => exact B.upd S [_] hs (by simp) rfl rfl (by simp [Ev.boot]) (push' hs rfl rfl)
  | exitFiniEnd t rest e st hs => exact B.upd S [] hs (by simp) rfl rfl (by simp) (repl hs rfl rfl)
  | exitFini t rest e st p hs hp => exact B.upd S [_] hs (by simp) rfl rfl (by simp [Ev.boot]) (push' hs rfl rfl)

theorem Reach.binv {c : Cfg} {n m : Nat} (hok : c.Ok n m) {s : State} (h : Reach c s) : BInv c n s := by
  induction h with
  | init => exact BInv.init c n
  | step hr hs ih => exact ih.step hok hr.sinv (step_tr hs).2

end Origin.Proc
