import Verif.Proof.FairProc2
/-!
# Exits, thread exits and startup get to their ends: the loops
-/

namespace Origin.Proc

set_option linter.unusedSimpArgs false

variable {c : Cfg} {s s' : State} {st : Nat → State} {act : Nat → Option Action}

/-- What a thread is in the middle of. -/
inductive Kind
  | exit
  | thr
  | boot

/-- A function origin calls, and the loop it is called from; with a weight. -/
inductive Under (c : Cfg) (k : Kind) : Fn → Frame → Nat → Prop
  | thr (f) : k = .thr → Under c k (.tdtor f) .thrLoop 12
  | exitThr (f e v) : Under c k (.tdtor f) (.exitThr e v) 12
  | exitLock (f e v) : Under c k (.pdtor f) (.exitLock e v) 8
  | init (q p j) : k = .boot → p + j * c.ws = c.initEnd → Under c k (.ctor q) (.init p) (4 * j + 5)

/-- The stack of a thread that is in the middle of it, and how far it is from the end. -/
inductive Busy (c : Cfg) (k : Kind) : List Frame → Nat → Prop
  | thrLoop (rest) : k = .thr → Busy c k (.thrLoop :: rest) 5
  | entry (j rest) : k = .boot → c.initFirst + j * c.ws = c.initEnd → Busy c k (.entry :: rest) (4 * j + 6)
  | init (p j rest) : k = .boot → p + j * c.ws = c.initEnd → Busy c k (.init p :: rest) (4 * j + 5)
  | exitThr (e v rest) : Busy c k (.exitThr e v :: rest) 5
  | exitLock (e v rest) : Busy c k (.exitLock e v :: rest) 4
  | exitPop (e v rest) : Busy c k (.exitPop e v :: rest) 3
  | exitUnlock (e v f rest) : Busy c k (.exitUnlock e v f :: rest) 12
  | exitCall (e v f rest) : Busy c k (.exitCall e v f :: rest) 11
  | user (fn fr rest w) : Under c k fn fr w → Busy c k (.user fn :: fr :: rest) (w + 2)
  | regLock (fn fr rest w) : Under c k fn fr w → Busy c k (.regLock :: .user fn :: fr :: rest) (w + 1)
  | regPush (fn fr rest w) : Under c k fn fr w → Busy c k (.regPush :: .user fn :: fr :: rest) w
  | regUnlock (fn fr f rest w) : Under c k fn fr w → Busy c k (.regUnlock f :: .user fn :: fr :: rest) (w + 3)

theorem Under.big {k : Kind} {fn : Fn} {fr : Frame} {w : Nat} (h : Under c k fn fr w) : 4 < w := by
  cases h <;> omega

theorem Under.loop {k : Kind} {fn : Fn} {fr : Frame} {w : Nat} (h : Under c k fn fr w) (rest : List Frame) :
    ∃ w', w' < w + 2 ∧ Busy c k (fr :: rest) w' := by
  cases h with
  | thr f h => exact ⟨5, by omega, .thrLoop _ h⟩
  | exitThr f e v => exact ⟨5, by omega, .exitThr _ _ _⟩
  | exitLock f e v => exact ⟨4, by omega, .exitLock _ _ _⟩
  | init q p j h1 h2 => exact ⟨4 * j + 5, by omega, .init _ _ _ h1 h2⟩

theorem Under.handler {k : Kind} {fn : Fn} {fr : Frame} {w : Nat} (h : Under c k fn fr w) : fn.handler ∧ fn ≠ .main ∧ fn ≠ .start := by
  cases h <;> simp [Fn.handler]

/-- The number of functions `t` can still have to call. -/
def State.todo (s : State) (t : Tid) : Nat := (s.tdtors t).length + s.dtors.length

theorem Tr.todo (h : Tr c s s') (hF : s'.nextF = s.nextF) (t : Tid) : s'.todo t ≤ s.todo t := by
  unfold State.todo
  cases h <;> simp [State.ev, State.setStk, State.setTd, State.beginExit] at hF ⊢
  case regLock ha => simp [acquire_fields ha]
  case exitLock ha => simp [acquire_fields ha]
  case thrCall t' rest f fs hs hc hd =>
    split
    · next h => subst h; simp [hd]
    · exact Nat.le_refl _
  case exitThrCall t' rest e v f fs hs hc hd =>
    split
    · next h => subst h; simp [hd]
    · exact Nat.le_refl _
  case exitPop h => simp [h]

/-- What the thread's functions, or startup, were to lead to. -/
def Kind.done (c : Cfg) (t : Tid) (l : List Ev) : Kind → Prop
  | .exit => False
  | .thr => Ev.released t ∈ l
  | .boot => Ev.main c.args ∈ l

/-- The thread's own steps bring it nearer to the end. -/
theorem busy_step {n m : Nat} (hok : c.Ok n m) (S : SInv c s) {k : Kind} {t : Tid} {w : Nat} (hb : Busy c k (s.stk t) w) {x : Action} (hx : x.tid = t)
    (h : step c s x = some s') :
    ((∃ fn rest, s.stk t = .user fn :: rest) ∧ ¬ x.Leaves t ∧ s'.stk t = s.stk t) ∨
    (∃ w', Busy c k (s'.stk t) w' ∧ (s'.nextF = s.nextF → 10 * s'.todo t + w' < 10 * s.todo t + w)) ∨
    (∃ w', FiniStk c (s'.stk t) w') ∨ k.done c t s'.log := by
  generalize hs : s.stk t = l at hb
  cases hb with
  | user fn fr rest w hu =>
    have hbig := hu.big
    rcases user_cases S h hx hs with ⟨h1, h2, -⟩ | ⟨h1, h2, ⟨h3, h4⟩ | ⟨v, e, h3, h4⟩ | ⟨v, e, h3, h4⟩ | ⟨v, h3, h4⟩⟩
    · exact .inl ⟨⟨_, _, rfl⟩, h2, h1⟩
    · exact .inr (.inl ⟨w + 1, by rw [h4]; exact .regLock _ _ _ _ hu, fun _ => by simp [State.todo, h1, h2]⟩)
    · exact .inr (.inl ⟨5, by rw [h4]; exact .exitThr _ _ _, fun _ => by simp [State.todo, h1, h2]; omega⟩)
    · exact .inr (.inr (.inl ⟨1, by rw [h4]; exact .imm _ _ _⟩))
    · obtain ⟨-, q1, q2⟩ := hu.handler
      obtain ⟨w', hw, hb⟩ := hu.loop rest
      exact .inr (.inl ⟨w', by rw [h4 q1 q2]; exact hb, fun _ => by simp [State.todo, h1, h2]; omega⟩)
  | thrLoop rest hk =>
    subst hx; obtain ⟨-, h⟩ := step_own h hs (by simp)
    simp only [frameStep] at h
    split at h
    · next f fs hc hd =>
      injection h with h; subst h
      refine .inr (.inl ⟨14, by simp only [State.ev, State.setStk, State.setTd, if_self]; exact .user _ _ _ _ (.thr _ hk), fun _ => ?_⟩)
      simp [State.todo, State.ev, State.setStk, State.setTd, hd]; omega
    · injection h with h; subst h
      exact .inr (.inr (.inr (by rw [hk]; exact List.mem_cons_self)))
  | entry j rest hk hj =>
    subst hx; obtain ⟨-, h⟩ := step_own h hs (by simp)
    simp only [frameStep] at h
    injection h with h; subst h
    exact .inr (.inl ⟨4 * j + 5, by simp only [State.ev, State.setStk, if_self]; exact .init _ _ _ hk hj, fun _ => by
      simp [State.todo, State.ev, State.setStk]⟩)
  | init p j rest hk hj =>
    subst hx; obtain ⟨-, h⟩ := step_own h hs (by simp)
    simp only [frameStep] at h
    split at h
    · injection h with h; subst h
      exact .inr (.inr (.inr (by rw [hk]; exact List.mem_cons_self)))
    · next hne =>
      injection h with h; subst h
      cases j with
      | zero => simp at hj; exact absurd hj hne
      | succ j =>
        refine .inr (.inl ⟨4 * j + 5 + 2, ?_, fun _ => ?_⟩)
        · simp only [State.ev, State.setStk, if_self]
          refine .user _ _ _ _ (.init _ _ j hk ?_)
          rw [← hj, Nat.add_mul, Nat.one_mul]; omega
        · simp [State.todo, State.ev, State.setStk]; omega
  | exitThr e v rest =>
    subst hx; obtain ⟨-, h⟩ := step_own h hs (by simp)
    simp only [frameStep] at h
    split at h
    · next f fs hc hd =>
      injection h with h; subst h
      refine .inr (.inl ⟨14, by simp only [State.ev, State.setStk, State.setTd, if_self]; exact .user _ _ _ _ (.exitThr _ _ _), fun _ => ?_⟩)
      simp [State.todo, State.ev, State.setStk, State.setTd, hd]; omega
    · injection h with h; subst h
      exact .inr (.inl ⟨4, by simp only [State.ev, State.setStk, if_self]; exact .exitLock _ _ _, fun _ => by
        simp [State.todo, State.ev, State.setStk]⟩)
  | exitLock e v rest =>
    subst hx; obtain ⟨-, h⟩ := step_own h hs (by simp)
    simp only [frameStep] at h
    split at h
    · rw [Option.map_eq_some_iff] at h
      obtain ⟨s1, h1, h2⟩ := h
      subst h2
      exact .inr (.inl ⟨3, by simp only [State.setStk, if_self]; exact .exitPop _ _ _, fun _ => by
        simp [State.todo, State.setStk, acquire_fields h1]⟩)
    · injection h with h; subst h
      obtain ⟨i, hi⟩ := fini_first hok
      exact .inr (.inr (.inl ⟨_, by simp only [State.ev, State.setStk, if_self]; rw [hi]; exact .loop _ _ _ _⟩))
  | exitPop e v rest =>
    subst hx; obtain ⟨-, h⟩ := step_own h hs (by simp)
    simp only [frameStep] at h
    split at h
    · next f fs hd =>
      injection h with h; subst h
      refine .inr (.inl ⟨12, by simp only [State.ev, State.setStk, if_self]; exact .exitUnlock _ _ _ _, fun _ => ?_⟩)
      simp [State.todo, State.ev, State.setStk, hd]; omega
    · injection h with h; subst h
      obtain ⟨i, hi⟩ := fini_first hok
      exact .inr (.inr (.inl ⟨_, by simp only [State.ev, State.setStk, if_self]; rw [hi]; exact .loop _ _ _ _⟩))
  | exitUnlock e v f rest =>
    subst hx; obtain ⟨-, h⟩ := step_own h hs (by simp)
    simp only [frameStep] at h
    injection h with h; subst h
    exact .inr (.inl ⟨11, by simp only [State.setStk, if_self]; exact .exitCall _ _ _ _, fun _ => by
      simp [State.todo, State.setStk]⟩)
  | exitCall e v f rest =>
    subst hx; obtain ⟨-, h⟩ := step_own h hs (by simp)
    simp only [frameStep] at h
    injection h with h; subst h
    exact .inr (.inl ⟨10, by simp only [State.ev, State.setStk, if_self]; exact .user _ _ _ _ (.exitLock _ _ _), fun _ => by
      simp [State.todo, State.ev, State.setStk]⟩)
  | regLock fn fr rest w hu =>
    subst hx; obtain ⟨-, h⟩ := step_own h hs (by simp)
    simp only [frameStep] at h
    rw [Option.map_eq_some_iff] at h
    obtain ⟨s1, h1, h2⟩ := h
    subst h2
    exact .inr (.inl ⟨w, by simp only [State.setStk, if_self]; exact .regPush _ _ _ _ hu, fun _ => by
      simp [State.todo, State.setStk, acquire_fields h1]⟩)
  | regPush fn fr rest w hu =>
    subst hx; obtain ⟨-, h⟩ := step_own h hs (by simp)
    simp only [frameStep] at h
    injection h with h; subst h
    exact .inr (.inl ⟨w + 3, by simp only [State.ev, State.setStk, if_self]; exact .regUnlock _ _ _ _ _ hu, fun hF => by
      simp [State.ev, State.setStk] at hF⟩)
  | regUnlock fn fr f rest w hu =>
    subst hx; obtain ⟨-, h⟩ := step_own h hs (by simp)
    simp only [frameStep] at h
    injection h with h; subst h
    exact .inr (.inl ⟨w + 2, by simp only [State.ev, State.setStk, if_self]; exact .user _ _ _ _ hu, fun _ => by
      simp [State.todo, State.ev, State.setStk]⟩)

theorem Busy.ne {k : Kind} {l : List Frame} {w : Nat} (h : Busy c k l w) : l ≠ [] := by cases h <;> simp

/-- The next step of a busy thread happens, once nothing more is registered. -/
theorem busy_acts {n m : Nat} (hok : c.Ok n m) (X : Run c st act) (F : Fair c st act) (H : Finite Fn.handler st act) (Q : QuietFini st act) {N : Nat}
    (hN : ∀ n, N ≤ n → (st n).nextF = (st N).nextF) {i : Nat} (hi : N ≤ i) {k : Kind} {t : Tid} {w : Nat} (hb : Busy c k ((st i).stk t) w) :
    ∃ j, i ≤ j ∧ ((st j).dead = true ∨ ∃ x, act j = some x ∧ x.tid = t ∧ (st j).stk t = (st i).stk t ∧
      ((∃ fn rest, (st j).stk t = .user fn :: rest) → x.Leaves t)) := by
  cases hl : (st i).stk t with
  | nil => exact absurd hl hb.ne
  | cons fr rest =>
    by_cases hu : ∃ fn, fr = .user fn
    · obtain ⟨fn, rfl⟩ := hu
      have hfn : fn.handler := by
        rw [hl] at hb
        cases hb with
        | user _ _ _ _ h => exact h.handler.1
      obtain ⟨j, hj, h | ⟨x, h1, h2, h3⟩⟩ := user_leaves X H hl hfn
      · exact ⟨j, hj, .inl h⟩
      · exact ⟨j, hj, .inr ⟨x, h1, h2.tid, h3, fun _ => h2⟩⟩
    · have hu : ∀ fn, fr ≠ .user fn := fun fn h => hu ⟨fn, h⟩
      obtain ⟨j, hj, h | ⟨hw, t', e, h⟩ | ⟨h1, h2⟩⟩ := gets_on X F hN hi hl hu
      · exact ⟨j, hj, .inl h⟩
      · have hcp : c.thread = true ∧ c.programAtExit = true := by
          cases fr <;> simp only [Frame.waits] at hw
          · exact ⟨hw, (X.inv i).2.pat t .regLock (by rw [hl]; simp) (.inr rfl)⟩
          · exact hw
        obtain ⟨w', hw⟩ := fini_stack hok X Q hcp.1 hcp.2 j t' e h
        obtain ⟨j', hj', h⟩ := fini_ends X F H Q hw
        exact ⟨j', Nat.le_trans hj hj', .inl h⟩
      · refine ⟨j, hj, .inr ⟨_, h1, rfl, h2, ?_⟩⟩
        rintro ⟨fn, r, h3⟩
        rw [h2] at h3; injection h3 with h3 _
        exact absurd h3 (hu fn)

theorem todo_mono (X : Run c st act) {N : Nat} (hN : ∀ n, N ≤ n → (st n).nextF = (st N).nextF) {i j : Nat} (hi : N ≤ i) (hij : i ≤ j) (t : Tid) :
    (st j).todo t ≤ (st i).todo t := by
  induction hij with
  | refl => exact Nat.le_refl _
  | @step j hj ih =>
    cases ha : act j with
    | none => rw [X.idle j ha]; exact ih
    | some x =>
      have hj' : N ≤ j := Nat.le_trans hi hj
      exact Nat.le_trans ((step_tr (X.next j x ha)).2.todo (by rw [hN (j + 1) (Nat.le_succ_of_le hj'), hN j hj']) t) ih

/-- A busy thread gets to the end. -/
theorem busy_ends {n m : Nat} (hok : c.Ok n m) (X : Run c st act) (F : Fair c st act) (H : Finite Fn.handler st act) (Q : QuietFini st act)
    (M : FinitelyMany st) {i : Nat} {k : Kind} {t : Tid} {w : Nat} (hb : Busy c k ((st i).stk t) w) :
    ∃ j, i ≤ j ∧ ((st j).dead = true ∨ k.done c t (st j).log) := by
  obtain ⟨N, hN⟩ := nextF_settles X.toSteps M
  -- it stays busy until it gets there
  rcases hold_until (P := fun j => ∃ w, Busy c k ((st j).stk t) w)
    (Q := fun j => (∃ w', FiniStk c ((st (j + 1)).stk t) w') ∨ k.done c t (st (j + 1)).log) (Nat.le_max_left i N) ⟨w, hb⟩ (fun j _ ⟨w, hj⟩ => by
      cases ha : act j with
      | none => rw [X.idle j ha]; exact .inr ⟨w, hj⟩
      | some x =>
        by_cases hx : x.tid = t
        · rcases busy_step hok (X.inv j).1 hj hx (X.next j x ha) with ⟨-, -, h⟩ | ⟨w', h, -⟩ | h | h
          · exact .inr ⟨w, by rw [h]; exact hj⟩
          · exact .inr ⟨w', h⟩
          · exact .inl (.inl h)
          · exact .inl (.inr h)
        · exact .inr ⟨w, by rw [(stk_other (X.inv j).1 (X.next j x ha) hx hj.ne).1]; exact hj⟩) with ⟨j, h1, -, ⟨w', h⟩ | h⟩ | ⟨w, hb⟩
  · obtain ⟨j', h2, h3⟩ := fini_ends X F H Q h
    exact ⟨j', by omega, .inl h3⟩
  · exact ⟨j + 1, by omega, .inr h⟩
  obtain ⟨j, hj, h⟩ := descend (M := fun j b => ∃ w, Busy c k ((st j).stk t) w ∧ 10 * (st j).todo t + w ≤ b)
    (Goal := fun j => (st j).dead = true ∨ k.done c t (st j).log) _ (max i N) ⟨w, hb, Nat.le_refl _⟩ fun j b hj ⟨w, hb, hle⟩ => by
      have hNj : N ≤ j := Nat.le_trans (Nat.le_max_right i N) hj
      obtain ⟨a, ha, h | ⟨x, h1, h2, h3, h4⟩⟩ := busy_acts hok X F H Q hN hNj hb
      · exact ⟨a, ha, .inl (.inl h)⟩
      have hNa : N ≤ a := Nat.le_trans hNj ha
      have htd := todo_mono X hN hNj ha t
      rw [← h3] at hb
      rcases busy_step hok (X.inv a).1 hb h2 (X.next a x h1) with ⟨h5, h6, -⟩ | ⟨w', h5, h6⟩ | ⟨w', h5⟩ | h5
      · exact absurd (h4 h5) h6
      · have := h6 (by rw [hN (a + 1) (Nat.le_succ_of_le hNa), hN a hNa])
        exact ⟨a + 1, by omega, .inr ⟨_, by omega, w', h5, Nat.le_refl _⟩⟩
      · obtain ⟨j', h6, h7⟩ := fini_ends X F H Q h5
        exact ⟨j', by omega, .inl (.inl h7)⟩
      · exact ⟨a + 1, by omega, .inl (.inr h5)⟩
  exact ⟨j, Nat.le_trans (Nat.le_max_left i N) hj, h⟩

end Origin.Proc
