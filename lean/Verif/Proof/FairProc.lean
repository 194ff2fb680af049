import Verif.Spec.FairProc
import Verif.Proof.Process7
/-!
# Progress of the process model under fair scheduling
-/

namespace Origin.Proc

set_option linter.unusedSimpArgs false

variable {c : Cfg} {s s' : State} {st : Nat → State} {act : Nat → Option Action}

/-! ### induction over time -/

/-- `P` holds until `Q` does. -/
theorem hold_until {P Q : Nat → Prop} {n k : Nat} (hk : n ≤ k) (h0 : P n) (h : ∀ m, n ≤ m → P m → Q m ∨ P (m + 1)) :
    (∃ m, n ≤ m ∧ P m ∧ Q m) ∨ P k := by
  induction hk with
  | refl => exact .inr h0
  | @step k hk ih =>
    rcases ih with h | h'
    · exact .inl h
    · rcases h k hk h' with q | q
      · exact .inl ⟨k, hk, h', q⟩
      · exact .inr q

/-- A measure that shrinks again and again until the goal is reached. -/
theorem descend {M : Nat → Nat → Prop} {Goal : Nat → Prop} : ∀ (b n : Nat), M n b →
    (∀ m b, n ≤ m → M m b → ∃ k, m ≤ k ∧ (Goal k ∨ ∃ b', b' < b ∧ M k b')) → ∃ m, n ≤ m ∧ Goal m := by
  intro b
  induction b using Nat.strongRecOn with
  | ind b ih =>
    intro n hM h
    obtain ⟨k, hk, g | ⟨b', hb, hM'⟩⟩ := h n b (Nat.le_refl _) hM
    · exact ⟨k, hk, g⟩
    · obtain ⟨m, hm, g⟩ := ih b' hb k hM' (fun m b hm => h m b (Nat.le_trans hk hm))
      exact ⟨m, Nat.le_trans hk hm, g⟩

/-- A stack in the last part of `exit`, and how far it is from the end. -/
inductive FiniStk (c : Cfg) : List Frame → Nat → Prop
  | loop (i e v rest) : FiniStk c (.exitFini e v (c.finiStart + i * c.ws) :: rest) (2 * i + 2)
  | fn (q i e v rest) : FiniStk c (.user (.fini q) :: .exitFini e v (c.finiStart + i * c.ws) :: rest) (2 * i + 3)
  | imm (e v rest) : FiniStk c (.exitImm e v :: rest) 1

/-- What the arguments below need of where the steps start. -/
structure Run0 (c : Cfg) (st : Nat → State) (act : Nat → Option Action) : Prop extends Steps c st act where
  sinv0 : SInv c (st 0)

theorem Run0.sinv (X : Run0 c st act) : ∀ n, SInv c (st n)
  | 0 => X.sinv0
  | n + 1 => by
    cases h : act n with
    | none => rw [X.idle n h]; exact X.sinv n
    | some x => exact (X.sinv n).step (step_tr (X.next n x h)).2

/-- The same where locks matter. -/
structure Run (c : Cfg) (st : Nat → State) (act : Nat → Option Action) : Prop extends Run0 c st act where
  linv0 : LInv c (st 0)
  done0 : c.thread = true → c.programAtExit = true → ∀ t e, Ev.pDone t e ∈ (st 0).log → ∃ w, FiniStk c ((st 0).stk t) w

theorem Run.inv (X : Run c st act) : ∀ n, SInv c (st n) ∧ LInv c (st n)
  | 0 => ⟨X.sinv0, X.linv0⟩
  | n + 1 => by
    cases h : act n with
    | none => rw [X.idle n h]; exact X.inv n
    | some x =>
      have T := (step_tr (X.next n x h)).2
      exact ⟨(X.inv n).1.step T, (X.inv n).2.step (X.inv n).1 T⟩

theorem IsExec.run (X : IsExec c st act) : Run c st act :=
  { X.toSteps with
    sinv0 := by rw [X.start]; exact Reach.init.sinv
    linv0 := by rw [X.start]; exact Reach.init.linv
    done0 := by rw [X.start]; intro _ _ t e h; cases h }

theorem IsExec.reach (X : IsExec c st act) : ∀ n, Reach c (st n)
  | 0 => by rw [X.start]; exact .init
  | n + 1 => by
    cases h : act n with
    | none => rw [X.idle n h]; exact X.reach n
    | some x => exact .step (X.reach n) (X.next n x h)

theorem Steps.keeps (X : Steps c st act) {P : State → Prop} (h : ∀ s s' x, P s → step c s x = some s' → P s') {n m : Nat} (hm : n ≤ m)
    (h0 : P (st n)) : P (st m) := by
  induction hm with
  | refl => exact h0
  | @step k hk ih =>
    cases ha : act k with
    | none => rw [X.idle k ha]; exact ih
    | some x => exact h _ _ x ih (X.next k x ha)

/-! ### what a step does -/

/-- History is never rewritten. -/
theorem Tr.log (h : Tr c s s') : ∃ es, s'.log = es ++ s.log := by
  cases h <;> simp [State.ev, State.setStk, State.setTd, State.beginExit]
  case regLock ha => simp [(acquire_fields ha).2.2.2.2.2.2.2]
  case exitLock ha => simp [(acquire_fields ha).2.2.2.2.2.2.2]
  all_goals first
    | exact ⟨[], rfl⟩
    | exact ⟨[_], rfl⟩
    | exact ⟨[_, _], rfl⟩

theorem log_mono {x : Action} (h : step c s x = some s') {e : Ev} (he : e ∈ s.log) : e ∈ s'.log := by
  obtain ⟨es, h⟩ := (step_tr h).2.log
  rw [h]; exact List.mem_append_right _ he

/-- Functions are numbered as they are registered. -/
theorem Tr.nextF (h : Tr c s s') : (s'.nextF = s.nextF ∧ s'.dtors.length ≤ s.dtors.length) ∨ (s'.nextF = s.nextF + 1 ∧ Regd s'.log s.nextF) := by
  cases h <;> simp [State.ev, State.setStk, State.setTd, State.beginExit]
  case regThr => exact .inr ⟨_, List.mem_cons_self⟩
  case regPush => exact .inl ⟨_, List.mem_cons_self⟩
  case regLock ha => simp [acquire_fields ha]
  case exitLock ha => simp [acquire_fields ha]
  case exitPop h => simp [h]

/-- From some time on nothing is registered. -/
theorem nextF_settles (X : Steps c st act) (hf : FinitelyMany st) : ∃ N, ∀ n, N ≤ n → (st n).nextF = (st N).nextF := by
  obtain ⟨b0, hb0⟩ := hf
  obtain ⟨b, hb', hb⟩ : ∃ b, (st 0).nextF ≤ b ∧ ∀ n f, Regd (st n).log f → f < b :=
    ⟨max b0 (st 0).nextF, Nat.le_max_right _ _, fun n f h => Nat.lt_of_lt_of_le (hb0 n f h) (Nat.le_max_left _ _)⟩
  have mono : ∀ n, (st n).nextF ≤ (st (n + 1)).nextF ∧ ((st n).nextF ≤ b → (st (n + 1)).nextF ≤ b) := by
    intro n
    cases ha : act n with
    | none => rw [X.idle n ha]; exact ⟨Nat.le_refl _, id⟩
    | some x =>
      rcases (step_tr (X.next n x ha)).2.nextF with ⟨h, -⟩ | ⟨h, hr⟩
      · rw [h]; exact ⟨Nat.le_refl _, id⟩
      · have := hb (n + 1) _ hr
        rw [h]; exact ⟨Nat.le_succ _, fun _ => this⟩
  have bd : ∀ n, (st n).nextF ≤ b := by
    intro n
    induction n with
    | zero => exact hb'
    | succ n ih => exact (mono n).2 ih
  have mono' : ∀ n k, (st n).nextF ≤ (st (n + k)).nextF := by
    intro n k
    induction k with
    | zero => exact Nat.le_refl _
    | succ k ih => exact Nat.le_trans ih (mono (n + k)).1
  obtain ⟨N, -, hN⟩ := descend (M := fun m d => b - (st m).nextF ≤ d) (Goal := fun N => ∀ n, N ≤ n → (st n).nextF = (st N).nextF)
    b 0 (Nat.sub_le _ _) fun m d _ hd => by
      by_cases h : ∀ n, m ≤ n → (st n).nextF = (st m).nextF
      · exact ⟨m, Nat.le_refl _, .inl h⟩
      · have ⟨n, hn⟩ := Classical.not_forall.mp h
        have ⟨hmn, hn⟩ := Classical.not_imp.mp hn
        refine ⟨n, hmn, .inr ⟨b - (st n).nextF, ?_, Nat.le_refl _⟩⟩
        have hn : ¬ @Eq Nat (st n).nextF (st m).nextF := hn
        have h1 : @LE.le Nat _ (st m).nextF (st (m + (n - m))).nextF := mono' m (n - m)
        rw [show m + (n - m) = n by omega] at h1
        have h2 : @LE.le Nat _ (st n).nextF b := bd n
        have hd : b - (st m).nextF ≤ d := hd
        generalize (st n).nextF = i at *
        generalize (st m).nextF = j at *
        simp only [FnId] at *
        omega
  exact ⟨N, hN⟩

/-- Other threads leave a thread's stack and list alone. -/
theorem stk_other (S : SInv c s) {x : Action} {t : Tid} (h : step c s x = some s') (hx : x.tid ≠ t) (hn : s.stk t ≠ []) :
    s'.stk t = s.stk t ∧ s'.tdtors t = s.tdtors t := by
  have hnt : t ≠ s.nextT := fun e => hn (S.new t (by rw [e]; exact Nat.le_refl _))
  have hx' : t ≠ x.tid := Ne.symm hx
  unfold step at h
  split at h
  · cases h
  · split at h
    · cases h
    · cases x <;> simp only [userStep, Action.tid] at h hx' <;> (try split at h) <;> (try cases h) <;>
        simp [State.ev, State.setStk, State.setTd, State.beginExit, hx', hnt]
    · next fr rest hnu hs =>
      split at h
      · generalize x.tid = u at *
        cases fr <;> simp only [frameStep] at h <;> (try split at h) <;> (try cases h) <;> (try rw [Option.map_eq_some_iff] at h) <;>
          (try (obtain ⟨s1, h1, h2⟩ := h; subst h2)) <;>
          simp [State.ev, State.setStk, State.setTd, State.beginExit, hx'] <;> (try simp [acquire_fields h1])
      · cases h

/-- What the owner of a stack can do. -/
theorem step_own {x : Action} {fr : Frame} {rest : List Frame} (h : step c s x = some s') (hs : s.stk x.tid = fr :: rest)
    (hu : ∀ fn, fr ≠ .user fn) : x = .step x.tid ∧ frameStep c s x.tid rest fr = some s' := by
  unfold step at h
  split at h
  · cases h
  · rw [hs] at h
    split at h
    · next h1 => cases h1
    · next h1 => injection h1 with h1 h2; exact absurd h1 (hu _)
    · next h1 =>
      injection h1 with h1 h2
      subst h1; subst h2
      split at h
      · next hx => exact ⟨hx, h⟩
      · cases h

theorem step_user {x : Action} {fn : Fn} {rest : List Frame} (h : step c s x = some s') (hs : s.stk x.tid = .user fn :: rest) :
    userStep c s x.tid fn rest x = some s' := by
  unfold step at h
  split at h
  · cases h
  · rw [hs] at h; exact h

theorem dead_none (hd : s.dead = true) (x : Action) : step c s x = none := by simp [step, hd]

/-! ### the lock -/

/-- A measure of what can still happen to the lock, when nothing more is registered. -/
def lockRank (s : State) : Nat :=
  4 * s.dtors.length + match s.lock with
    | none => 2
    | some u => match s.stk u with
      | .regUnlock _ :: _ | .exitUnlock .. :: _ => 3
      | _ => 1

theorem lockRank_keep (hd : s'.dtors = s.dtors) (hl : s'.lock = s.lock) (h : ∀ u, s.lock = some u → s'.stk u = s.stk u) :
    lockRank s' = lockRank s := by
  unfold lockRank
  rw [hd, hl]
  cases hu : s.lock with
  | none => rfl
  | some u => simp only [h u hu]

/-- Nobody but the holder changes the top of the holder's stack. -/
theorem holder_ne (S : SInv c s) (L : LInv c s) (hc : c.thread = true) (hf : ¬ PFinished s.log) {t : Tid} {fr : Frame} {rest : List Frame}
    (hs : s.stk t = fr :: rest) (hcr : fr.crit = false) {u : Tid} (hu : s.lock = some u) : u ≠ t := by
  rintro rfl
  obtain ⟨fr', rest', h1, h2⟩ := L.holder S hc hu hf
  rw [hs] at h1; injection h1 with h1 _
  rw [h1, h2] at hcr; cases hcr

theorem lockRank_step (S : SInv c s) (L : LInv c s) (hc : c.thread = true) {x : Action} (h : step c s x = some s') (hF : s'.nextF = s.nextF)
    (hp : ¬ PFinished s'.log) : lockRank s' ≤ lockRank s := by
  have hp0 : ¬ PFinished s.log := fun ⟨t, e, he⟩ => hp ⟨t, e, log_mono h he⟩
  have keep : ∀ {t fr rest l}, s.stk t = fr :: rest → fr.crit = false → s'.dtors = s.dtors → s'.lock = s.lock →
      (s'.stk = fun y => if y = t then l else s.stk y) → lockRank s' ≤ lockRank s := by
    intro t fr rest l hs hcr h1 h2 h3
    refine Nat.le_of_eq (lockRank_keep h1 h2 fun u hu => ?_)
    rw [h3]; simp only; rw [if_neg (holder_ne S L hc hp0 hs hcr hu)]
  have same : s'.dtors = s.dtors → s'.lock = s.lock → s'.stk = s.stk → lockRank s' ≤ lockRank s :=
    fun h1 h2 h3 => Nat.le_of_eq (lockRank_keep h1 h2 fun u _ => by rw [h3])
  cases (step_tr h).2 with
  | spawn t fn rest hs _ =>
    refine Nat.le_of_eq (lockRank_keep rfl rfl fun u hu => ?_)
    have : u ≠ s.nextT := by
      rintro rfl
      obtain ⟨fr', rest', h1, h2⟩ := L.holder S hc hu hp0
      rw [S.new _ (Nat.le_refl _)] at h1; cases h1
    simp [State.ev, State.setStk, this]
  | regThr t fn rest hs _ => exact same rfl rfl rfl
  | regProg t fn rest hs _ => exact keep hs rfl rfl rfl rfl
  | exit t fn rest v hs => exact keep hs rfl rfl rfl rfl
  | imm t fn rest v hs => exact keep hs rfl rfl rfl rfl
  | retMain t rest v hs => exact keep hs rfl rfl rfl rfl
  | retStart t rest hs => exact keep hs rfl rfl rfl rfl
  | ret t fn rest hs _ _ => exact keep hs rfl rfl rfl rfl
  | entry t rest hs => exact keep hs rfl rfl rfl rfl
  | initEnd t rest hs => exact keep hs rfl rfl rfl rfl
  | init t p rest hs _ => exact keep hs rfl rfl rfl rfl
  | thrCall t rest f fs hs _ _ => exact keep hs rfl rfl rfl rfl
  | thrEnd t rest hs _ => exact keep hs rfl rfl rfl rfl
  | regLock t rest s1 hs ha =>
    rcases acquire_some ha with ⟨-, hl, rfl⟩ | ⟨h1, -⟩
    · simp [lockRank, State.setStk, hl]
    · rw [hc] at h1; cases h1
  | regPush t rest hs => simp [State.ev, State.setStk] at hF
  | regUnlock t rest f hs =>
    have hl := (L.lk1 hc t (.regUnlock f) (by rw [hs]; simp) rfl).1
    simp [lockRank, State.setStk, State.ev, State.release, hc, hl, hs]
  | exitThrCall t rest e v f fs hs _ _ => exact keep hs rfl rfl rfl rfl
  | exitThr t rest e v hs _ => exact keep hs rfl rfl rfl rfl
  | exitLock t rest e v s1 hs _ ha =>
    rcases acquire_some ha with ⟨-, hl, rfl⟩ | ⟨h1, -⟩
    · simp [lockRank, State.setStk, hl]
    · rw [hc] at h1; cases h1
  | exitNoLock t rest e v hs _ => exact keep hs rfl rfl rfl rfl
  | exitPop t rest e v f fs hs hd =>
    have hl := (L.lk1 hc t (.exitPop e v) (by rw [hs]; simp) rfl).1
    simp [lockRank, State.setStk, State.ev, hl, hs, hd]
    omega
  | exitPopEnd t rest e v hs hd => exact absurd ⟨t, e, List.mem_cons_self⟩ hp
  | exitUnlock t rest e v f hs =>
    have hl := (L.lk1 hc t (.exitUnlock e v f) (by rw [hs]; simp) rfl).1
    simp [lockRank, State.setStk, State.ev, State.release, hc, hl, hs]
  | exitCall t rest e v f hs => exact keep hs rfl rfl rfl rfl
  | exitFiniEnd t rest e v hs => exact keep hs rfl rfl rfl rfl
  | exitFini t rest e v p hs _ => exact keep hs rfl rfl rfl rfl
  | group t rest e v hs _ => exact same rfl rfl rfl

theorem lockRank_holder (hc : c.thread = true) {u : Tid} {fr : Frame} {rest : List Frame} (hl : s.lock = some u) (hs : s.stk u = fr :: rest)
    (hcr : fr.crit = true) (h : step c s (.step u) = some s') (hF : s'.nextF = s.nextF) (hp : ¬ PFinished s'.log) : lockRank s' < lockRank s := by
  have ⟨_, h⟩ := step_own (x := .step u) h hs (by rintro fn rfl; cases hcr)
  simp only [Action.tid] at h
  cases fr <;> simp only [Frame.crit] at hcr <;> (try cases hcr) <;> simp only [frameStep] at h
  case regPush => injection h with h; subst h; simp [State.ev, State.setStk] at hF
  case regUnlock f => injection h with h; subst h; simp [lockRank, State.setStk, State.ev, State.release, hc, hl, hs]
  case exitPop e v =>
    split at h
    · next f fs hd => injection h with h; subst h; simp [lockRank, State.setStk, State.ev, hl, hs, hd]; omega
    · injection h with h; subst h; exact absurd ⟨u, e, List.mem_cons_self⟩ hp
  case exitUnlock e v f => injection h with h; subst h; simp [lockRank, State.setStk, State.ev, State.release, hc, hl, hs]

/-- A frame that waits for the lock. -/
def Frame.waits (c : Cfg) : Frame → Prop
  | .regLock => c.thread = true
  | .exitLock .. => c.thread = true ∧ c.programAtExit = true
  | _ => False

theorem frame_enabled {t : Tid} {fr : Frame} {rest : List Frame} (hd : s.dead = false) (hs : s.stk t = fr :: rest) (hu : ∀ fn, fr ≠ .user fn)
    (hw : fr.waits c → s.lock = none) : ∃ s', step c s (.step t) = some s' :=
  frame_progress hd hs hu fun h1 h2 => by
    cases fr <;> simp only [Frame.waits] at hw <;> simp
    case regLock => exact h2 (hw h1)
    case exitLock =>
      cases hp : c.programAtExit with
      | false => rfl
      | true => exact absurd (hw ⟨h1, hp⟩) h2

/-- The stack of a thread inside origin stays until the thread takes its step. -/
theorem stays_until (X : Run0 c st act) {t : Tid} {fr : Frame} {rest : List Frame} (hu : ∀ fn, fr ≠ .user fn) (m : Nat)
    (hm : (st m).stk t = fr :: rest) : act m = some (.step t) ∨ (st (m + 1)).stk t = fr :: rest := by
  cases ha : act m with
  | none => rw [X.idle m ha]; exact .inr hm
  | some x =>
    by_cases hx : x.tid = t
    · subst hx
      exact .inl (by rw [← (step_own (X.next m x ha) hm hu).1])
    · exact .inr (by rw [(stk_other (X.sinv m) (X.next m x ha) hx (by rw [hm]; simp)).1]; exact hm)

theorem steps_or_stuck (X : Run0 c st act) (F : Fair c st act) {n : Nat} {t : Tid} {fr : Frame} {rest : List Frame}
    (hs : (st n).stk t = fr :: rest) (hu : ∀ fn, fr ≠ .user fn) :
    ∃ m, n ≤ m ∧ (st m).stk t = fr :: rest ∧ (act m = some (.step t) ∨ step c (st m) (.step t) = none) := by
  obtain ⟨k, hk, h⟩ := F t n
  rcases hold_until (P := fun m => (st m).stk t = fr :: rest) (Q := fun m => act m = some (.step t)) hk hs
    (fun m _ hm => stays_until X hu m hm) with ⟨m, h1, h2, h3⟩ | h1
  · exact ⟨m, h1, h2, .inl h3⟩
  · exact ⟨k, hk, h1, h⟩

/-- A thread inside origin that does not wait for the lock gets on with it. -/
theorem goes_on (X : Run0 c st act) (F : Fair c st act) {n : Nat} {t : Tid} {fr : Frame} {rest : List Frame}
    (hs : (st n).stk t = fr :: rest) (hu : ∀ fn, fr ≠ .user fn) (hw : ¬ fr.waits c) :
    ∃ m, n ≤ m ∧ ((st m).dead = true ∨ (act m = some (.step t) ∧ (st m).stk t = fr :: rest)) := by
  obtain ⟨m, hm, h1, h2⟩ := steps_or_stuck X F hs hu
  rcases h2 with h2 | h2
  · exact ⟨m, hm, .inr ⟨h2, h1⟩⟩
  · refine ⟨m, hm, .inl ?_⟩
    cases hd : (st m).dead with
    | true => rfl
    | false =>
      obtain ⟨s', h3⟩ := frame_enabled (c := c) hd h1 hu (fun h => absurd h hw)
      rw [h2] at h3; cases h3

/-- From some time on, a thread inside origin gets on with it. -/
theorem gets_on (X : Run c st act) (F : Fair c st act) {N : Nat} (hN : ∀ n, N ≤ n → (st n).nextF = (st N).nextF) {n : Nat} (hn : N ≤ n) {t : Tid}
    {fr : Frame} {rest : List Frame} (hs : (st n).stk t = fr :: rest) (hu : ∀ fn, fr ≠ .user fn) :
    ∃ m, n ≤ m ∧ ((st m).dead = true ∨ (fr.waits c ∧ PFinished (st m).log) ∨ (act m = some (.step t) ∧ (st m).stk t = fr :: rest)) := by
  by_cases hw : fr.waits c
  · -- waiting for the lock
    have hc : c.thread = true := by cases fr <;> simp only [Frame.waits] at hw <;> first | exact hw | exact hw.1
    have lr : ∀ i j, N ≤ i → i ≤ j → PFinished (st j).log ∨ lockRank (st j) ≤ lockRank (st i) := by
      intro i j hi hij
      induction hij with
      | refl => exact .inr (Nat.le_refl _)
      | @step j hj ih =>
        cases ha : act j with
        | none => rw [X.idle j ha]; exact ih
        | some x =>
          by_cases hp : PFinished (st (j + 1)).log
          · exact .inl hp
          · rcases ih with ⟨t, e, h⟩ | ih
            · exact absurd ⟨t, e, log_mono (X.next j x ha) h⟩ hp
            · have hj' : N ≤ j := Nat.le_trans hi hj
              exact .inr (Nat.le_trans (lockRank_step (X.inv j).1 (X.inv j).2 hc (X.next j x ha)
                (by rw [hN (j + 1) (Nat.le_succ_of_le hj'), hN j hj']) hp) ih)
    obtain ⟨m, hm, h⟩ := descend (M := fun m b => (st m).stk t = fr :: rest ∧ lockRank (st m) ≤ b)
      (Goal := fun m => (st m).dead = true ∨ PFinished (st m).log ∨ (act m = some (.step t) ∧ (st m).stk t = fr :: rest))
      (lockRank (st n)) n ⟨hs, Nat.le_refl _⟩ fun m b hm ⟨h1, h2⟩ => by
        obtain ⟨k, hk, h3, h4⟩ := steps_or_stuck X.toRun0 F h1 hu
        rcases h4 with h4 | h4
        · exact ⟨k, hk, .inl (.inr (.inr ⟨h4, h3⟩))⟩
        by_cases hd : (st k).dead = true
        · exact ⟨k, hk, .inl (.inl hd)⟩
        by_cases hp : PFinished (st k).log
        · exact ⟨k, hk, .inl (.inr (.inl hp))⟩
        have hl : (st k).lock ≠ none := fun hl => by
          obtain ⟨s', h5⟩ := frame_enabled (by simpa using hd) h3 hu (fun _ => hl)
          rw [h4] at h5; cases h5
        obtain ⟨u, hl⟩ := Option.ne_none_iff_exists'.mp hl
        obtain ⟨fr', rest', h5, h6⟩ := (X.inv k).2.holder (X.inv k).1 hc hl hp
        have hu' : ∀ fn, fr' ≠ .user fn := by rintro fn rfl; cases h6
        have hw' : ¬ fr'.waits c := by cases fr' <;> simp [Frame.waits, Frame.crit] at h6 ⊢
        have hNk : N ≤ k := Nat.le_trans hn (Nat.le_trans hm hk)
        obtain ⟨j, hj, hdj | ⟨h8, h7⟩⟩ := goes_on X.toRun0 F h5 hu' hw'
        · exact ⟨j, Nat.le_trans hk hj, .inl (.inl hdj)⟩
        have hNj : N ≤ j := Nat.le_trans hNk hj
        by_cases hpj : PFinished (st (j + 1)).log
        · exact ⟨j + 1, by omega, .inl (.inr (.inl hpj))⟩
        have hpj0 : ¬ PFinished (st j).log := fun ⟨t, e, he⟩ => hpj ⟨t, e, log_mono (X.next j _ h8) he⟩
        have hlj := ((X.inv j).2.lk1 hc u fr' (by rw [h7]; simp) h6).1
        have hlt := lockRank_holder hc hlj h7 h6 (X.next j _ h8) (by rw [hN (j + 1) (by omega), hN j hNj]) hpj
        rcases lr m j (Nat.le_trans hn hm) (Nat.le_trans hk hj) with hq | hq
        · exact absurd hq hpj0
        rcases hold_until (P := fun m => (st m).stk t = fr :: rest) (Q := fun m => act m = some (.step t)) (n := m) (k := j + 1) (by omega) h1
          (fun i _ hi => stays_until X.toRun0 hu i hi) with ⟨i, g1, g2, g3⟩ | g
        · exact ⟨i, g1, .inl (.inr (.inr ⟨g3, g2⟩))⟩
        · exact ⟨j + 1, by omega, .inr ⟨lockRank (st (j + 1)), by omega, g, Nat.le_refl _⟩⟩
    exact ⟨m, hm, h.imp id (Or.imp (fun h => ⟨hw, h⟩) id)⟩
  · obtain ⟨m, hm, h⟩ := goes_on X.toRun0 F hs hu hw
    exact ⟨m, hm, h.imp id .inr⟩

end Origin.Proc
