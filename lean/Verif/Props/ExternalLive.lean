import Verif.Props.External
import Verif.Spec.External
import Verif.Props.FairProc
/-! # C80: what happens in the long run in a program that libc starts -/

namespace Origin.Ctors

open Proc (Cfg Ev Tid Action)

variable {c : Cfg} {a : List Entry} {early argv : Nat} {xst : Nat → XState} {xact : Nat → Option XAct}

theorem XExec.reach (X : XExec c a early argv xst xact) : ∀ n, XReach c a early argv (xst n)
  | 0 => X.start ▸ .init
  | n + 1 => by
    cases h : xact n with
    | none => rw [X.idle n h]; exact X.reach n
    | some y => exact .step (X.reach n) (X.next n y h)

/-- Origin's state, once it has control. -/
def XState.proc (x : XState) : Proc.State := match x.phase with | .origin s => s | _ => Proc.init
/-- The action in origin's process. -/
def XAct.proc : XAct → Option Action | .act y => some y | .libc => none

/-- What takes control is a step of libc's, and then origin's process starts. -/
theorem origin_stays (X : XExec c a early argv xst xact) {n : Nat} {s : Proc.State} (h : (xst n).phase = .origin s) :
    (∃ s', (xst (n + 1)).phase = .origin s') ∧ xact n ≠ some .libc := by
  have hf := ((X.reach n).inv.origin s h).2.1
  cases hx : xact n with
  | none => exact ⟨⟨s, by rw [X.idle n hx]; exact h⟩, by simp⟩
  | some y =>
    have h1 := X.next n y hx
    cases y with
    | libc => simp [xstep, h] at h1
    | act y =>
      obtain ⟨s', -, h2, -⟩ := origin_xstep h hf h1
      exact ⟨⟨s', by rw [h2]⟩, by simp⟩

theorem origin_first (X : XExec c a early argv xst xact) : ∀ n s, (xst n).phase = .origin s → ∃ i, i ≤ n ∧ (xst i).phase = .origin Proc.init := by
  intro n
  induction n with
  | zero => intro s h; rw [X.start] at h; cases h
  | succ n ih =>
    intro s h
    cases hp : (xst n).phase with
    | origin s0 => obtain ⟨i, h1, h2⟩ := ih s0 hp; exact ⟨i, by omega, h2⟩
    | main =>
      cases hx : xact n with
      | none => rw [X.idle n hx, hp] at h; cases h
      | some y =>
        have h1 := X.next n y hx
        cases y <;> simp [xstep, hp] at h1
    | libc i =>
      cases hx : xact n with
      | none => rw [X.idle n hx, hp] at h; cases h
      | some y =>
        have h1 := X.next n y hx
        cases y with
        | act y => simp [xstep, hp] at h1
        | libc =>
          simp only [xstep, hp] at h1
          split at h1
          · simp only [Option.some.injEq] at h1; rw [← h1] at h; cases h
          · split at h1
            · simp only [Option.some.injEq] at h1
              exact ⟨n + 1, Nat.le_refl _, by rw [← h1]; rfl⟩
            · simp only [Option.some.injEq] at h1; rw [← h1] at h; cases h

/-- **C80 (executions).** In every infinite execution in which origin gets control, from that moment on it is, moment by moment, an infinite execution of a process that the kernel starts. -/
theorem C80_execution (X : XExec c a early argv xst xact) {n : Nat} {s : Proc.State} (h : (xst n).phase = .origin s) :
    ∃ i st act, i ≤ n ∧ Proc.IsExec c st act ∧ OriginFrom xst xact i st act := by
  obtain ⟨i, hi, h0⟩ := origin_first X n s h
  have hall : ∀ j, (xst (i + j)).phase = .origin (xst (i + j)).proc := by
    intro j
    induction j with
    | zero => simp [XState.proc, h0]
    | succ j ih =>
      obtain ⟨⟨s', h1⟩, -⟩ := origin_stays X ih
      rw [show i + (j + 1) = i + j + 1 by omega]
      simp [XState.proc, h1]
  have hact : ∀ j, xact (i + j) = ((xact (i + j)).bind XAct.proc).map .act := by
    intro j
    have := (origin_stays X (hall j)).2
    cases hx : xact (i + j) with
    | none => rfl
    | some y => cases y with
      | libc => exact absurd hx this
      | act y => rfl
  refine ⟨i, fun j => (xst (i + j)).proc, fun j => (xact (i + j)).bind XAct.proc, hi, ⟨⟨fun j hj => ?_, fun j y hj => ?_⟩, ?_⟩, fun j => ⟨hall j, hact j⟩⟩
  · have h1 := hact j
    rw [hj] at h1
    rw [show i + (j + 1) = i + j + 1 by omega, X.idle _ h1]
  · have h1 := hact j
    rw [hj] at h1
    obtain ⟨s', h2, h3, -⟩ := origin_xstep (hall j) ((X.reach _).inv.origin _ (hall j)).2.1 (X.next _ _ h1)
    show Proc.step c (xst (i + j)).proc y = some (xst (i + j + 1)).proc
    rw [h2, h3]
    rfl
  · simp [XState.proc, h0]

/-- Fairness of the whole is fairness of origin's process. -/
theorem origin_fair (X : XExec c a early argv xst xact) (F : XFair c a early argv xst xact) {i : Nat} {st : Nat → Proc.State} {act : Nat → Option Action}
    (O : OriginFrom xst xact i st act) : Proc.Fair c st act := by
  intro t n
  obtain ⟨m, hm, h⟩ := F.2 t (i + n)
  obtain ⟨k, rfl⟩ : ∃ k, m = i + k := ⟨m - i, by omega⟩
  refine ⟨k, by omega, h.imp (fun h => ?_) (fun h => ?_)⟩
  · rw [(O k).2] at h
    cases hk : act k with
    | none => rw [hk] at h; cases h
    | some y => rw [hk] at h; injection h with h; injection h with h; rw [h]
  · have hp := (O k).1
    have hf := ((X.reach _).inv.origin _ hp).2.1
    simp only [xstep, hp] at h
    split at h
    · next p r hs =>
      have hs : (st k).stk t = .user (.ctor p) :: r := hs
      simp [Proc.step, Action.tid, hs, Proc.userStep]
    · simpa using h

/-- **C80 (libc's constructors come to it).** On every fair schedule, if the array has the function, origin gets control. -/
theorem C80_gets_control (X : XExec c a early argv xst xact) (F : XFair c a early argv xst xact) {e : Entry} (he : e ∈ a) (hf : e.fn = early) :
    ∃ n s, (xst n).phase = .origin s := by
  -- as long as libc is in the array it goes on, and it cannot go on for ever
  have go : ∀ d n i, (xst n).phase = .libc i → i + d = a.length → ∃ n s, (xst n).phase = .origin s := by
    intro d
    induction d with
    | zero =>
      intro n i hp hi
      obtain ⟨k, e', h1, h2⟩ : ∃ k e', At a k e' ∧ e'.fn = early := by
        obtain ⟨k, hk⟩ := List.mem_iff_getElem?.mp he
        exact ⟨k, e, hk, hf⟩
      exact absurd h2 (((X.reach n).inv.libc i hp).2.2.2.2 k e' (by have := (List.getElem?_eq_some_iff.mp h1).1; omega) h1)
    | succ d ih =>
      intro n i hp hi
      obtain ⟨m, hm, h⟩ := F.1 n
      -- the first moment at which the phase is another one
      have walk : ∀ k, (xst (n + k)).phase = .libc i ∨ ∃ j, (xst j).phase = .libc (i + 1) ∨ ∃ s, (xst j).phase = .origin s := by
        intro k
        induction k with
        | zero => exact .inl hp
        | succ k ihk =>
          rcases ihk with hk | hk
          · cases hx : xact (n + k) with
            | none => left; rw [show n + (k + 1) = n + k + 1 by omega, X.idle _ hx]; exact hk
            | some y =>
              right
              have h1 := X.next _ _ hx
              refine ⟨n + k + 1, ?_⟩
              cases y with
              | act y => simp [xstep, hk] at h1
              | libc =>
                simp only [xstep, hk] at h1
                split at h1
                · next hn => have := List.getElem?_eq_none_iff.mp hn; omega
                · split at h1 <;> (simp only [Option.some.injEq] at h1; rw [← h1])
                  · exact .inr ⟨_, rfl⟩
                  · exact .inl rfl
          · exact .inr hk
      rcases walk (m - n) with hk | ⟨j, hj | hj⟩
      · rw [show n + (m - n) = m by omega] at hk
        rcases h with h | h
        · have h1 := X.next _ _ h
          have hlt : i < a.length := by omega
          simp only [xstep, hk, List.getElem?_eq_getElem hlt] at h1
          split at h1 <;> simp only [Option.some.injEq] at h1
          · exact ⟨m + 1, _, by rw [← h1]; rfl⟩
          · exact ih (m + 1) (i + 1) (by rw [← h1]) (by omega)
        · have hlt : i < a.length := by omega
          simp only [xstep, hk, List.getElem?_eq_getElem hlt] at h
          split at h <;> cases h
      · exact ih j (i + 1) hj (by omega)
      · exact ⟨j, hj⟩
  exact go a.length 0 0 (by rw [X.start]; rfl) (by omega)

/-- **C80 (`origin_main` is called).** On every fair schedule, under C62's assumptions about the program once origin has control: if the array has the function, `origin_main` is called, unless the
process ends first. -/
theorem C80_main_called {n m : Nat} (hok : c.Ok n m) (X : XExec c a early argv xst xact) (F : XFair c a early argv xst xact) {e : Entry} (he : e ∈ a) (hf : e.fn = early)
    (U : ∀ i st act, OriginFrom xst xact i st act → Proc.Finite Proc.Fn.handler st act ∧ Proc.QuietFini st act ∧ Proc.FinitelyMany st) :
    ∃ j s, (xst j).phase = .origin s ∧ (.main c.args ∈ s.log ∨ Proc.Ended s.log) := by
  obtain ⟨n, s, h⟩ := C80_gets_control X F he hf
  obtain ⟨i, st, act, -, E, O⟩ := C80_execution X h
  obtain ⟨u1, u2, u3⟩ := U i st act O
  obtain ⟨j, hj⟩ := Proc.C62_main_called hok E (origin_fair X F O) u1 u2 u3
  exact ⟨i + j, st j, (O j).1, hj⟩

/-! ### A concrete execution -/

/-- The state after the first `n` of the actions. -/
def xstAt (c : Cfg) (a : List Entry) (early argv : Nat) (ys : List XAct) (n : Nat) : XState := (xrun c a early argv xinit (ys.take n)).getD xinit

theorem xrun_append : ∀ (ys zs : List XAct) (x : XState), xrun c a early argv x (ys ++ zs) = (xrun c a early argv x ys).bind (xrun c a early argv · zs)
  | [], _, _ => rfl
  | y :: ys, zs, x => by
    simp only [List.cons_append, xrun]
    cases xstep c a early argv x y with
    | none => rfl
    | some x1 => exact xrun_append ys zs x1

theorem xrun_take {ys : List XAct} (h : (xrun c a early argv xinit ys).isSome = true) (n : Nat) : xrun c a early argv xinit (ys.take n) = some (xstAt c a early argv ys n) := by
  have h1 := xrun_append (c := c) (a := a) (early := early) (argv := argv) (ys.take n) (ys.drop n) xinit
  rw [List.take_append_drop] at h1
  unfold xstAt
  cases h2 : xrun c a early argv xinit (ys.take n) with
  | none => rw [h1, h2] at h; cases h
  | some x => rfl

theorem xexec_of {ys : List XAct} (h : (xrun c a early argv xinit ys).isSome = true) : XExec c a early argv (xstAt c a early argv ys) (ys[·]?) := by
  refine ⟨rfl, fun n hn => ?_, fun n y hy => ?_⟩
  · have hle : ys.length ≤ n := by simpa using hn
    simp only [xstAt]
    rw [List.take_of_length_le hle, List.take_of_length_le (by omega)]
  · have h1 := xrun_take h n
    have h2 := xrun_take h (n + 1)
    rw [List.take_add_one, hy, Option.toList_some, xrun_append, h1] at h2
    simp only [Option.bind_some, xrun, Option.bind_eq_some_iff] at h2
    obtain ⟨x, h3, h4⟩ := h2
    rw [h3, h4]

/-- The external-start example, to the end of the process: libc's call, four constructors, `origin_main`, which returns, `exit`, two functions of `.fini_array`. -/
def exEnd : List XAct := exActs ++ [.ret 0 3, .step 0, .step 0, .step 0, .step 0, .ret 0 0, .step 0, .ret 0 0, .step 0, .step 0].map XAct.act

/-- Whether a moment of it can be one of a program that registers functions or calls `exit` itself. -/
def noisy : XAct → Bool
  | .act (.exit ..) | .act (.regProg _) | .act (.regThr _) => true
  | _ => false

/-- Its end: `origin_main` has been called and the process has ended. -/
def atEnd (x : XState) : Bool := match x.phase with
  | .origin s => s.dead && decide (Ev.main exCfg.args ∈ s.log)
  | _ => false

/-- No function has been registered. -/
def regless (x : XState) : Bool := match x.phase with
  | .origin s => s.log.all fun | .pReg .. | .tReg .. => false | _ => true
  | _ => true

/-- All hypotheses are met, and what is claimed happens. -/
example : ∃ xst xact, XExec exCfg exOut 8 1008 xst xact ∧ XFair exCfg exOut 8 1008 xst xact ∧
    (∀ i st act, OriginFrom xst xact i st act → Proc.Finite Proc.Fn.handler st act ∧ Proc.QuietFini st act ∧ Proc.FinitelyMany st) ∧
    ∃ j s, (xst j).phase = .origin s ∧ .main exCfg.args ∈ s.log := by
  have hs : (xrun exCfg exOut 8 1008 xinit exEnd).isSome = true := by decide
  have he : (xrun exCfg exOut 8 1008 xinit exEnd).map atEnd = some true := by decide
  have hq : exEnd.any noisy = false := by decide
  have hr : ∀ n : Fin (exEnd.length + 1), regless (xstAt exCfg exOut 8 1008 exEnd n) = true := by decide
  have last : ∀ n, exEnd.length ≤ n → ∃ s, (xstAt exCfg exOut 8 1008 exEnd n).phase = .origin s ∧ s.dead = true ∧ .main exCfg.args ∈ s.log := by
    intro n hn
    rw [Option.map_eq_some_iff] at he
    obtain ⟨x, h1, h2⟩ := he
    have : xstAt exCfg exOut 8 1008 exEnd n = x := by simp only [xstAt]; rw [List.take_of_length_le hn, h1]; rfl
    rw [this]
    unfold atEnd at h2
    split at h2
    · next s hp => simp only [Bool.and_eq_true, decide_eq_true_eq] at h2; exact ⟨s, hp, h2⟩
    · cases h2
  have X := xexec_of hs
  refine ⟨_, _, X, ⟨fun n => ⟨max n exEnd.length, Nat.le_max_left _ _, .inr ?_⟩, fun t n => ⟨max n exEnd.length, Nat.le_max_left _ _, .inr ?_⟩⟩, fun i st act O => ⟨?_, ?_, ?_⟩, ?_⟩
  · obtain ⟨s, hp, -⟩ := last _ (Nat.le_max_right n _)
    simp [xstep, hp]
  · obtain ⟨s, hp, hd, -⟩ := last _ (Nat.le_max_right n _)
    cases hx : xstep exCfg exOut 8 1008 (xstAt exCfg exOut 8 1008 exEnd (max n exEnd.length)) (.act (.step t)) with
    | none => rfl
    | some x' =>
      obtain ⟨s', h1, -⟩ := origin_xstep hp ((X.reach _).inv.origin _ hp).2.1 hx
      rw [Proc.dead_none hd] at h1
      cases h1
  · intro n t fn _ _
    refine ⟨max n exEnd.length, Nat.le_max_left _ _, .inl ?_⟩
    obtain ⟨s, hp, hd, -⟩ := last (i + max n exEnd.length) (by omega)
    have := (O (max n exEnd.length)).1
    rw [hp] at this
    injection this with this
    rw [← this, hd]
  · have none : ∀ n y, noisy (.act y) = true → act n ≠ some y := by
      intro n y hy h
      have h1 := (O n).2
      rw [h] at h1
      have h2 := List.mem_of_getElem? (show exEnd[i + n]? = some (.act y) from h1)
      rw [List.any_eq_false] at hq
      exact hq _ h2 hy
    exact fun n t p _ => ⟨fun v => none _ _ rfl, none _ _ rfl⟩
  · refine ⟨0, fun n f hf => ?_⟩
    exfalso
    have h1 : regless (xstAt exCfg exOut 8 1008 exEnd (i + n)) = true := by
      by_cases hn : i + n < exEnd.length + 1
      · exact hr ⟨i + n, hn⟩
      · have : xstAt exCfg exOut 8 1008 exEnd (i + n) = xstAt exCfg exOut 8 1008 exEnd exEnd.length := by
          simp only [xstAt]; rw [List.take_of_length_le (by omega), List.take_length]
        rw [this]; exact hr ⟨exEnd.length, by omega⟩
    rw [regless, (O n).1] at h1
    simp only [List.all_eq_true] at h1
    rcases hf with ⟨t, ht⟩ | ⟨t, ht⟩
    · have := h1 _ ht; simp at this
    · have := h1 _ ht; simp at this
  · obtain ⟨s, hp, -, hm⟩ := last _ (Nat.le_refl _)
    exact ⟨_, s, hp, hm⟩

end Origin.Ctors
