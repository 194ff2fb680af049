import Verif.Props.Ctors
/-! # C80: a program that libc starts (the external-start example) -/

namespace Origin.Ctors

open Proc (Cfg Ev Tid Action Reach boots bootCourse Whenever)
open Boot (InitialStack Words computeArgs)

variable {c : Cfg} {es a : List Entry} {m early argv : Nat} {x x' : XState}

/-- No slot before `k` has the function `early`. -/
def NoneBefore (a : List Entry) (early k : Nat) : Prop := ∀ i e, i < k → At a i e → e.fn ≠ early

structure XInv (c : Cfg) (a : List Entry) (early argv : Nat) (x : XState) : Prop where
  libc : ∀ i, x.phase = .libc i → i ≤ a.length ∧ x.called = (List.range i).reverse ∧ x.first = false ∧ x.starts = [] ∧ NoneBefore a early i
  origin : ∀ s, x.phase = .origin s → Reach c s ∧ x.first = true ∧ x.starts = [argv - c.ws] ∧
    ∃ k e, At a k e ∧ e.fn = early ∧ NoneBefore a early k ∧ x.called = (List.range (k + 1)).reverse
  main : x.phase = .main → x.called = (List.range a.length).reverse ∧ x.starts = [] ∧ NoneBefore a early a.length

theorem origin_xstep {y : Action} {s : Proc.State} (hx : x.phase = .origin s) (hf : x.first = true) (h : xstep c a early argv x (.act y) = some x') :
    ∃ s', Proc.step c s y = some s' ∧ x' = { x with phase := .origin s' } ∧ ∀ p r, s.stk y.tid = .user (.ctor p) :: r → isEarly c a early p = true → ∃ t v, y = .ret t v := by
  simp only [xstep, hx] at h
  split at h
  · next p r hs =>
    split at h
    · next he =>
      rw [if_neg (by rw [hf]; simp)] at h
      split at h
      · next t v =>
        rw [Option.map_eq_some_iff] at h
        obtain ⟨s', h1, h2⟩ := h
        exact ⟨s', h1, h2.symm, fun _ _ _ _ => ⟨_, _, rfl⟩⟩
      · cases h
    · next he =>
      rw [Option.map_eq_some_iff] at h
      obtain ⟨s', h1, h2⟩ := h
      exact ⟨s', h1, h2.symm, fun q r' hq hq' => by rw [hs] at hq; simp at hq; rw [hq.1] at he; exact absurd hq' he⟩
  · next hs =>
    rw [Option.map_eq_some_iff] at h
    obtain ⟨s', h1, h2⟩ := h
    exact ⟨s', h1, h2.symm, fun q r' hq hq' => absurd hq (hs _ _)⟩

theorem XReach.inv (h : XReach c a early argv x) : XInv c a early argv x := by
  induction h with
  | init =>
    refine ⟨fun i hi => ?_, fun s hs => (by cases hs), fun h => (by cases h)⟩
    cases hi
    exact ⟨Nat.zero_le _, rfl, rfl, rfl, fun i e hi => absurd hi (Nat.not_lt_zero _)⟩
  | @step x x' y h0 h1 I =>
    cases y with
    | libc =>
      cases hp : x.phase with
      | libc i =>
        obtain ⟨j1, j2, j3, j4, j5⟩ := I.libc i hp
        simp only [xstep, hp] at h1
        split at h1
        · next he =>
          simp only [Option.some.injEq] at h1; subst h1
          have : i = a.length := by have := List.getElem?_eq_none_iff.mp he; omega
          subst this
          exact ⟨fun _ h => (by cases h), fun _ h => (by cases h), fun _ => ⟨j2, j4, j5⟩⟩
        · next e he =>
          have hc : i :: x.called = (List.range (i + 1)).reverse := by rw [j2, List.range_succ, List.reverse_append]; rfl
          split at h1 <;> (simp only [Option.some.injEq] at h1; subst h1)
          · next hf =>
            refine ⟨fun _ h => (by cases h), fun s h => ?_, fun h => (by cases h)⟩
            cases h
            exact ⟨.init, rfl, by simp [takeOver, j4], i, e, he, hf.1, j5, hc⟩
          · next hf =>
            refine ⟨fun k h => ?_, fun s h => (by cases h), fun h => (by cases h)⟩
            cases h
            have := (List.getElem?_eq_some_iff.mp he).1
            refine ⟨this, hc, j3, j4, fun k e' hk hk' => ?_⟩
            rcases Nat.lt_or_eq_of_le (Nat.lt_succ_iff.mp hk) with h | rfl
            · exact j5 k e' h hk'
            · rw [show At a k e' = (a[k]? = some e') from rfl, he] at hk'
              injection hk' with hk'
              subst hk'
              exact fun hfe => hf ⟨hfe, j3⟩
      | origin s => simp [xstep, hp] at h1
      | main => simp [xstep, hp] at h1
    | act y =>
      cases hp : x.phase with
      | libc i => simp [xstep, hp] at h1
      | main => simp [xstep, hp] at h1
      | origin s =>
        obtain ⟨j1, j2, j3⟩ := I.origin s hp
        obtain ⟨s', h2, rfl, -⟩ := origin_xstep hp j2 h1
        refine ⟨fun _ h => (by cases h), fun s h => ?_, fun h => (by cases h)⟩
        cases h
        exact ⟨.step j1 h2, j2, j3⟩

/-- **C80 (once).** `program::start` is called at most once, and with the address of the word below `argv`. -/
theorem C80_once (h : XReach c a early argv x) : x.starts.length ≤ 1 ∧ ∀ p ∈ x.starts, p = argv - c.ws := by
  have I := h.inv
  cases hp : x.phase with
  | libc i => rw [(I.libc i hp).2.2.2.1]; simp
  | origin s => rw [(I.origin s hp).2.2.1]; simp
  | main => rw [(I.main hp).2.1]; simp

/-- **C80 (its own `main`).** If the array has the function, libc never calls its own `main`. -/
theorem C80_main_never (h : XReach c a early argv x) {e : Entry} (he : e ∈ a) (hf : e.fn = early) : x.phase ≠ .main := by
  intro hp
  obtain ⟨i, hi⟩ := List.mem_iff_getElem?.mp he
  exact (h.inv.main hp).2.2 i e (List.getElem?_eq_some_iff.mp hi).1 hi hf

/-- **C80 (a process of origin's).** From then on what happens is what happens in a process that the kernel starts: all properties of those hold. -/
theorem C80_refines (h : XReach c a early argv x) {s : Proc.State} (hp : x.phase = .origin s) : Reach c s := (h.inv.origin s hp).1

/-- **C80 (the arguments).** On every initial stack with fewer than 2³¹ arguments, if libc passes the `argv` that the kernel put there, `entry` is called with the initial stack pointer, and so
constructors and `origin_main` get the kernel's arguments. -/
theorem C80_args {w : Nat} {mem : Nat → BitVec w} {sp : Nat} {args envp : List (BitVec w)} {auxv : List (BitVec w)} (h32 : 32 ≤ w) (hst : InitialStack c.ws mem sp args envp auxv)
    (hn : args.length < 2 ^ 31) (h : XReach c a early (sp + c.ws) x) {p : Nat} (hp : p ∈ x.starts) :
    p = sp ∧ (computeArgs c.ws mem p).argc.toNat = args.length ∧ Words c.ws mem (computeArgs c.ws mem p).argv (args ++ [0#w]) ∧ Words c.ws mem (computeArgs c.ws mem p).envp (envp ++ [0#w]) := by
  have h1 : p = sp := by rw [(C80_once h).2 p hp]; omega
  subst h1
  obtain ⟨h2, -, -, h3, h4, -⟩ := Boot.C33_args h32 hst hn
  exact ⟨rfl, h2, h3, h4⟩

/-- **C80 (when it takes over).** When origin has control, libc has called the functions up to the first slot with the function that hands over, in order, each once, and no other. -/
theorem C80_called (h : XReach c a early argv x) {s : Proc.State} (hp : x.phase = .origin s) :
    ∃ k e, At a k e ∧ e.fn = early ∧ NoneBefore a early k ∧ x.called.reverse = List.range (k + 1) := by
  obtain ⟨-, -, -, k, e, h1, h2, h3, h4⟩ := h.inv.origin s hp
  exact ⟨k, e, h1, h2, h3, by rw [h4, List.reverse_reverse]⟩

theorem isEarly_iff (hw : 0 < c.ws) {i : Nat} : isEarly c a early (slot c i) = true ↔ ∃ e, At a i e ∧ e.fn = early := by
  unfold isEarly
  rw [List.any_eq_true]
  constructor
  · rintro ⟨j, hj, h⟩
    simp only [Bool.and_eq_true, beq_iff_eq, Option.map_eq_some_iff] at h
    obtain ⟨h1, e, h2, h3⟩ := h
    have := slot_inj hw h1
    subst this
    exact ⟨e, h2, h3⟩
  · rintro ⟨e, h1, h2⟩
    refine ⟨i, List.mem_range.mpr (List.getElem?_eq_some_iff.mp h1).1, ?_⟩
    have h1' : a[i]? = some e := h1
    simp [h1', h2]

/-- **C80 (the second call).** When origin calls that function it does nothing: the only thing that can happen on that thread is that it returns, and it can. -/
theorem C80_second_call (hw : 0 < c.ws) (h : XReach c a early argv x) {s : Proc.State} (hp : x.phase = .origin s) {t : Tid} {i : Nat} {e : Entry} {r : List Proc.Frame} (hi : At a i e) (he : e.fn = early)
    (hs : s.stk t = .user (.ctor (slot c i)) :: r) :
    (∀ y x', y.tid = t → xstep c a early argv x (.act y) = some x' → ∃ v, y = .ret t v) ∧ (s.dead = false → ∀ v, (xstep c a early argv x (.act (.ret t v))).isSome) := by
  have hf := (h.inv.origin s hp).2.1
  have hE := (isEarly_iff (c := c) (a := a) (early := early) hw).mpr ⟨e, hi, he⟩
  refine ⟨fun y x' ht h1 => ?_, fun hd v => ?_⟩
  · obtain ⟨s', -, -, h2⟩ := origin_xstep hp hf h1
    obtain ⟨t', v, rfl⟩ := h2 _ _ (by rw [ht]; exact hs) hE
    exact ⟨v, by rw [← ht]; rfl⟩
  · simp [xstep, hp, Action.tid, hs, hE, hf, Proc.step, hd, Proc.userStep]

/-- Actions of the program with an external start. -/
def xrun (c : Cfg) (a : List Entry) (early argv : Nat) (x : XState) : List XAct → Option XState
  | [] => some x
  | y :: ys => (xstep c a early argv x y).bind (xrun c a early argv · ys)

theorem xreach_run : ∀ (ys : List XAct) {x x' : XState}, XReach c a early argv x → xrun c a early argv x ys = some x' → XReach c a early argv x'
  | [], _, _, h, h1 => by simp only [xrun, Option.some.injEq] at h1; exact h1 ▸ h
  | y :: ys, _, _, h, h1 => by
    simp only [xrun, Option.bind_eq_some_iff] at h1
    obtain ⟨d, h2, h3⟩ := h1
    exact xreach_run ys (.step h h2) h3

theorem takes_over {k : Nat} {e : Entry} (hk : At a k e) (he : e.fn = early) (hn : NoneBefore a early k) :
    ∀ (d i : Nat) (x : XState), x.phase = .libc i → x.first = false → i + d = k → ∃ x', xrun c a early argv x (List.replicate (d + 1) .libc) = some x' ∧ x'.phase = .origin Proc.init := by
  intro d
  induction d with
  | zero =>
    intro i x hp hf hi
    have hk' : a[i]? = some e := by rw [← Nat.add_zero i, hi]; exact hk
    exact ⟨_, by simp [xrun, xstep, hp, hk', he, hf]; rfl, rfl⟩
  | succ d ih =>
    intro i x hp hf hi
    have hlt := (List.getElem?_eq_some_iff.mp hk).1
    have h1 : a[i]? = some (a[i]'(by omega)) := List.getElem?_eq_getElem _
    have h2 := hn i _ (by omega) h1
    rw [List.replicate_succ, xrun]
    simp only [xstep, hp, h1, h2, false_and, if_false, Option.bind_some]
    exact ih (i + 1) _ rfl hf (by omega)

/-- **C80 (it does take over).** If the array has the function, and the constructors before it return, libc's calls come to it and origin starts. -/
theorem C80_takes_over {e : Entry} (he : e ∈ a) (hf : e.fn = early) :
    ∃ n x, xrun c a early argv xinit (List.replicate n .libc) = some x ∧ XReach c a early argv x ∧ x.phase = .origin Proc.init := by
  have hk : ∃ k e, At a k e ∧ e.fn = early ∧ NoneBefore a early k := by
    cases h : a.findIdx? (fun e => e.fn == early) with
    | none =>
      have := List.findIdx?_eq_none_iff.mp h e he
      simp [hf] at this
    | some k =>
      obtain ⟨h1, h2, h3⟩ := List.findIdx?_eq_some_iff_getElem.mp h
      refine ⟨k, a[k], List.getElem?_eq_getElem h1, by simpa using h2, fun i e hi hie => ?_⟩
      obtain ⟨h4, h5⟩ := List.getElem?_eq_some_iff.mp hie
      have := h3 i hi
      rw [h5] at this
      simpa using this
  obtain ⟨k, e, h1, h2, h3⟩ := hk
  obtain ⟨x, h4, h5⟩ := takes_over (c := c) (argv := argv) h1 h2 h3 k 0 xinit rfl rfl (by omega)
  exact ⟨k + 1, x, h4, xreach_run _ .init h4, h5⟩

/-- The entry that hands over is the only one with priority 0, and the only one with its function. -/
structure Sole (a : List Entry) (early : Nat) : Prop where
  mem : earlyEntry early ∈ a
  nodup : a.Nodup
  sole : ∀ e ∈ a, e.prio = some 0 ∨ e.fn = early → e = earlyEntry early

theorem sole_slot (L : Linked es a) (S : Sole a early) : At a 0 (earlyEntry early) := by
  obtain ⟨i, hi⟩ := List.mem_iff_getElem?.mp S.mem
  by_cases h0 : i = 0
  · subst h0; exact hi
  · exfalso
    have hlt := (List.getElem?_eq_some_iff.mp hi).1
    have h1 : a[0]? = some (a[0]'(by omega)) := List.getElem?_eq_getElem _
    have hmem : a[0]'(by omega) ∈ a := List.getElem_mem _
    have hb : (earlyEntry early).Before (a[0]'(by omega)) := by
      unfold Entry.Before Entry.NotAfter earlyEntry
      have hne : (a[0]'(by omega)).prio ≠ some 0 := by
        intro hp
        have h2 := S.sole _ hmem (.inl hp)
        rw [h2, ← hi] at h1
        have := (List.getElem?_inj (by omega) S.nodup).mp h1
        omega
      cases hp : (a[0]'(by omega)).prio with
      | none => simp
      | some p => cases p with
        | zero => exact absurd hp hne
        | succ p => simp
    have := before_slot L.sorted hi h1 hb
    omega

theorem sole_called (L : Linked es a) (S : Sole a early) (h : XReach c a early argv x) {s : Proc.State} (hp : x.phase = .origin s) : x.called = [0] := by
  obtain ⟨k, e, -, -, h3, h4⟩ := C80_called h hp
  have hk : k = 0 := by
    cases k with
    | zero => rfl
    | succ k => exact absurd rfl (h3 0 _ (by omega) (sole_slot L S))
  subst hk
  rw [← List.reverse_reverse x.called, h4]; rfl

/-- **C80 (each constructor once).** If the entry that hands over is the only one with priority 0, libc calls only it, and whenever origin calls `origin_main`, the function of every other
entry of all object files has been called exactly once in the whole process, by origin. -/
theorem C80_each_once (hok : c.Ok a.length m) (L : Linked es a) (S : Sole a early) (h : XReach c a early argv x) {s : Proc.State} (hp : x.phase = .origin s) :
    x.called = [0] ∧ Whenever s.log (.main c.args) fun old => ∀ e ∈ es, e ≠ earlyEntry early →
      ∃ i, At a i e ∧ i ∉ x.called ∧ Called c old i ∧ s.log.count (.ctor (slot c i) c.args) = 1 := by
  have h0 := sole_slot L S
  have hc := sole_called L S h hp
  refine ⟨hc, fun newer older hl e' he' hne => ?_⟩
  obtain ⟨i, h5, h6, h7⟩ := C79_all hok L (C80_refines h hp) newer older hl e' he'
  refine ⟨i, h5, ?_, h6, h7⟩
  rw [hc]
  intro hi
  have hi0 : i = 0 := by simpa using hi
  subst hi0
  rw [show At a 0 e' = (a[0]? = some e') from rfl, show a[0]? = _ from h0] at h5
  injection h5 with h5
  exact hne h5.symm

/-- **C80 (the limit).** The functions that libc has called before it are called again by origin: whenever `origin_main` is called, each of them has been called by both. -/
theorem C80_twice (hok : c.Ok a.length m) (h : XReach c a early argv x) {s : Proc.State} (hp : x.phase = .origin s) :
    Whenever s.log (.main c.args) fun old => ∀ i ∈ x.called, Called c old i := by
  intro newer older hl i hi
  obtain ⟨k, e, h1, -, -, h4⟩ := C80_called h hp
  obtain ⟨⟨v, h5⟩, -⟩ := Proc.C34_startup hok (C80_refines h hp)
  have hlt : i < a.length := by
    have : i ∈ List.range (k + 1) := by rw [← h4]; exact List.mem_reverse.mpr hi
    have h2 := (List.getElem?_eq_some_iff.mp h1).1
    have := List.mem_range.mp this
    omega
  exact before_of (j := a.length + 1) (i := i + 1) h5 (fun k hk => course_main_idx hk) hl rfl (course_ctor hlt) (by omega)

/-- **C80 (without the feature).** Without the "init-array" feature — so it is in the example as it is built — origin calls no constructor, and libc has called only the one that hands over: no
other constructor is ever called, by anyone. -/
theorem C80_without_init_array (hok : c.Ok 0 m) (L : Linked es a) (S : Sole a early) (h : XReach c a early argv x) {s : Proc.State} (hp : x.phase = .origin s) :
    x.called = [0] ∧ (∀ p g, .ctor p g ∉ s.log) ∧ ∀ i e, At a i e → e ≠ earlyEntry early → i ∉ x.called := by
  have hc := sole_called L S h hp
  obtain ⟨⟨v, h5⟩, -⟩ := Proc.C34_startup hok (C80_refines h hp)
  refine ⟨hc, fun p g hm => ?_, fun i e hi hne hin => ?_⟩
  · have h1 : Ev.ctor p g ∈ boots s.log := by
      simp only [boots, List.mem_reverse, List.mem_filter]
      exact ⟨hm, rfl⟩
    have := h5.subset h1
    simp [bootCourse] at this
  · rw [hc] at hin
    obtain rfl : i = 0 := by simpa using hin
    rw [show At a 0 e = (a[0]? = some e) from rfl, show a[0]? = _ from sole_slot L S] at hi
    injection hi with hi
    exact hne hi.symm

/-! ### Concrete cases -/

/-- Four entries: the program's own (5), the logger's (6), c-scape's (7), and the one that hands over (8). -/
def exIn : List Entry := [⟨none, 5⟩, loggerEntry 6, ⟨some 98, 7⟩, earlyEntry 8]
/-- What the linker makes of them. -/
def exOut : List Entry := [earlyEntry 8, ⟨some 98, 7⟩, loggerEntry 6, ⟨none, 5⟩]
def exCfg : Cfg := { Proc.demo with initEnd := 132 }

theorem exCfg_ok : exCfg.Ok exOut.length 2 := by constructor <;> decide

instance (e e' : Entry) : Decidable (e.NotAfter e') := by unfold Entry.NotAfter; split <;> infer_instance

theorem ex_linked : Linked exIn exOut := ⟨by decide, by decide⟩

theorem ex_sole : Sole exOut 8 := ⟨by decide, by decide, by decide⟩

/-- `loggerEntry` comes before the entries without a priority, and after c-scape's. -/
example : (loggerEntry 6).Before ⟨none, 5⟩ ∧ Entry.Before ⟨some 98, 7⟩ (loggerEntry 6) ∧ ¬ Entry.Before ⟨none, 5⟩ (loggerEntry 6) := by
  refine ⟨?_, ?_, ?_⟩ <;> unfold Entry.Before <;> decide

/-- libc calls the first entry, which hands over; origin calls all four, and `origin_main`. -/
def exActs : List XAct := .libc :: [.step 0, .step 0, .ret 0 0, .step 0, .ret 0 0, .step 0, .ret 0 0, .step 0, .ret 0 0, .step 0].map XAct.act

theorem xreach_with {P : Proc.State → XState → Bool} (ys : List XAct)
    (h : (xrun c a early argv xinit ys).map (fun x => match x.phase with | .origin s => P s x | _ => false) = some true) :
    ∃ x s, XReach c a early argv x ∧ x.phase = .origin s ∧ P s x = true := by
  rw [Option.map_eq_some_iff] at h
  obtain ⟨x, h1, h2⟩ := h
  split at h2
  · next s hs => exact ⟨x, s, xreach_run ys .init h1, hs, h2⟩
  · cases h2

theorem ex_run : ∃ x s, XReach exCfg exOut 8 1008 x ∧ x.phase = .origin s ∧ x.called = [0] ∧ x.starts = [1000] ∧
    s.log.reverse = [.runtimeInit, .ctor 100 exCfg.args, .ctor 108 exCfg.args, .ctor 116 exCfg.args, .ctor 124 exCfg.args, .main exCfg.args] := by
  obtain ⟨x, s, h1, h2, h3⟩ := xreach_with (c := exCfg) (a := exOut) (early := 8) (argv := 1008) (P := fun s x => decide (x.called = [0] ∧ x.starts = [1000] ∧
    s.log.reverse = [.runtimeInit, .ctor 100 exCfg.args, .ctor 108 exCfg.args, .ctor 116 exCfg.args, .ctor 124 exCfg.args, .main exCfg.args])) exActs (by decide)
  exact ⟨x, s, h1, h2, of_decide_eq_true h3⟩

/-- The function that hands over cannot do anything in its second call but return. -/
example : ∃ x s, XReach exCfg exOut 8 1008 x ∧ x.phase = .origin s ∧ s.stk 0 = [.user (.ctor 100), .init 108] ∧ xstep exCfg exOut 8 1008 x (.act (.exit 0 1)) = none ∧
    (xstep exCfg exOut 8 1008 x (.act (.ret 0 0))).isSome := by
  obtain ⟨x, s, h1, h2, h3⟩ := xreach_with (c := exCfg) (a := exOut) (early := 8) (argv := 1008) (P := fun s x => decide (s.stk 0 = [.user (.ctor 100), .init 108]) &&
    (xstep exCfg exOut 8 1008 x (.act (.exit 0 1))).isNone && (xstep exCfg exOut 8 1008 x (.act (.ret 0 0))).isSome) [.libc, .act (.step 0), .act (.step 0)] (by decide)
  simp only [Bool.and_eq_true, decide_eq_true_eq, Option.isNone_iff_eq_none] at h3
  exact ⟨x, s, h1, h2, h3.1.1, h3.1.2, h3.2⟩

/-- Another entry with priority 0, first in the link order: its function is called twice. -/
def exTwo : List Entry := [⟨some 0, 5⟩, earlyEntry 8]

theorem exTwo_linked : Linked exTwo exTwo := ⟨.refl _, by decide⟩

/-- **C80 (without `Sole`).** The limit is real: a linked program in which a constructor other than the one that hands over is called by libc, and again by origin. -/
theorem C80_ctor_called_twice : ∃ x s, XReach { exCfg with initEnd := 116 } exTwo 8 1008 x ∧ x.phase = .origin s ∧ x.called = [1, 0] ∧ Called exCfg s.log 0 := by
  obtain ⟨x, s, h1, h2, h3⟩ := xreach_with (c := { exCfg with initEnd := 116 }) (a := exTwo) (early := 8) (argv := 1008) (P := fun s x => decide (x.called = [1, 0] ∧
    .ctor (slot exCfg 0) exCfg.args ∈ s.log)) [.libc, .libc, .act (.step 0), .act (.step 0)] (by decide)
  have := of_decide_eq_true h3
  exact ⟨x, s, h1, h2, this.1, this.2⟩

/-- As the example is built: `origin_main` is called, and c-scape's, the logger's and the program's own constructors have not been. -/
theorem C80_ctors_dropped : ∃ x s, XReach { exCfg with initArray := false, initEnd := 100 } exOut 8 1008 x ∧ x.phase = .origin s ∧ x.called = [0] ∧
    s.log.reverse = [.runtimeInit, .main exCfg.args] := by
  obtain ⟨x, s, h1, h2, h3⟩ := xreach_with (c := { exCfg with initArray := false, initEnd := 100 }) (a := exOut) (early := 8) (argv := 1008)
    (P := fun s x => decide (x.called = [0] ∧ s.log.reverse = [.runtimeInit, .main exCfg.args])) [.libc, .act (.step 0), .act (.step 0)] (by decide)
  have := of_decide_eq_true h3
  exact ⟨x, s, h1, h2, this.1, this.2⟩

/-- With messages: the logger's entry and a later one, as far as the later one's message. -/
example : ∃ s : LogProc.State, LogProc.Reach exCfg s ∧ .msg 0 (.ctor (slot exCfg 3)) ∈ s.log ∧ Called exCfg (LogProc.real s.log) 2 := by
  have h : (LogProc.run exCfg LogProc.init ([.step 0] ++ (List.replicate 3 [.step 0, .ret 0 0, .step 0, .ret 0 0]).flatten ++ [.step 0])).map
      (fun s => decide (.msg 0 (.ctor (slot exCfg 3)) ∈ s.log ∧ .ev (.ctor (slot exCfg 2) exCfg.args) ∈ s.log)) = some true := by decide
  rw [Option.map_eq_some_iff] at h
  obtain ⟨s, h1, h2⟩ := h
  have h3 := of_decide_eq_true h2
  have reach : ∀ (xs : List Action) {s s' : LogProc.State}, LogProc.Reach exCfg s → LogProc.run exCfg s xs = some s' → LogProc.Reach exCfg s' := by
    intro xs
    induction xs with
    | nil => intro s s' R h; simp only [LogProc.run, Option.some.injEq] at h; exact h ▸ R
    | cons x xs ih =>
      intro s s' R h
      simp only [LogProc.run, Option.bind_eq_some_iff] at h
      obtain ⟨d, h1, h2⟩ := h
      exact ih (.step R h1) h2
  exact ⟨s, reach _ .init h1, h3.1, LogProc.mem_real.mpr h3.2⟩

end Origin.Ctors
