import Verif.Props.Mem
import Verif.Props.Layout
import Verif.Props.Layout2
import Verif.Props.Main
import Verif.Props.Bridge
import Verif.Props.Lifecycle
import Verif.Props.Process
import Verif.Props.Relocate
import Verif.Props.Startup
import Verif.Props.Libc
import Verif.Props.Libc2
import Verif.Props.Debug
import Verif.Props.DebugThread
import Verif.Props.Asm
/-!
# Every hypothesis is met

For each theorem of the manifest that has hypotheses and no concrete case beside it already, it is applied here to one: the example type-checks only if the
hypotheses hold of that case.
-/

namespace Origin
open Origin.Spec

section Mem
/-- A memory with text at 200 … 255 and a null byte at 256. -/
private def w0 : St := demoSt

example := C04_builds_agree (.small 8) (.fast (.x86_64 true true)) w0 ⟨fun a => if a < 400 then BitVec.ofNat 8 a else 0, []⟩ 10 300 40
  (by intro i h; simp only [w0, demoSt]; rw [if_pos (by omega)]) (by intro i h; simp only [w0, demoSt]; rw [if_pos (by omega)])
example := C05_strlen_terminated (.fast (.x86_64 false false)) w0 200 56 (by decide)
example := C06_copy_footprint (.fast (.generic .big 4 false)) (by decide) w0 4099 8206 37 (by decide) (by decide)
example := (C06_copy_footprint (.fast (.generic .big 4 true)) (by decide) w0 4099 8206 37 (by decide) (by decide)).2 (by decide)
example := C06_fill_footprint (.fast (.generic .little 8 true)) (by decide) w0 1001 (-2#32) 50 (by decide)
example := C06_same_page 200 57 192 16 4096 (by decide) (.inr ⟨by decide, by decide, 204, by decide⟩)
example := C48_aligned_accesses (.fast (.generic .little 8 true)) (by decide) w0 4099 8206 37 (-2#32) (by decide) (by decide)
end Mem

section Layout
variable (m m' : Mem) (junk : Nat → Byte)

example := C07_regions exCreation m junk 0x6000 0x401000
example := C07_mprotect_valid exCreation m junk 0x6000 0x401000
example := C08_sizes_partial exCreationOddGuard m junk 0x6000 0x401000
example := C08_overflow_false exCfg 0x4000 (2 ^ 64 - 7) (by decide) (by decide) m junk exAnswers 0x6000 0x401000 [1, 0, 3]

/-- `exCreation` returns a thread, and there is memory with that thread's fields as `create` left them. -/
theorem exCreated {c : Cfg} {s : Space} {k : Answers} {args : List Nat} {ss gs map tid : Nat} (H : Creation c s k args ss gs map tid) (tp fn : Nat) :
    ∃ t, (create c m junk k tp fn args ss gs).res = .ok t ∧ SameFreeFields c (create c m junk k tp fn args ss gs).mem (create c m junk k tp fn args ss gs).mem t ∧
      ∃ ntp, newThreadPointer (create c m junk k tp fn args ss gs).calls = some ntp ∧
      ∃ sp, childStart (create c m junk k tp fn args ss gs).calls = some (sp, fn, args.length) := by
  obtain ⟨t, ntp, h1, h2, -⟩ := C19_current H m junk tp fn
  obtain ⟨-, sp, -, h4, -⟩ := C15_args H m junk tp fn
  exact ⟨t, h1, by unfold SameFreeFields; simp, ntp, h2, sp, h4⟩

example : ∃ t len, freeMemory exCfg (create exCfg m junk exAnswers 0 7 [1, 0, 0xdeadbeef] 0x20000 0x4000).mem t = .done [.munmap 0x7f0000000000 len (.ok ())] := by
  obtain ⟨t, h1, h2, -⟩ := exCreated m junk exCreation 0 7
  obtain ⟨len, _, _, h, _⟩ := C09_unmap_partial exCreation (by decide) m _ junk 0 7 t h1 h2
  exact ⟨t, len, h⟩

example : ∃ t addr len, addr ≠ 0x7f0000000000 ∧
    freeMemory exCfg (create exCfg m junk exAnswers 0 7 [1, 0, 0xdeadbeef] 0x20000 100).mem t = .panic [.munmap addr len (.error 22)] := by
  obtain ⟨t, h1, h2, -⟩ := exCreated m junk exCreationOddGuard 0 7
  obtain ⟨⟨addr, len, h⟩, _⟩ := C09_unaligned_guard_false exCreationOddGuard (by decide) m _ junk 0 7 t h1 h2
  exact ⟨t, addr, len, h⟩

example := C11_tls_aligned exCreation m junk 0 7
example := C11_record_aligned_iff exCreation m junk 0 7
example := C11_record_aligned_partial exCreation (.inr (by decide)) m junk 0 7
example := C11_record_aligned_partial exCreationArm (.inl rfl) m junk 0 7
example := C12_tls_fresh exCreation m junk 0 7

/-- `exCreation`'s TLS segment size is no multiple of its alignment: the address is wrong. -/
example : ∃ ntp, newThreadPointer (create exCfg m junk exAnswers 0 7 [1, 0, 0xdeadbeef] 0x20000 0x4000).calls = some ntp ∧
    ¬ ∀ offset, currentTlsAddr exCfg ntp 1 offset = some (((tlsBlock exCfg 0x20000 0x4000 0x7f0000000000).lo + abiDtvOffset .x86_64 + offset) % umax 8) := by
  obtain ⟨t, -, -, ntp, h, -⟩ := exCreated m junk exCreation 0 7
  exact ⟨ntp, h, fun hx => absurd ((C13_tls_addr_iff exCreation m junk 0 7 ntp h).1 hx) (by decide)⟩

/-- On arm, with an alignment of 8, it is right (and not where the ABI of arm says: C14). -/
example : ∃ ntp, newThreadPointer (create exCfgArm m junk { mmap := .ok 0x70000000, mprotect := .ok (), clone := 77 } 0 7 [5] 0x20000 0x4000).calls = some ntp ∧
    (∀ offset, currentTlsAddr exCfgArm ntp 1 offset = some (((tlsBlock exCfgArm 0x20000 0x4000 0x70000000).lo + abiDtvOffset .arm + offset) % umax 4)) ∧
    (tlsBlock exCfgArm 0x20000 0x4000 0x70000000).lo ≠ abiTlsStart .arm ntp 40 8 := by
  obtain ⟨t, -, -, ntp, h, -⟩ := exCreated m junk exCreationArm 0 7
  exact ⟨ntp, h, C13_tls_addr_partial exCreationArm m junk 0 7 ntp h (by decide), (C14_abi_location_iff exCreationArm m junk 0 7 ntp h).1⟩

example := C13_other_module exCfg 0x6000 2 8 (by decide)

example : ∃ ntp, newThreadPointer (create exCfg m junk exAnswers 0 7 [1, 0, 0xdeadbeef] 0x20000 0x4000).calls = some ntp ∧
    (tlsBlock exCfg 0x20000 0x4000 0x7f0000000000).lo = abiTlsStart .x86_64 ntp 40 16 := by
  obtain ⟨t, -, -, ntp, h, -⟩ := exCreated m junk exCreation 0 7
  exact ⟨ntp, h, C14_abi_location_partial exCreation m junk 0 7 ntp h (.inl rfl)⟩

example := C14_self_pointer exCreation m junk 0 7 (.inl rfl)
example := C15_args exCreation m junk 0 7

example : ∃ sp, childStart (create exCfg m junk exAnswers 0 7 [1, 0, 0xdeadbeef] 0x20000 0x4000).calls = some (sp, 7, 3) ∧ 16 ∣ sp := by
  obtain ⟨t, -, -, ntp, -, sp, h⟩ := exCreated m junk exCreation 0 7
  exact ⟨sp, h, C15_stack_aligned_partial exCreation m junk 0 7 sp 7 3 (by decide) h⟩

example : ∃ sp, childStart (create exCfgArm m junk { mmap := .ok 0x70000000, mprotect := .ok (), clone := 77 } 0 7 [5] 0x20000 0x4000).calls = some (sp, 7, 1) ∧
    sp % 8 = 4 := by
  obtain ⟨t, -, -, ntp, -, sp, h⟩ := exCreated m junk exCreationArm 0 7
  exact ⟨sp, h, C15_arm_misaligned exCreationArm m junk 0 7 sp 7 1 rfl rfl h⟩

/-- `clone` refused with `EAGAIN`. -/
example := C17_no_thread exCfg m junk { mmap := .ok 0x7f0000000000, mprotect := .ok (), clone := -11 } 0 7 [] 0x20000 0x4000 11
  ((C17_error_iff ..).2 (.inr (.inr ⟨_, rfl, rfl, by decide, rfl⟩)))
example := C17_no_mapping_partial exCfg exSpace m junk { mmap := .error 12, mprotect := .ok (), clone := 0 } 0 7 [] 0x20000 0x4000 12 rfl
example := C17_leak exCfg exSpace m junk { mmap := .ok 0x7f0000000000, mprotect := .ok (), clone := -11 } 0 7 [] 0x20000 0x4000 0x7f0000000000 rfl (.inr (by decide))
example := C18_default_guard exCfg_ok

example : ∃ t len, freeMemory exCfg (create exCfg m junk exAnswers 0 7 [1, 0, 0xdeadbeef] (defaultStackSize exCfg) (defaultGuardSize exCfg)).mem t =
    .done [.munmap 0x7f0000000000 len (.ok ())] := by
  have H : Creation exCfg exSpace exAnswers [1, 0, 0xdeadbeef] (defaultStackSize exCfg) (defaultGuardSize exCfg) 0x7f0000000000 1234 := by
    rw [show defaultStackSize exCfg = 0x20000 by decide, show defaultGuardSize exCfg = 0x4000 by decide]; exact exCreation
  obtain ⟨t, h1, h2, -⟩ := exCreated m junk H 0 7
  obtain ⟨len, h, _⟩ := C18_defaults_unmap H m _ junk 0 7 t h1 h2
  exact ⟨t, len, h⟩

example := C19_current exCreation m junk 0 7
example := C47_fork_id (c := exCfg) exCfg_ok.layout m 0x6000 4321 (by decide) (by decide) (by decide)
example := C50_record_created exCreation m junk 0 7

example : ∃ t ctid, idOf exCfg (stN .little 4 (create exCfg m junk exAnswers 0 7 [1, 0, 0xdeadbeef] 0x20000 0x4000).mem ctid 0) t = none := by
  obtain ⟨t, flags, ntp, h1, h2, -⟩ := C50_clone_request exCreation m junk 0 7
  exact ⟨t, _, (C50_id_cleared exCreation m junk 0 7 t flags _ _ ntp h1 h2).2.1⟩

example := C57_create_no_panic exCfg_ok exCreation.fits m junk exAnswers 0 7 []
example := C57_fork_id (c := exCfg) (m := m) (tp := 0x6000) (tid := 5) (gettid := 6)
example := (C57_fork_id (c := exCfg) (m := m) (tp := 0x6000) (tid := 5) (gettid := 6)).2 (.inl (by decide))
end Layout

section Main
variable (m : Mem) (junk : Nat → Byte)

/-- `exMain` gives every theorem about the main thread its premises. -/
example : ∃ out, initializeMain exCfg m junk exMain = some out ∧
    (∃ lowest size guard, stackOf exCfg out.mem (current exCfg out.tp) = (lowest, size, guard) ∧ lowest < exMain.sp) ∧
    (stackOf exCfg out.mem (current exCfg out.tp)).1 = natRoundUp exMain.execfnEnd 4096 - 0x800000 ∧
    (∀ x, exSpace x ≠ .unmapped → out.mem x = m x) ∧ 16 ∣ (mainTlsBlock exCfg exMain.map).lo ∧
    (mainTlsBlock exCfg exMain.map).lo = abiTlsStart .x86_64 out.tp 40 16 ∧
    ¬ (∀ offset, currentTlsAddr exCfg out.tp 1 offset = some (((mainTlsBlock exCfg exMain.map).lo + abiDtvOffset .x86_64 + offset) % umax 8)) ∧
    currentId exCfg out.mem out.tp = 1000 ∧ out.guardVar = 0x1122334455667700 ∧ ldN .little 8 out.mem out.tp = out.tp := by
  obtain ⟨out, h, -⟩ := exMain_ok.ok m junk
  obtain ⟨a, b, g, k1, k2, -⟩ := C10_main_stack_false exMain_ok h
  obtain ⟨⟨x, -, hx, hd⟩, -⟩ := C11_main_aligned exMain_ok h
  exact ⟨out, h, ⟨a, b, g, k1, k2⟩, (C10_main_stack_partial exMain_ok h).1, (C12_main_tls exMain_ok h).2, hx ▸ hd, (C14_main_abi_location_iff exMain_ok h).2 trivial,
    fun hx => absurd ((C13_main_tls_addr_iff exMain_ok h).1 hx) (by decide), (C19_main_id exMain_ok h).1, C16_random exMain_ok h,
    C14_main_self_pointer exMain_ok h (.inl rfl)⟩

example := C10_unlimited_panics exCfg m junk { exMain with stackLimit := none } rfl
example := C57_main_unlimited (c := exCfg) (i := { exMain with stackLimit := none }) rfl m junk
end Main
end Origin

namespace Origin.Life

/-- Every state along `orderlyRun` and `strayRun` is reached. -/
theorem reach_prefix (xs : List Action) {s : State} (h : run true (init 100 1) xs = some s) : Reach true Any s := reach_run xs (.init 100 1 (by decide)) h

private theorem reachEx (xs : List Action) (p : State → Bool) (h : (run true (init 100 1) xs).map p = some true) : ∃ s, Reach true Any s ∧ p s = true := by
  rw [Option.map_eq_some_iff] at h
  obtain ⟨s, h1, h2⟩ := h
  exact ⟨s, reach_prefix xs h1, h2⟩

/-- C24: thread 0 is about to wait for thread 1, which is done; its call ends. -/
example : ∃ s s' n, Reach true Any s ∧ s.call 0 = some (.load .join 200 1) ∧ run true s (List.replicate n (.step 0)) = some s' ∧ Ended s' 0 1 ∧
    ∀ k a, s.call 0 ≠ some (.blocked k a 1) := by
  obtain ⟨s, R, h⟩ := reachEx (strayRun.take 8 ++ [.wake 1 none, .join 0 1]) (fun s => decide (s.call 0 = some (.load .join 200 1)) && decide ((s.thr 1).map Thr.stage = some .dead)) (by decide)
  simp only [Bool.and_eq_true, decide_eq_true_eq, Option.map_eq_some_iff] at h
  obtain ⟨h1, h2⟩ := h
  obtain ⟨n, s', -, h4, h5⟩ := C24_call_completes R h1 rfl h2 (C25_main_stays R).1
  exact ⟨s, s', n, R, h1, h4, h5, fun k a => C24_not_blocked R h2⟩

/-- C25: thread 1 is never joined or detached: mapped to the end, although it has returned and is gone. -/
example : ∃ s r, Reach true Any s ∧ s.recs 200 = some r ∧ r.owner = 1 ∧ Ev.exited 1 ∈ s.log := by
  obtain ⟨s, R, h⟩ := reachEx (strayRun.take 8) (fun s => decide (s.log = [.cleared 1, .exited 1, .returned 1 5, .created 0 1 200 2, .created 0 0 100 1])) (by decide)
  have h := of_decide_eq_true h
  obtain ⟨r, h1, h2⟩ := C25_stays_mapped R (p := 0) (h := 1) (a := 200) (tid := 2) (by rw [h]; decide) (by rw [h]; simp) (by rw [h]; simp)
  exact ⟨s, r, R, h1, h2, by rw [h]; decide⟩

/-- C26, C27, C57: two threads run at the same time. -/
example : ∃ s T T', Reach true Any s ∧ s.thr 1 = some T ∧ s.thr 2 = some T' ∧ T.addr ≠ T'.addr ∧ T.tid ≠ T'.tid ∧
    step true s (.id 1 1) = some (s.ev (.idRes 1 1 (some T.tid))) ∧ ∃ r, s.recs T.addr = some r ∧ r.tid = T.tid := by
  obtain ⟨s, R, h⟩ := reachEx (orderlyRun.take 11) (fun s => match s.thr 1, s.thr 2 with
    | some T, some T' => s.inUser 1 T && decide (T.stage = .body) && decide (T'.stage = .born) &&
      (match s.recs 200, s.recs 300 with | some r, some r' => decide (r.owner = 1) && decide (r'.owner = 2) | _, _ => false)
    | _, _ => false) (by decide)
  split at h
  · next T T' hT hT' =>
    split at h
    · next r r' hr hr' =>
      simp only [Bool.and_eq_true, decide_eq_true_eq] at h
      obtain ⟨⟨⟨hu, h1⟩, h2⟩, h3, h4⟩ := h
      have hm : Mapped s 1 := ⟨200, r, hr, h3⟩
      obtain ⟨d1, d2⟩ := C27_distinct R hT hT' (by decide)
      have hd : ¬ Done s 1 := by rintro ⟨X, hx, hs⟩; rw [hT] at hx; cases hx; rw [h1] at hs; cases hs
      have hd' : ¬ Done s 2 := by rintro ⟨X, hx, hs⟩; rw [hT'] at hx; cases hx; rw [h2] at hs; cases hs
      obtain ⟨r, q1, -, q2, -⟩ := C57_current_id_assert R hT hu hm
      exact ⟨s, T, T', R, hT, hT', d1 hm ⟨300, r', hr', h4⟩, d2 hd hd', C26_current_id R hT hu hm, r, q1, q2⟩
    · simp at h
  · cases h

/-- C57: a detached thread is at its compare-exchange. -/
example : ∃ s T r, Reach true Any s ∧ s.thr 2 = some T ∧ T.stage = .cas 8 ∧ s.recs T.addr = some r ∧ r.detached = .detached := by
  obtain ⟨s, R, h⟩ := reachEx [.create 0 200 2, .step 1, .create 1 300 3, .detach 1 2, .step 1, .step 2, .ret 2 8, .dtorsDone 2] (fun s => match s.thr 2 with
    | some T => decide (T.stage = .cas 8) && (match s.recs T.addr with | some r => decide (r.owner = 2) && decide (r.detached ≠ .initial) | none => false)
    | none => false) (by decide)
  split at h
  · next T hT =>
    rw [Bool.and_eq_true] at h
    obtain ⟨h1, h⟩ := h
    split at h
    · next r hr =>
      simp only [Bool.and_eq_true, decide_eq_true_eq] at h
      have h1 := of_decide_eq_true h1
      exact ⟨s, T, r, R, hT, h1, hr, C57_exit_assert R hT h1 hr h.1 h.2⟩
    · cases h
  · cases h

/-- C21: the kernel does not hand an address out while someone waits on it: such a history. -/
example : ∃ s, Reach true (NoEarlyReuse true) s ∧ Reach true (Orderly true) s ∧ Ev.joined 0 1 5 ∈ s.log := by
  have key : ∀ (xs : List Action) {s s' : State}, (∀ x ∈ xs, ∀ s, NoEarlyReuse true s x) → Reach true (NoEarlyReuse true) s →
      run true s xs = some s' → Reach true (NoEarlyReuse true) s' := by
    intro xs
    induction xs with
    | nil => intro s s' _ R h; simp [run] at h; subst h; exact R
    | cons x xs ih =>
      intro s s' hx R h
      simp only [run, Option.bind_eq_some_iff] at h
      obtain ⟨s1, h1, h2⟩ := h
      exact ih (fun y hy => hx y (List.mem_cons_of_mem _ hy)) (.step R (hx x List.mem_cons_self s) h1) h2
  have h : ((run true (init 100 1) (strayRun.take 14)).map fun s => decide (Ev.joined 0 1 5 ∈ s.log)) = some true := by decide
  rw [Option.map_eq_some_iff] at h
  obtain ⟨s, h1, h2⟩ := h
  have R : Reach true (NoEarlyReuse true) s := by
    have e : run true (init 100 1) (strayRun.take 14) = (step true (init 100 1) (.create 0 200 2)).bind fun s => run true s (strayRun.take 14).tail := rfl
    rw [e, Option.bind_eq_some_iff] at h1
    obtain ⟨s1, h1, h3⟩ := h1
    refine key _ ?_ (.step (.init 100 1 (by decide)) ⟨?_, .inl rfl⟩ h1) h3
    · intro x hx s
      refine ⟨?_, .inl rfl⟩
      simp [strayRun] at hx
      rcases hx with rfl | rfl | rfl | rfl | rfl | rfl <;> simp [EarlyReuse]
    · rintro ⟨t, T, hT, hs, -⟩
      have : t = 0 := by
        by_cases h : t = 0
        · exact h
        · simp [init, h] at hT
      subst this
      simp [init] at hT
      subst hT
      cases hs
  exact ⟨s, R, C21_no_early_reuse R, of_decide_eq_true h2⟩

end Origin.Life

namespace Origin.Proc

/-- The run `demoRun` meets the hypotheses of the theorems about `exit` and start-up. -/
example : ∃ s ts ps, Reach demo s ∧ course 0 s.log <+: exitCourse demo 2 0 0 7 ts ps ∧ TCalled s.log 1 3 ∧ boots s.log = bootCourse demo 2 7 ∧
    finiCalls s.log <+: finiOrder demo 2 ∧ PTaken s.log 5 := by
  obtain ⟨s, R, h⟩ := reach_with (c := demo) demoRun (fun s => decide (.exitBegin 0 0 7 ∈ s.log ∧ .released 1 ∈ s.log ∧ .tReg 1 3 ∈ s.log ∧ .mainRet 7 ∈ s.log ∧
    .pRegRet 0 5 ∈ s.log ∧ .pDone 0 0 ∈ s.log)) (by decide)
  obtain ⟨h1, h2, h3, h4, h5, h6⟩ := of_decide_eq_true h
  obtain ⟨ts, ps, hc⟩ := C30_course demo_ok R h1
  exact ⟨s, ts, ps, R, hc, C28_all_called R h2 h3, (C34_startup demo_ok R).2 7 h4, (C31_fini_once demo_ok R rfl rfl).1, C32_no_drop R rfl ⟨0, 0, h6⟩ h5⟩

/-- `C28_exit_first`, of the end of the process in `demoRun`. -/
example : ∃ s, Reach demo s ∧ .group 0 0 7 ∈ s.log ∧ Whenever s.log (.group 0 0 7) fun old => .tDone 0 0 ∈ old := by
  obtain ⟨s, R, h⟩ := reach_with (c := demo) demoRun (fun s => decide (.exitBegin 0 0 7 ∈ s.log ∧ .group 0 0 7 ∈ s.log)) (by decide)
  obtain ⟨h1, h2⟩ := of_decide_eq_true h
  exact ⟨s, R, h2, C28_exit_first demo_ok R h1 _ (.inr (.inr (.inr rfl)))⟩

/-- The thread's loop over its functions can go on; so can a call of `at_exit`. -/
example : ∃ s s' acts s'', Reach demo s ∧ s.stk 1 = [.thrLoop] ∧ step demo s (.step 1) = some s' ∧ run demo s (.regProg 0 :: acts) = some s'' := by
  obtain ⟨s, R, h⟩ := reach_with (c := demo) (toMain ++ [.spawn 0, .regThr 1, .ret 1 0])
    (fun s => decide (s.stk 1 = [.thrLoop] ∧ s.dead = false ∧ s.stk 0 = [.user .main]) && s.log.all (fun x => match x with | .pDone .. => false | _ => true)) (by decide)
  simp only [Bool.and_eq_true, decide_eq_true_eq, List.all_eq_true] at h
  obtain ⟨⟨h1, h2, h3⟩, h4⟩ := h
  obtain ⟨s', hs'⟩ := C28_progress R h2 h1
  obtain ⟨acts, s'', h5, -⟩ := C29_at_exit_completes R h2 rfl h3 (by rintro ⟨t, e, h⟩; cases h4 _ h)
  exact ⟨s, s', acts, s'', R, h1, hs', h5⟩

/-- `C30_progress`: thread 1 waits for the lock that thread 0 holds, so thread 0 can go on. -/
example : ∃ s, Reach demo s ∧ s.stk 1 = [.exitLock 1 2, .user .start] ∧ s.dead = false ∧
    ((∃ s', step demo s (.step 1) = some s') ∨ (∃ u s', u ≠ 1 ∧ step demo s (.step u) = some s') ∨ PFinished s.log) := by
  obtain ⟨s, R, h⟩ := reach_with (c := demo) (toMain ++ [.regProg 0] ++ steps 0 3 ++ [.spawn 0, .exit 0 1, .exit 1 2] ++ steps 0 2 ++ [.step 1])
    (fun s => decide (s.stk 1 = [.exitLock 1 2, .user .start] ∧ s.dead = false)) (by decide)
  obtain ⟨h1, h2⟩ := of_decide_eq_true h
  exact ⟨s, R, h1, h2, C30_progress R h2 h1 (by intro fn h; cases h)⟩

/-- `C30_immediate`. -/
example : ∃ s e, Reach demo s ∧ course e s.log <+: [.immBegin 0 e 3, .group 0 e 3] ∧ .immBegin 0 e 3 ∈ s.log := by
  obtain ⟨s, R, h⟩ := reach_with (c := demo) (toMain ++ [.immExit 0 3]) (fun s => decide (.immBegin 0 0 3 ∈ s.log)) (by decide)
  have h := of_decide_eq_true h
  exact ⟨s, 0, R, C30_immediate demo_ok R h, h⟩

/-- `C32_blocks`: whatever happens next, the late caller of `at_exit` does not get past the lock. -/
example : ∃ s, Reach demo s ∧ ∀ acts s', run demo s acts = some s' → s'.stk 1 = [.regLock, .user (.pdtor 1), .exitLock 1 2, .user .start] := by
  obtain ⟨s, R, h⟩ := reach_with (c := demo) (toMain ++ [.regProg 0] ++ steps 0 3 ++ [.regProg 0] ++ steps 0 3 ++
    [.spawn 0, .exit 0 1, .exit 1 2] ++ steps 1 5 ++ steps 0 5 ++ [.ret 0 0] ++ steps 0 2 ++ [.regProg 1])
    (fun s => decide (.pDone 0 0 ∈ s.log ∧ s.stk 1 = [.regLock, .user (.pdtor 1), .exitLock 1 2, .user .start])) (by decide)
  obtain ⟨h1, h2⟩ := of_decide_eq_true h
  exact ⟨s, R, fun acts s' hr => (C32_blocks rfl rfl acts R ⟨0, 0, h1⟩ h2 hr).1⟩

/-- `C34_exits_with_result`. -/
example : ∃ s newer' e older, Reach demo s ∧ s.log = (newer' ++ [.exitBegin 0 e 7]) ++ .mainRet 7 :: older := by
  obtain ⟨s, R, h⟩ := reach_with (c := demo) (toMain ++ [.ret 0 7, .step 0]) (fun s => decide (.mainRet 7 ∈ s.log)) (by decide)
  obtain ⟨newer, older, hl⟩ := List.append_of_mem (of_decide_eq_true h)
  obtain ⟨n', e, h2⟩ := C34_exits_with_result demo_ok R newer older 7 hl
  exact ⟨s, n', e, older, R, h2 ▸ hl⟩

end Origin.Proc

namespace Origin.Boot

private def stackMem : Nat → BitVec 64 := fun a => ([2, 0x1000, 0x1010, 0, 0x2000, 0, 6, 4096, 0, 0] : List (BitVec 64)).getD ((a - 0x7000) / 8) 0

theorem exStack : InitialStack (w := 64) 8 stackMem 0x7000 [0x1000, 0x1010] [0x2000] [6, 4096, 0, 0] := by
  intro i hi
  simp at hi
  have : i = 0 ∨ i = 1 ∨ i = 2 ∨ i = 3 ∨ i = 4 ∨ i = 5 ∨ i = 6 ∨ i = 7 ∨ i = 8 ∨ i = 9 := by omega
  rcases this with h | h | h | h | h | h | h | h | h | h <;> subst h <;> rfl

example := C33_args (by decide) exStack (by decide)
example := C33_auxv (by decide) exStack (by decide) (by intro x hx; rw [List.mem_singleton] at hx; subst hx; exact fun h => absurd (congrArg BitVec.toNat h) (by decide))

end Origin.Boot

namespace Origin.Elf
open Origin.Spec

/-- `C35_order`: the two headers of the example, and the same the other way round. -/
def demoPhdrMem' : Mem := fun a => BitVec.ofNat 8 (([7, 0, 512, 0, 24, 40, 16, 6, 0, 64, 0, 0, 112, 8] : List Nat).getD ((a - 0x1040) / 8) 0 >>> (8 * (a % 8)))

example := C35_order (i := demoImage) (m := demoPhdrMem) (m' := demoPhdrMem') (b := 0x1000) (first := 0x1040) (phent := 56)
    (hs := [⟨6, 0x40, 0, 112, 8⟩, ⟨7, 0x200, 24, 40, 16⟩]) (hs' := [⟨7, 0x200, 24, 40, 16⟩, ⟨6, 0x40, 0, 112, 8⟩]) (Or.inr rfl) (by decide) (by decide)
    (by decide) (by decide) (by decide) ⟨by decide, by decide, Or.inl ⟨_, List.mem_cons_self, Or.inl rfl⟩⟩ (.swap ..) (by decide) (by decide)

/-- A dynamic linker has done the work: `AT_ENTRY` is the word at `STATIC_START`. -/
def demoDoneMem : Mem := fun a => if a = 8 then 7#8 else if a = 17 then 4#8 else if a = 24 then 9#8 else if a = 33 ∨ a = 0x301 then 3#8 else 0#8

example (ok : Nat → Nat → Bool) := C36_not_needed (i := demoImage) (m := demoDoneMem) (envp := 0) (start := 0x200) (b := 0x100) (env := [])
    (aux := [(7, 0x400), (9, 0x300)]) ok ⟨by decide, by decide, by decide, (by decide : WordsAt _ _ _ _)⟩ (.dynamic (by decide) (by decide))
example (ok : Nat → Nat → Bool) := C57_relocate_not_needed (i := demoImage) (m := demoDoneMem) (envp := 0) (start := 0x200) (b := 0x100) (env := [])
    (aux := [(7, 0x400), (9, 0x300)]) ok ⟨by decide, by decide, by decide, (by decide : WordsAt _ _ _ _)⟩ (.dynamic (by decide) (by decide))

/-- `demo_setup`'s first relocation is that of `STATIC_START` itself. -/
example := C36_needed_partial demo_setup ⟨0x200, 8, 0x40⟩ (by decide) (by decide) rfl
example (ok : Nat → Nat → Bool) := C37_applied demo_setup ok
example : ∃ s, Applied demoImage demoMem (demoTables.ops 8 0x100) s ∧ loadStaticStart demoImage s.mem = 0x140 := by
  obtain ⟨N, out, s, -, h, -⟩ := C37_applied demo_setup fun _ _ => true
  refine ⟨s, h, C36_after (start := 0x40) (b := 0x100) h ⟨_, List.mem_cons_self, ?_, ?_⟩⟩ <;> decide

/-- `demoMem` with the tables' tags other than `DT_RELR` and `DT_RELRSZ` blotted out (words 54 … 63): only the RELR table is left. -/
def demoRelrMem : Mem := fun a => BitVec.ofNat 8
  (((((((demoWords.set 54 1000).set 56 1000).set 58 1000).set 60 1000).set 62 1000)).getD (a / 8) 0 >>> (8 * (a % 8)))

theorem demo_relr_setup : Setup demoImage demoRelrMem 0 0x40 0x100 [0x999] [(6, 256), (33, 5), (9, 0x140)]
    [(1000, 0x130), (1000, 48), (1000, 24), (1000, 0x160), (1000, 32), (36, 0x180), (35, 16)] ⟨[], [], [0x220, 11]⟩ 0x40 56 demoHeaders where
  ws := Or.inr rfl
  hb := by decide
  hstart := by decide
  env := ⟨by decide, by decide, by decide, (by decide : WordsAt _ _ _ _)⟩
  launch := .staticPie (by decide) (by decide) (by decide) (by decide)
  distinct := by decide
  dyn := ⟨by decide, (by decide : WordsAt _ _ _ _)⟩
  tables := ⟨⟨by decide, fun h => absurd rfl h⟩, ⟨by decide, fun h => absurd rfl h⟩,
    ⟨by decide, fun _ => ⟨by decide, (by decide : WordsAt _ _ _ _), by decide⟩⟩⟩
  types := ⟨by decide, by decide⟩
  headers := ⟨by decide, by decide, by decide, by decide, by decide, by decide, by decide⟩
  separate := by decide

example (ok : Nat → Nat → Bool) : ∃ N out s, (∀ fuel > N, relocate demoImage ok fuel demoRelrMem 0 = some out) ∧ (out = .done s ∨ out = .trap s) ∧
    s.stores.reverse.map Prod.fst = [0x320, 0x328, 0x338] := by
  obtain ⟨N, out, s, h1, h2, h3⟩ := C38_relr demo_relr_setup ok
  exact ⟨N, out, s, h1, h2, h3.trans (by decide)⟩

example := C38_loop (i := demoImage) (by decide) (b := 0x100) (p := 0x280) (fuel := 100) (l := [0x220, 11]) (s := ⟨demoRelrMem, [], []⟩)
  (by decide : WordsAt _ _ _ _) (by decide) (by decide)

/-- The second REL entry is of type 6: everything before it is done, then the program traps. -/
def demoBadRelMem : Mem := fun a => BitVec.ofNat 8 ((demoWords.set 79 6).getD (a / 8) 0 >>> (8 * (a % 8)))

example (ok : Nat → Nat → Bool) : ∃ N s, (∀ fuel > N, relocate demoImage ok fuel demoBadRelMem 0 = some (.trap s)) ∧
    s.stores.reverse = [(0x300, 0x140), (0x308, 0x148), (0x310, 0x150)] := by
  obtain ⟨N, s, h1, h2⟩ := C39_rel (i := demoImage) (m := demoBadRelMem) (envp := 0) (start := 0x40) (b := 0x100) (env := [0x999])
    (aux := [(6, 256), (33, 5), (9, 0x140)]) (d := [(7, 0x130), (8, 48), (9, 24), (17, 0x160), (18, 32), (36, 0x180), (35, 16)])
    (rela := [⟨0x200, 8, 0x40⟩, ⟨0x208, 8, 0x48⟩]) (pre := [⟨0x210, 8⟩]) (bad := ⟨0x218, 6⟩) (post := []) (Or.inr rfl) (by decide) (by decide)
    ⟨by decide, by decide, by decide, (by decide : WordsAt _ _ _ _)⟩ (.staticPie (by decide) (by decide) (by decide) (by decide)) (by decide)
    ⟨by decide, (by decide : WordsAt _ _ _ _)⟩ ⟨by decide, fun _ => ⟨by decide, (by decide : WordsAt _ _ _ _), by decide⟩⟩
    ⟨by decide, fun _ => ⟨by decide, (by decide : WordsAt _ _ _ _), by decide⟩⟩
    (by decide) (by decide) (by decide) (by decide) ok
  exact ⟨N, s, h1, h2.stores.trans (by decide)⟩

/-- `C40_call`: the RELRO segment of `demo_setup` is one page of 256 bytes. -/
example (ok : Nat → Nat → Bool) := C40_call demo_setup (k := 8) (by decide) (by decide) (g := ⟨Gabi.PT_GNU_RELRO, 0x200, 0x100, 0x100, 1⟩) (by decide) (by decide) ok

/-- `C40_none`: the same program with an ordinary segment instead. -/
def demoPlainMem : Mem := fun a => BitVec.ofNat 8 ((demoWords.set 47 1).getD (a / 8) 0 >>> (8 * (a % 8)))

theorem demo_plain_setup : Setup demoImage demoPlainMem 0 0x40 0x100 [0x999] [(6, 256), (33, 5), (9, 0x140)]
    [(7, 0x130), (8, 48), (9, 24), (17, 0x160), (18, 32), (36, 0x180), (35, 16)] demoTables 0x40 56
    [⟨1, 0, 0x300, 0x300, 0x100⟩, ⟨1, 0x200, 0x100, 0x100, 1⟩] where
  ws := Or.inr rfl
  hb := by decide
  hstart := by decide
  env := ⟨by decide, by decide, by decide, (by decide : WordsAt _ _ _ _)⟩
  launch := .staticPie (by decide) (by decide) (by decide) (by decide)
  distinct := by decide
  dyn := ⟨by decide, (by decide : WordsAt _ _ _ _)⟩
  tables := ⟨⟨by decide, fun _ => ⟨by decide, (by decide : WordsAt _ _ _ _), by decide⟩⟩,
    ⟨by decide, fun _ => ⟨by decide, (by decide : WordsAt _ _ _ _), by decide⟩⟩,
    ⟨by decide, fun _ => ⟨by decide, (by decide : WordsAt _ _ _ _), by decide⟩⟩⟩
  types := ⟨by decide, by decide⟩
  headers := ⟨by decide, by decide, by decide, by decide, by decide, by decide, by decide⟩
  separate := by decide

example (ok : Nat → Nat → Bool) := C40_none demo_plain_setup (by decide) ok
example := C40_coverage (page := 4096) (v := 0x3dd0) (n := 0x230) (by decide)
example := C40_exact (page := 4096) (v := 0x3dd0) (n := 0x230) (by decide) (by decide)

end Origin.Elf

namespace Origin.Libc

/-- `C45_leak`: `pthread_create` refuses (`EAGAIN`); the block stays. -/
example : ∃ w, Reach .little 8 w ∧ ⟨0x3000, 24, true⟩ ∈ w.live := by
  have hd : ∀ b ∈ demo2.live, b.Disj ⟨0x3000, 24, true⟩ := by
    intro b hb
    have : b ∈ [(⟨0x2000, 16, true⟩ : Block), ⟨0x1000, 40, true⟩] := hb
    simp only [List.mem_cons, List.not_mem_nil, or_false] at this
    rcases this with rfl | rfl <;> unfold Block.Disj <;> decide
  have h := C45_leak (e := .little) (ws := 8) (by decide) demo2_reach ⟨0, 0, 0, 0x3000, .error 11⟩ 7 [9] 65536 4096 11 (by decide) (by decide) (by decide)
    (fun _ => ⟨by decide, hd⟩) rfl rfl rfl (by decide) rfl (.refl _)
  exact ⟨_, demo2_reach.step (Step.create (by decide) (by decide) (by decide) (fun _ => ⟨by decide, hd⟩)), h⟩

example := C45_life (by decide) demo2_reach 0 _ rfl
example := C45_freed_once (by decide) demo2_reach 1 _ rfl
example := C53_sigaction_partial (id : Nat → Nat) (fun _ _ => .ok 3) 11
example := (C53_sigaction_partial (fun x : Nat => x % 8) (fun _ _ => .ok 3) 11).2 5 rfl
example := C53_false (0 : Nat) 1 (by decide)
example (main : MainAttr) (addrOf : Nat → Nat) := (C54_defaults_partial demo2 main addrOf).2.2 1 _ rfl

end Origin.Libc

namespace Origin.Asm
open Origin.Asm.Spec

example (a : Arch) := C43_clone_request a 5 6 demoArgs 1 0x63 0x9100 0x9200 (demoCpu a) (childKernel a) (demo_operands a)
example (a : Arch) (ha : a ≠ .riscv64) := C42_sigreturn a ha 11 ⟨4096, 4#32, none, 7⟩
example := C46_getauxval_partial 1 2 3 26 (by decide)

end Origin.Asm
