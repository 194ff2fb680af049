import Verif.Proof.LayoutDebug
import Verif.Props.Bridge
/-!
# C57: thread creation and start-up in a debug build
-/

namespace Origin
open Spec

/-- **C57 (`create`, same).** Any configuration, any sizes, any answers of the kernel: if a debug build of `create` does not panic, it does what a release
build does: the same result, the same system calls, the same memory. -/
theorem C57_create_same {c : Cfg} {m : Mem} {junk : Nat → Byte} {k : Answers} {tp fn : Nat} {args : List Nat} {ss gs : Nat} {out : CreateOut}
    (h : createD c m junk k tp fn args ss gs = .ok out) : create c m junk k tp fn args ss gs = out := createD_same h

/-- **C57 (`create`, no panic).** When the requested memory fits in the address space, a debug build of `create` does not panic, whatever the kernel
answers. -/
theorem C57_create_no_panic {c : Cfg} (h : CfgOk c) {ss gs : Nat} (hf : Fits c ss gs) (m : Mem) (junk : Nat → Byte) (k : Answers) (tp fn : Nat)
    (args : List Nat) : createD c m junk k tp fn args ss gs = .ok (create c m junk k tp fn args ss gs) := by
  have hl := (createLayoutD_eq h ss gs).1 hf
  have hlt := createLayoutD_lt hl
  have hle : (createLayout c ss gs).stackBottom ≤ (createLayout c ss gs).mapSize := by
    rw [createLayout_eq h hf]
    have := areasFrom_le h (natRoundUp gs c.page) (natRoundUp gs c.page + natRoundUp ss 16)
    have e := (areasFrom_lo c (natRoundUp gs c.page) (natRoundUp gs c.page + natRoundUp ss 16)).1
    show (areasFrom c (natRoundUp gs c.page) (natRoundUp gs c.page + natRoundUp ss 16)).stackLo ≤ (areasFrom c (natRoundUp gs c.page) (natRoundUp gs c.page + natRoundUp ss 16)).stop
    omega
  unfold createD
  rw [hl, create]
  simp only [DbgRun.orPanic]
  cases k.mmap with
  | error e => rfl
  | ok map =>
    simp only [csub_le hle, uwsub_of_le hlt hle]
    cases k.mprotect with
    | error e => rfl
    | ok u =>
      simp only [initializeTlsD, csub_le h.tlsSizes, Option.bind_some, initializeTls]
      split <;> rfl

/-- **C57 (`create`, overflow).** When the requested memory does not fit in the address space (the sizes for which a release build does not give the
caller what it asked for: C08), a debug build of `create` panics, before any system call. -/
theorem C57_create_panics {c : Cfg} (h : CfgOk c) {ss gs : Nat} (hf : ¬ Fits c ss gs) (m : Mem) (junk : Nat → Byte) (k : Answers) (tp fn : Nat)
    (args : List Nat) : createD c m junk k tp fn args ss gs = .panic [] := by
  unfold createD
  rw [(createLayoutD_eq h ss gs).2 hf]
  rfl

/-- **C57 (`initialize_main`, same).** If a debug build gets through the set-up of the main thread, a release build does the same. -/
theorem C57_main_same {c : Cfg} {m : Mem} {junk : Nat → Byte} {i : MainIn} {out : MainOut}
    (h : initializeMainD c m junk i = .ok out) : initializeMain c m junk i = some out := initializeMainD_same h

/-- **C57 (`initialize_main`, no panic).** A debug build sets up the main thread without a panic, and as a release build does. -/
theorem C57_main_no_panic {c : Cfg} {s : Space} {i : MainIn} {lim : Nat} (H : MainStart c s i lim) (m : Mem) (junk : Nat → Byte) :
    ∃ out, initializeMainD c m junk i = .ok out ∧ initializeMain c m junk i = some out := by
  obtain ⟨out, h1, O⟩ := H.ok m junk
  refine ⟨out, ?_, h1⟩
  have h2 := H.cfg
  have hp := pow_pos h2.pagePow
  have hr := roundUpD_eq (ws := c.ws) (a := i.execfnEnd) h2.pagePow (by have := H.topFits; omega)
  have hstop : (areasFrom c 0 0).stop < umax c.ws := by
    have := H.kernel.fits
    have h3 := le_natRoundUp (x := (mainAreas c).stop) hp
    have h4 : (mainAreas c).stop = (areasFrom c 0 0).stop := rfl
    omega
  have ht : ∃ t, calculateTlsSizeD c 0 = some t := ⟨_, (calculateTlsSizeD_eq h2 0 0).trans (if_pos hstop)⟩
  obtain ⟨t, ht⟩ := ht
  have hmd : mdAlign c ∣ c.page := pow_dvd_of_le (max_pow h2.tlsPow (metaAlign_pow _)) h2.pagePow (mdAlign_le h2)
  have ha : i.map % (max c.tls.align (metaAlign c.arch)) = 0 := Nat.mod_eq_zero_of_dvd (Nat.dvd_trans hmd H.kernel.aligned)
  unfold initializeMain at h1
  simp only [H.limitIs, (roundUpD_some hr).2.2, calculateTlsSizeD_same ht] at h1
  unfold initializeMainD
  simp only [hr, H.limitIs, ht, DbgRun.orPanic, dassert_true ha, initializeTlsD, csub_le h2.tlsSizes, Option.bind_some]
  have hself := C14_main_self_pointer H (m := m) (junk := junk) (out := out)
    (by unfold initializeMain; simp only [H.limitIs, (roundUpD_some hr).2.2, calculateTlsSizeD_same ht]; exact h1)
  injection h1 with h1
  rw [← h1] at hself
  simp only [initializeTls] at h1 hself
  rw [selfAssert_true hself]
  simp only [h1]

/-- **C57 (`initialize_main`)**: with an unlimited stack both builds panic, before any system call that changes anything (C12). -/
theorem C57_main_unlimited {c : Cfg} {i : MainIn} (hi : i.stackLimit = none) (m : Mem) (junk : Nat → Byte) :
    initializeMainD c m junk i = .panic [] ∧ initializeMain c m junk i = none := by
  refine ⟨?_, by unfold initializeMain; simp only [hi]⟩
  unfold initializeMainD
  cases roundUpD c.ws i.execfnEnd c.page with
  | none => rfl
  | some x => simp only [DbgRun.orPanic, hi]

/-- **C57 (`set_current_id_after_a_fork`).** In the child of a fork, which the kernel knows by a new id `tid`, `set_current_id_after_a_fork(tid)` does
not panic in a debug build, and does what a release build does; given an id that is not the thread's, or for the second time, it panics. -/
theorem C57_fork_id {c : Cfg} {m : Mem} {tp tid gettid : Nat} :
    (tid = gettid ∧ currentId c m tp ≠ gettid → setCurrentIdAfterAForkD c m tp tid gettid = some (setCurrentIdAfterAFork c m tp tid)) ∧
    (tid ≠ gettid ∨ currentId c m tp = tid → setCurrentIdAfterAForkD c m tp tid gettid = none) := by
  constructor
  · rintro ⟨rfl, h⟩
    unfold setCurrentIdAfterAForkD
    rw [dassert_true (show tid ≠ ldN c.endian 4 m (uadd c.ws (current c tp) c.tl.tid) from Ne.symm h), Option.bind_some, dassert_true rfl]
    rfl
  · unfold setCurrentIdAfterAForkD dassert currentId
    rintro (h | h)
    · rw [if_neg h]
      split <;> rfl
    · rw [if_neg (by rw [h]; exact fun h => h rfl)]
      rfl

example (m : Mem) (junk : Nat → Byte) : ∃ out, initializeMainD exCfg m junk exMain = .ok out ∧ initializeMain exCfg m junk exMain = some out :=
  C57_main_no_panic exMain_ok m junk

example (m : Mem) (junk : Nat → Byte) :
    createD exCfg m junk exAnswers 0 0 [1, 0, 0xdeadbeef] 0x20000 0x4000 = .ok (create exCfg m junk exAnswers 0 0 [1, 0, 0xdeadbeef] 0x20000 0x4000) :=
  C57_create_no_panic exCfg_ok exCreation.fits m junk exAnswers 0 0 _

/-- A request for all but 15 bytes of the address space is refused by a panic in a debug build, and granted, with no stack, by a release build. -/
example (m : Mem) (junk : Nat → Byte) : createD exCfg m junk exAnswers 0 0 [] (2 ^ 64 - 15) 0x4000 = .panic [] ∧
    ∃ t, (create exCfg m junk exAnswers 0 0 [] (2 ^ 64 - 15) 0x4000).res = .ok t :=
  ⟨C57_create_panics exCfg_ok (by unfold Fits; decide) m junk exAnswers 0 0 [], _, rfl⟩

end Origin
