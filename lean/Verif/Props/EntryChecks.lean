import Verif.Model.EntryChecks
import Verif.Props.ThreadStart
/-!
# C57: the precondition checks of `entry`
-/

namespace Origin.Asm.Spec
open Origin Origin.Asm

/-- What compiled code finds as its frame when a function is entered in the state `cpu`: its return address; the saved frame pointer of its caller; and its own
frame, where the caller's frame pointer is saved: right below the return address that the call pushed (x86-64, x86); two words below the stack
pointer (arm); at the stack pointer (riscv64); some non-zero number of 16-byte units below it (aarch64). -/
structure FrameOf (a : Arch) (cpu : Cpu) (f : EntryFrame) : Prop where
  ret : f.ret = retAddr a cpu
  parent : f.parent = cpu.reg (fpReg a)
  spEntry : f.spEntry = cpu.reg (spReg a)
  addr : match a with
    | .x86_64 => f.addr + 8 = cpu.reg (spReg a)
    | .x86 => f.addr + 4 = cpu.reg (spReg a)
    | .arm => f.addr + 8 = cpu.reg (spReg a)
    | .riscv64 => f.addr = cpu.reg (spReg a)
    | .aarch64 => 0 < f.addr ∧ ∃ n, 0 < n ∧ f.addr + 16 * n = cpu.reg (spReg a)

end Origin.Asm.Spec

namespace Origin.Asm
open Origin Origin.Spec Origin.Asm.Spec

theorem and_low {x k : Nat} : x &&& (2 ^ k - 1) = x % 2 ^ k := Nat.and_two_pow_sub_one_eq_mod x k
theorem and_15 (x : Nat) : x &&& 0xf = x % 16 := and_low (k := 4)
theorem and_7 (x : Nat) : x &&& 0x7 = x % 8 := and_low (k := 3)
theorem and_3 (x : Nat) : x &&& 0x3 = x % 4 := and_low (k := 2)

/-- In the state that C60 describes, none of the checks fails. -/
theorem threadChecks_of_ready {c : Cfg} {m : Mem} {tp0 : Tp} {space : Space} {fn : Nat} {argv : List Nat} {ss gs t tid : Nat} {cpu : Cpu} {tp : Tp}
    (R : Ready c m tp0 space fn argv ss gs t tid cpu tp) (hpage : 4096 ≤ c.page) (hroom : c.ws * argv.length + 35 ≤ ss) {f : EntryFrame}
    (hf : FrameOf c.arch cpu f) :
    threadChecks c.arch f ((threadPointer c.arch cpu.mem tp).map (currentId c cpu.mem)) tid = true := by
  obtain ⟨p, h1, -, h2⟩ := R.current
  obtain ⟨base, -, b1, -, -, b2, -⟩ := R.stack
  have b3 : 4096 ≤ cpu.reg (spReg c.arch) := by omega
  have hal := R.aligned
  have hw := R.wordAligned
  have hr := hf.ret.trans R.root.1
  have hp := hf.parent.trans R.root.2
  have hs := hf.spEntry
  have ha := hf.addr
  have hfr : threadFrameChecks c.arch f = true := by
    generalize c.arch = a at *
    simp only [threadFrameChecks, onlyIf, hr, hp, hs, and_15, and_3, beq_self_eq_true, Bool.and_true, Bool.true_and, Bool.and_eq_true, bne_iff_ne, ne_eq]
    cases a <;> simp only [EntryAligned, ne_eq, reduceCtorEq, not_false_eq_true, true_implies, not_true_eq_false, false_implies] at hal ha ⊢ <;>
      simp <;> omega
  simp [threadChecks, hfr, h1, h2]

/-- **C57 (a thread's start).** A thread that `create` has made (under the hypotheses of C60) enters its entry function so that none of the checks that a debug
build makes at its start fails, with or without the `nightly` feature. -/
theorem C57_thread_entry_checks {c : Cfg} {s : Space} {ka : Answers} {args : List Nat} {ss gs map tid : Nat}
    (H : Creation c s ka args ss gs map tid) (he : c.endian = .little) (hroom : c.ws * args.length + 35 ≤ ss)
    (m : Mem) (junk : Nat → Byte) (fn : Nat) {lo : Nat} (hlo : lo + 3 ≤ 8192) {tp : Tp} {p : Nat} (hs : Started c.arch lo tp p) {g : CloneArgs}
    (hg : cloneArgs (create c m junk ka p fn args ss gs).calls = some g) (rf rn : Reg) (hi desc arr : Nat) (cpu : Cpu)
    (hop : Operands c.arch rf rn g desc arr cpu) (htmp : ∀ x, ¬ Spare c.arch desc arr cpu x → s x ≠ .unmapped)
    (hcpu : ∀ x, (⟨map, (areas c ss gs).stop⟩ : Range).Has x → cpu.mem x = memAtClone c m junk ka p fn args ss gs x)
    (k : Cpu → (Reg → Nat) × Mem) (hk : NewThread c g tid ⟨map, (areas c ss gs).stop⟩ k) :
    ∃ cpu' tp' r, run c.arch.ws (spReg c.arch) k (cloneCode c.arch rf rn) (cloneSetup c.arch rf rn g hi (readGs tp) desc arr cpu) = .entered cpu' ∧
      cpu'.calls = r :: cpu.calls ∧ childTp c.arch lo tp r.1 r.2 = some tp' ∧
      ∀ f, FrameOf c.arch cpu' f → threadChecks c.arch f ((threadPointer c.arch cpu'.mem tp').map (currentId c cpu'.mem)) tid = true := by
  obtain ⟨t, cpu', tp', r, -, h1, h2, h3, -, R⟩ := C60_thread_start H he hroom m junk fn hlo hs hg rf rn hi desc arr cpu hop htmp hcpu k hk
  exact ⟨cpu', tp', r, h1, h2, h3, fun f hf => threadChecks_of_ready R H.cfg.pageMin hroom hf⟩

/-- **C57 (the program's start).** When the kernel starts the program (with a 16-byte-aligned stack pointer and a null frame pointer), `_start` enters
`entry` so that none of the checks that a debug build makes at its start fails, with or without the `nightly` feature. -/
theorem C57_program_entry_checks (a : Arch) (k : Cpu → (Reg → Nat) × Mem) (c : Cpu) (hs : 64 ≤ c.reg (spReg a)) (hlt : c.reg (spReg a) < 2 ^ (8 * a.ws))
    (hal : c.reg (spReg a) % 16 = 0) (hfp : c.reg (fpReg a) = 0) :
    ∃ c', run a.ws (spReg a) k (startCode a) c = .entered c' ∧ ∀ f, FrameOf a c' f → programChecks a f (fnArg a c' 0) = true := by
  obtain ⟨c', h1, h2, h3, h4, h5, ⟨h6, h7⟩, -⟩ := C43_start a k c hs hlt (fun _ => hfp)
  refine ⟨c', h1, fun f hf => ?_⟩
  have hr := hf.ret.trans h3
  have hp := hf.parent.trans (h4 hfp)
  have hse := hf.spEntry
  have ha := hf.addr
  replace h5 := h5 (by cases a <;> simp only [stackAlign] <;> omega)
  simp only [programChecks, onlyIf, hr, hp, hse, h2, and_15, and_7, beq_self_eq_true, Bool.and_true, Bool.true_and, Bool.and_eq_true, bne_iff_ne, ne_eq,
    decide_eq_true_eq, beq_iff_eq, hal, and_true]
  cases a <;> simp only [EntryAligned] at h5 ha ⊢ <;> simp <;> omega

/-! ## Concrete cases -/

/-- On every target, a program whose stack starts at `0x9000`; and its frame exists. -/
example (a : Arch) : ∃ c' f, run a.ws (spReg a) (childKernel a) (startCode a) (demoCpu a) = .entered c' ∧ FrameOf a c' f ∧ programChecks a f (fnArg a c' 0) = true := by
  have e : (demoCpu a).reg (spReg a) = 0x9000 := by simp [demoCpu]
  obtain ⟨c', h1, h2⟩ := C57_program_entry_checks a (childKernel a) (demoCpu a) (by rw [e]; decide) (by rw [e]; cases a <;> decide)
    (by rw [e]) (by cases a <;> rfl)
  obtain ⟨c'', h1', -, -, -, -, ⟨-, h7⟩, -⟩ := C43_start a (childKernel a) (demoCpu a) (by rw [e]; decide)
    (by rw [e]; cases a <;> decide) (by intro _; cases a <;> rfl)
  rw [h1] at h1'
  obtain rfl : c' = c'' := by injection h1'
  rw [e] at h7
  have hf : FrameOf a c' ⟨retAddr a c', c'.reg (spReg a) - (match a with | .x86_64 => 8 | .x86 => 4 | .arm => 8 | .riscv64 => 0 | .aarch64 => 32), c'.reg (fpReg a), c'.reg (spReg a)⟩ :=
    ⟨rfl, rfl, rfl, by cases a <;> simp only <;> first | omega | exact ⟨by omega, 2, by omega, by omega⟩⟩
  exact ⟨c', _, h1, hf, h2 _ hf⟩

/-- The new thread of the x86 process of C60. -/
example (m : Mem) (junk : Nat → Byte) : ∃ cpu' tp', ∀ f, FrameOf .x86 cpu' f →
    threadChecks .x86 f ((threadPointer .x86 cpu'.mem tp').map (currentId exCfgX86 cpu'.mem)) 77 = true := by
  have hs : Started .x86 12 (setThreadPointer .x86 12 12 0x400300 m ⟨0, 0, fun _ => none⟩ 0x400800).1 0x400800 := .main (by decide) (by decide)
  have hg := cloneArgs_created exCreationX86 m junk 0x400800 0x1234
  have hsp : childSp exCfgX86 (0x70000000 + (createLayout exCfgX86 0x20000 0x4000).stackTop) 3 = 0x70023ff0 := by decide
  let cpu : Cpu := ⟨fun r => if r = 4 then 0x400f00 else 0, memAtClone exCfgX86 m junk ⟨.ok 0x70000000, .ok (), 77⟩ 0x400800 0x1234 [5, 6, 7] 0x20000 0x4000, [], []⟩
  obtain ⟨cpu', tp', r, -, -, -, h⟩ := C57_thread_entry_checks exCreationX86 rfl (by decide) m junk 0x1234 (lo := 12) (by decide) hs hg 5 6 0 0x400100 0x400200 cpu
    { regs := by decide
      words := by decide
      room := by decide
      x86 := fun _ => by simp only [show exCfgX86.arch = .x86 from rfl, List.length_cons, List.length_nil, Nat.zero_add, Nat.reduceAdd, hsp, cpu, if_true,
        show ¬ (5 : Reg) = 4 by decide, show ¬ (6 : Reg) = 4 by decide, if_false]; decide }
    (by
      intro x hx
      unfold exSpace
      rw [if_pos (Classical.byContradiction fun hn => hx fun _ => by
        simp only [cpu, if_true]
        omega)]
      decide)
    (fun _ _ => rfl) _ (startKernel_ok _ _ _ _)
  exact ⟨cpu', tp', h⟩

/-- In its state a frame exists. -/
example (m : Mem) (junk : Nat → Byte) : ∃ cpu tp f, FrameOf .x86 cpu f ∧ threadChecks .x86 f ((threadPointer .x86 cpu.mem tp).map (currentId exCfgX86 cpu.mem)) 77 = true := by
  obtain ⟨_, _, t, cpu, tp, -, R⟩ := exReady_x86 m junk
  have h4 : 4 ≤ cpu.reg (spReg .x86) := by
    have h := R.aligned (by decide)
    change (cpu.reg 4 + 4) % 16 = 0 at h
    show 4 ≤ cpu.reg 4
    omega
  have hf : FrameOf .x86 cpu ⟨retAddr .x86 cpu, cpu.reg (spReg .x86) - 4, cpu.reg (fpReg .x86), cpu.reg (spReg .x86)⟩ :=
    ⟨rfl, rfl, rfl, by show cpu.reg (spReg .x86) - 4 + 4 = _; omega⟩
  exact ⟨cpu, tp, _, hf, threadChecks_of_ready R (by decide) (by decide) hf⟩

/-- The checks are not empty: a thread entered with a misaligned stack, on x86-64, or with a stale return address, does not pass; nor does one whose id is not
the kernel's. -/
example : threadChecks .x86_64 ⟨0, 0x7fe8, 0, 0⟩ (some 5) 5 = false ∧ threadChecks .x86_64 ⟨0x4242, 0x7fe0, 0, 0⟩ (some 5) 5 = false ∧
    threadChecks .x86_64 ⟨0, 0x7fe0, 0, 0⟩ (some 4) 5 = false ∧ threadChecks .x86_64 ⟨0, 0x7fe0, 0, 0⟩ (some 5) 5 = true := by decide

end Origin.Asm
