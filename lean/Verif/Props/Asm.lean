import Verif.Proof.Asm
import Verif.Props.Layout2
/-!
# C41-C44, C46: the assembly sequences, `sigaction`, `getauxval`
-/

namespace Origin.Asm
open Origin Origin.Spec Origin.Asm.Spec

/-! ## C43: `_start` -/

/-- **C43 (process entry).**  Whatever the registers and memory, `_start` enters `entry` with the initial stack pointer as its argument, with
a null return address and the alignment of the ABI (if the kernel's initial stack pointer has it, and on x86 and x86-64 if the kernel has
cleared the frame pointer register, which it has), at most 20 bytes below the initial stack pointer, without a system call, leaving the initial stack contents
untouched. -/
theorem C43_start (a : Arch) (k : Cpu → (Reg → Nat) × Mem) (c : Cpu) (hs : 64 ≤ c.reg (spReg a)) (hlt : c.reg (spReg a) < 2 ^ (8 * a.ws))
    (hz : a = .x86_64 ∨ a = .x86 → c.reg (fpReg a) = 0) :
    ∃ c', run a.ws (spReg a) k (startCode a) c = .entered c' ∧ fnArg a c' 0 = c.reg (spReg a) ∧ retAddr a c' = 0 ∧
      (c.reg (fpReg a) = 0 → c'.reg (fpReg a) = 0) ∧
      (c.reg (spReg a) % stackAlign a = 0 → EntryAligned a (c'.reg (spReg a))) ∧
      (c'.reg (spReg a) ≤ c.reg (spReg a) ∧ c.reg (spReg a) ≤ c'.reg (spReg a) + 20) ∧
      c'.calls = c.calls ∧ (∀ x, c.reg (spReg a) ≤ x → c'.mem x = c.mem x) := by
  cases a with
  | x86_64 =>
    replace hz := hz (Or.inl rfl)
    simp only [spReg, fpReg, X86.sp, X86.bp, Arch.ws, stackAlign] at *
    have e : uwsub 8 (c.reg 4) 8 = c.reg 4 - 8 := uwsub_of_le hlt (by omega)
    refine ⟨_, rfl, ?_, ?_, ?_, ?_, ?_, rfl, ?_⟩
    · simp [fnArg, Cpu.set, X86.di, X86.sp]
    · simp only [retAddr, Cpu.set, X86.di, X86.sp, X86.bp, if_true]
      simp only [show ¬ ((5:Nat) = 7) by omega, show ¬ ((4:Nat) = 7) by omega, if_false, hz]
      rw [ldN_stN_of_lt (Nat.two_pow_pos _)]
    · intro _; simp [Cpu.set, X86.di, hz]
    · intro h
      simp only [Cpu.set, X86.di, if_true, show ¬ ((4:Nat) = 7) by omega, if_false, e, EntryAligned]; omega
    · simp only [Cpu.set, X86.di, if_true, show ¬ ((4:Nat) = 7) by omega, if_false, e]; omega
    · intro x hx
      simp only [Cpu.set, X86.di, show ¬ ((4:Nat) = 7) by omega, if_false, e]
      exact stN_frame (by omega)
  | x86 =>
    replace hz := hz (Or.inr rfl)
    simp only [spReg, fpReg, X86.sp, X86.bp, Arch.ws, stackAlign] at *
    have s1 : ∀ n, n + 4 ≤ 64 → uwsub 4 (c.reg 4 - n) 4 = c.reg 4 - (n + 4) := fun n h => by
      rw [uwsub_of_le (by unfold umax; omega) (by omega)]; omega
    have e1 := s1 0 (by omega); have e2 := s1 4 (by omega); have e3 := s1 8 (by omega); have e4 := s1 12 (by omega)
    have e5 := s1 16 (by omega)
    simp only [Nat.sub_zero, Nat.zero_add, Nat.reduceAdd] at e1 e2 e3 e4 e5
    have hr : run 4 4 k (startCode .x86) c = .entered
        { reg := fun x => if x = 4 then c.reg 4 - 20 else if x = 0 then c.reg 4 else c.reg x,
          mem := stN .little 4 (stN .little 4 (stN .little 4 (stN .little 4 (stN .little 4 c.mem (c.reg 4 - 4) 0) (c.reg 4 - 8) 0)
            (c.reg 4 - 12) 0) (c.reg 4 - 16) (c.reg 4)) (c.reg 4 - 20) 0,
          calls := c.calls,
          touched := (c.reg 4 - 20) :: (c.reg 4 - 16) :: (c.reg 4 - 12) :: (c.reg 4 - 8) :: (c.reg 4 - 4) :: c.touched } := by
      simp only [startCode, run, Cpu.set, X86.ax, X86.sp, X86.bp, if_true, show ¬ ((4:Nat) = 0) by omega, show ¬ ((5:Nat) = 4) by omega,
        show ¬ ((5:Nat) = 0) by omega, show ¬ ((0:Nat) = 4) by omega, if_false, e1, e2, e3, e4, e5, hz]
      congr 2
      funext x; by_cases h4 : x = 4 <;> simp [h4]
    refine ⟨_, hr, ?_, ?_, ?_, ?_, ?_, rfl, ?_⟩
    · simp only [fnArg, if_true]
      rw [ldN_stN_disj (by omega), show c.reg 4 - 20 + 4 + 4 * 0 = c.reg 4 - 16 by omega, ldN_stN_of_lt hlt]
    · simp only [retAddr, if_true]
      rw [ldN_stN_of_lt (Nat.two_pow_pos _)]
    · intro _; simp [hz]
    · intro h; simp only [EntryAligned, if_true]; omega
    · simp only [if_true]; omega
    · intro x hx
      simp only
      repeat rw [stN_frame (by omega)]
  | aarch64 => exact ⟨_, rfl, rfl, rfl, fun h => h, fun h => h, ⟨Nat.le_refl _, Nat.le_add_right _ _⟩, rfl, fun _ _ => rfl⟩
  | arm => exact ⟨_, rfl, rfl, rfl, fun h => h, fun h => h, ⟨Nat.le_refl _, Nat.le_add_right _ _⟩, rfl, fun _ _ => rfl⟩
  | riscv64 => exact ⟨_, rfl, rfl, rfl, fun _ => rfl, fun h => h, ⟨Nat.le_refl _, Nat.le_add_right _ _⟩, rfl, fun _ _ => rfl⟩

/-! ## C43: `clone` -/

/-- **C43 (the request).**  On every architecture, whatever the kernel then does, `clone` makes exactly one system call before it enters the
thread's code or returns, with the number and the arguments of `clone(2)` in the kernel's order. -/
theorem C43_clone_request (a : Arch) (rf rn : Reg) (g : CloneArgs) (hi gs desc arr : Nat) (c : Cpu) (k : Cpu → (Reg → Nat) × Mem)
    (h : Operands a rf rn g desc arr c) :
    ∃ r, (run a.ws (spReg a) k (cloneCode a rf rn) (cloneSetup a rf rn g hi gs desc arr c)).cpu.calls = r :: c.calls ∧
      CloneRequest a r.2 r.1 g := by
  obtain ⟨w1, w2, w3, w4, w5⟩ := h.words
  cases a with
  | x86_64 =>
    refine ⟨((cloneSetup .x86_64 rf rn g hi gs desc arr c).reg, (cloneSetup .x86_64 rf rn g hi gs desc arr c).mem), ?_, ?_⟩
    · simp only [cloneCode, run, spReg, Arch.ws]
      split <;> rfl
    · refine ⟨rfl, ?_, rfl, rfl, rfl, rfl⟩
      show (g.flags + 2 ^ 32 * hi) % 2 ^ 32 = g.flags
      omega
  | x86 =>
    obtain ⟨c1, e1, e2, -, -, -, e3, -, -, e4⟩ := x86_pre (hi := hi) (gs := gs) h k
    refine ⟨(c1.reg, c1.mem), ?_, ?_⟩
    · show (run 4 4 k _ _).cpu.calls = _
      rw [e4, ← e2]
      show (run 4 4 k (.syscall :: .bnz 0 32 :: .pop 7 :: .mov 6 4 :: .push 0 :: .push 5 :: .push 6 :: .push 7 :: .li 5 0 :: .push 0 ::
        [.jmp]) _).cpu.calls = _
      simp only [run]
      split <;> rfl
    · have hr := h.room
      rw [e1]
      refine ⟨rfl, Nat.mod_eq_of_lt w1, rfl, ?_, e3, rfl⟩
      show g.childStack - 4 + 4 = g.childStack
      omega
  | aarch64 =>
    refine ⟨((cloneSetup .aarch64 rf rn g hi gs desc arr c).reg, (cloneSetup .aarch64 rf rn g hi gs desc arr c).mem), ?_, ?_⟩
    · simp only [cloneCode, run, spReg, Arch.ws]
      split <;> rfl
    · exact ⟨rfl, Nat.mod_eq_of_lt w1, rfl, rfl, rfl, rfl⟩
  | arm =>
    refine ⟨((cloneSetup .arm rf rn g hi gs desc arr c).reg, (cloneSetup .arm rf rn g hi gs desc arr c).mem), ?_, ?_⟩
    · simp only [cloneCode, run, spReg, Arch.ws]
      split <;> rfl
    · exact ⟨rfl, Nat.mod_eq_of_lt w1, rfl, rfl, rfl, rfl⟩
  | riscv64 =>
    refine ⟨((cloneSetup .riscv64 rf rn g hi gs desc arr c).reg, (cloneSetup .riscv64 rf rn g hi gs desc arr c).mem), ?_, ?_⟩
    · simp only [cloneCode, run, spReg, Arch.ws]
      split <;> rfl
    · exact ⟨rfl, Nat.mod_eq_of_lt w1, rfl, rfl, rfl, rfl⟩

/-- The machine state at the system call, other than on x86. -/
def atCall (c : Cpu) : Cpu := { c with calls := (c.reg, c.mem) :: c.calls }

/-- `x` is not in the caller's temporary objects: on x86, `clone`'s `user_desc` and array, and the two words below the stack pointer. -/
def Spare (a : Arch) (desc arr : Nat) (c : Cpu) (x : Nat) : Prop :=
  a = .x86 → (x < desc ∨ desc + 16 ≤ x) ∧ (x < arr ∨ arr + 12 ≤ x) ∧ (x < c.reg 4 - 8 ∨ c.reg 4 ≤ x)

/-- **C43 (thread entry).**  On every architecture, in the new thread (the kernel returning 0 on the new stack), `clone` enters the thread's
entry function with `fn_`, the address of the arguments (`child_stack` as given to `clone`) and their number, with a null return address
and frame pointer, with the ABI's alignment if `child_stack` has it, at most
20 bytes below `child_stack`, and with the memory at and above `child_stack` as the kernel left it; `c1`, the
state at the system call, has the memory that `clone` was called with, but for the word below `child_stack` and the caller's own temporary objects. -/
theorem C43_clone_child (a : Arch) (rf rn : Reg) (g : CloneArgs) (hi gs desc arr : Nat) (c : Cpu) (k : Cpu → (Reg → Nat) × Mem)
    (h : Operands a rf rn g desc arr c) (hk : InChild a g k) :
    ∃ c' c1, run a.ws (spReg a) k (cloneCode a rf rn) (cloneSetup a rf rn g hi gs desc arr c) = .entered c' ∧
      fnArg a c' 0 = g.fn ∧ fnArg a c' 1 = g.childStack ∧ fnArg a c' 2 = g.numArgs ∧ retAddr a c' = 0 ∧ c'.reg (fpReg a) = 0 ∧
      (g.childStack % stackAlign a = 0 → EntryAligned a (c'.reg (spReg a))) ∧
      (c'.reg (spReg a) ≤ g.childStack ∧ g.childStack ≤ c'.reg (spReg a) + 20 ∧ c'.reg (spReg a) % 4 = g.childStack % 4) ∧ c'.calls = (c1.reg, c1.mem) :: c.calls ∧ CloneRequest a c1.mem c1.reg g ∧
      (∀ x, g.childStack ≤ x → c'.mem x = (k (atCall c1)).2 x) ∧
      (∀ x, g.childStack ≤ x → Spare a desc arr c x → c1.mem x = c.mem x) := by
  obtain ⟨w1, w2, w3, w4, w5⟩ := h.words
  obtain ⟨hne, hf, hn⟩ := h.regs
  have hr := h.room
  cases a with
  | x86_64 =>
    have hq : CloneRequest .x86_64 (cloneSetup .x86_64 rf rn g hi gs desc arr c).mem (cloneSetup .x86_64 rf rn g hi gs desc arr c).reg g := by
      refine ⟨rfl, ?_, rfl, rfl, rfl, rfl⟩
      show (g.flags + 2 ^ 32 * hi) % 2 ^ 32 = g.flags
      omega
    obtain ⟨k1, k2, k3, -⟩ := hk (atCall (cloneSetup .x86_64 rf rn g hi gs desc arr c)) hq
    have e1 : uwsub 8 g.childStack 8 = g.childStack - 8 := uwsub_of_le w2 (by omega)
    generalize he : run _ _ k (cloneCode .x86_64 rf rn) (cloneSetup .x86_64 rf rn g hi gs desc arr c) = e
    change run 8 4 k (.syscall :: .bnz 0 32 :: .mov 7 9 :: .mov 6 4 :: .mov 2 12 :: .li 5 0 :: .push 0 :: [.jmp]) _ = e at he
    rw [run] at he
    dsimp only at he
    rw [run, if_neg (by exact fun hh => hh (by exact congrArg (· % 2 ^ 32) k1)), run_mov g.fn (by exact k3 9 (by decide) (by decide) (by decide)),
        run_mov g.childStack (by exact k2), run_mov g.numArgs (by exact k3 12 (by decide) (by decide) (by decide)), run_li,
        run_push (g.childStack - 8) 0 (by exact (congrArg (uwsub 8 · 8) k2).trans e1) (by exact k1), run] at he
    subst he
    refine ⟨_, cloneSetup .x86_64 rf rn g hi gs desc arr c, rfl, rfl, rfl, rfl, ?_, rfl, ?_, ?_, rfl, hq, ?_, fun _ _ _ => rfl⟩
    · exact ldN_stN_of_lt (Nat.two_pow_pos _)
    · intro hal
      show (g.childStack - 8 + 8) % 16 = 0
      simp only [stackAlign] at hal; omega
    · show g.childStack - 8 ≤ g.childStack ∧ g.childStack ≤ g.childStack - 8 + 20 ∧ (g.childStack - 8) % 4 = g.childStack % 4
      omega
    · intro x hx
      exact stN_frame (by omega)
  | x86 =>
    obtain ⟨c1, e1, e2, -, -, e5, e3, -, e6, e4⟩ := x86_pre (hi := hi) (gs := gs) h k
    simp only [Arch.ws] at w2 w3 w4 w5
    have hq : CloneRequest .x86 c1.mem c1.reg g := by
      rw [e1]
      refine ⟨rfl, Nat.mod_eq_of_lt w1, rfl, ?_, e3, rfl⟩
      show g.childStack - 4 + 4 = g.childStack
      omega
    obtain ⟨k1, k2, k3, k4⟩ := hk (atCall c1) hq
    replace k4 := k4 rfl
    rw [show (atCall c1).reg (argReg .x86 1) = g.childStack - 4 by simp only [atCall, e1]; rfl] at k2 k4
    have k2' : (k (atCall c1)).1 4 = g.childStack - 4 := k2
    have k5 : (k (atCall c1)).1 5 = g.numArgs := by
      rw [k3 5 (by decide) (by decide) (by decide)]; simp only [atCall, e1]; rfl
    have k6 : ldN .little 4 (k (atCall c1)).2 (g.childStack - 4) = g.fn := by
      rw [← e5]; exact k4
    obtain ⟨r, t, hrun, r4, r5⟩ := x86_child (k := k) (rf := rf) (rn := rn)
      (c := ⟨(k (atCall c1)).1, (k (atCall c1)).2, (c1.reg, c1.mem) :: c1.calls, c1.touched⟩) k1 k2' k5 k6 hr w2
    refine ⟨_, c1, e4.trans (Eq.trans ?_ hrun), ?_, ?_, ?_, ?_, ?_, ?_, ?_, congrArg _ e2, hq, ?_, ?_⟩
    · rfl
    · simp only [fnArg, r4]
      rw [ldN_stN_disj (by omega), show g.childStack - 20 + 4 + 4 * 0 = g.childStack - 16 by omega, ldN_stN_of_lt w3]
    · simp only [fnArg, r4]
      rw [ldN_stN_disj (by omega), ldN_stN_disj (by omega), show g.childStack - 20 + 4 + 4 * 1 = g.childStack - 12 by omega, ldN_stN_of_lt w2]
    · simp only [fnArg, r4]
      rw [ldN_stN_disj (by omega), ldN_stN_disj (by omega), ldN_stN_disj (by omega), show g.childStack - 20 + 4 + 4 * 2 = g.childStack - 8 by omega,
        ldN_stN_of_lt w4]
    · simp only [retAddr, r4]
      exact ldN_stN_of_lt (Nat.two_pow_pos _)
    · exact r5
    · intro hal
      show (r 4 + 4) % 16 = 0
      simp only [stackAlign] at hal
      rw [r4]; omega
    · show r 4 ≤ g.childStack ∧ g.childStack ≤ r 4 + 20 ∧ r 4 % 4 = g.childStack % 4
      rw [r4]; omega
    · intro x hx
      simp only
      repeat rw [stN_frame (by omega)]
    · intro x hx hsp
      obtain ⟨q1, q2, q3⟩ := hsp rfl
      exact e6 x (by omega) q1 q2 q3
  | aarch64 =>
    have hq : CloneRequest .aarch64 (cloneSetup .aarch64 rf rn g hi gs desc arr c).mem (cloneSetup .aarch64 rf rn g hi gs desc arr c).reg g :=
      ⟨rfl, Nat.mod_eq_of_lt w1, rfl, rfl, rfl, rfl⟩
    obtain ⟨k1, k2, k3, -⟩ := hk (atCall (cloneSetup .aarch64 rf rn g hi gs desc arr c)) hq
    simp only [cloneTaken, List.mem_cons, List.not_mem_nil, or_false, not_or] at hf hn
    have hfn : (cloneSetup .aarch64 rf rn g hi gs desc arr c).reg rf = g.fn := by
      simp [cloneSetup, Cpu.set, hf, hne]
    have hnn : (cloneSetup .aarch64 rf rn g hi gs desc arr c).reg rn = g.numArgs := by
      simp [cloneSetup, Cpu.set, hn]
    generalize he : run _ _ k (cloneCode .aarch64 rf rn) (cloneSetup .aarch64 rf rn g hi gs desc arr c) = e
    change run 8 31 k (.syscall :: .bnz 0 64 :: .mov 0 rf :: .mov 1 31 :: .mov 2 rn :: .li 29 0 :: .li 30 0 :: [.jmp]) _ = e at he
    rw [run] at he
    dsimp only at he
    rw [run, if_neg (by exact fun hh => hh (by exact congrArg (· % 2 ^ 64) k1)),
        run_mov g.fn (by exact (k3 rf hf.1 hf.2.2.2.2.2.2.2 (by simp [clobbered])).trans hfn),
        run_mov g.childStack (by exact k2),
        run_mov g.numArgs (by
          simp only [Cpu.set, hn, if_false]
          exact (k3 rn hn.1 hn.2.2.2.2.2.2.2 (by simp [clobbered])).trans hnn), run_li, run_li, run] at he
    subst he
    exact ⟨_, cloneSetup .aarch64 rf rn g hi gs desc arr c, rfl, rfl, rfl, rfl, rfl, rfl, fun hal => (congrArg (· % 16) k2).trans hal, ⟨Nat.le_of_eq k2, by
      exact Nat.le_trans (Nat.le_of_eq k2.symm) (Nat.le_add_right _ _), congrArg (· % 4) k2⟩, rfl, hq, fun _ _ => rfl, fun _ _ _ => rfl⟩
  | arm =>
    have hq : CloneRequest .arm (cloneSetup .arm rf rn g hi gs desc arr c).mem (cloneSetup .arm rf rn g hi gs desc arr c).reg g :=
      ⟨rfl, Nat.mod_eq_of_lt w1, rfl, rfl, rfl, rfl⟩
    obtain ⟨k1, k2, k3, -⟩ := hk (atCall (cloneSetup .arm rf rn g hi gs desc arr c)) hq
    simp only [cloneTaken, List.mem_cons, List.not_mem_nil, or_false, not_or] at hf hn
    have hfn : (cloneSetup .arm rf rn g hi gs desc arr c).reg rf = g.fn := by
      simp [cloneSetup, Cpu.set, hf, hne]
    have hnn : (cloneSetup .arm rf rn g hi gs desc arr c).reg rn = g.numArgs := by
      simp [cloneSetup, Cpu.set, hn]
    generalize he : run _ _ k (cloneCode .arm rf rn) (cloneSetup .arm rf rn g hi gs desc arr c) = e
    change run 4 13 k (.syscall :: .bnz 0 32 :: .mov 0 rf :: .mov 1 13 :: .mov 2 rn :: .li 11 0 :: .li 14 0 :: [.jmp]) _ = e at he
    rw [run] at he
    dsimp only at he
    rw [run, if_neg (by exact fun hh => hh (by exact congrArg (· % 2 ^ 32) k1)),
        run_mov g.fn (by exact (k3 rf hf.1 hf.2.2.2.2.2.2.2.1 (by simp [clobbered])).trans hfn),
        run_mov g.childStack (by exact k2),
        run_mov g.numArgs (by
          simp only [Cpu.set, hn, if_false]
          exact (k3 rn hn.1 hn.2.2.2.2.2.2.2.1 (by simp [clobbered])).trans hnn), run_li, run_li, run] at he
    subst he
    exact ⟨_, cloneSetup .arm rf rn g hi gs desc arr c, rfl, rfl, rfl, rfl, rfl, rfl, fun hal => (congrArg (· % 8) k2).trans hal, ⟨Nat.le_of_eq k2, by
      exact Nat.le_trans (Nat.le_of_eq k2.symm) (Nat.le_add_right _ _), congrArg (· % 4) k2⟩, rfl, hq, fun _ _ => rfl, fun _ _ _ => rfl⟩
  | riscv64 =>
    have hq : CloneRequest .riscv64 (cloneSetup .riscv64 rf rn g hi gs desc arr c).mem (cloneSetup .riscv64 rf rn g hi gs desc arr c).reg g :=
      ⟨rfl, Nat.mod_eq_of_lt w1, rfl, rfl, rfl, rfl⟩
    obtain ⟨k1, k2, k3, -⟩ := hk (atCall (cloneSetup .riscv64 rf rn g hi gs desc arr c)) hq
    simp only [cloneTaken, List.mem_cons, List.not_mem_nil, or_false, not_or] at hf hn
    have hfn : (cloneSetup .riscv64 rf rn g hi gs desc arr c).reg rf = g.fn := by
      simp [cloneSetup, Cpu.set, hf, hne]
    have hnn : (cloneSetup .riscv64 rf rn g hi gs desc arr c).reg rn = g.numArgs := by
      simp [cloneSetup, Cpu.set, hn]
    generalize he : run _ _ k (cloneCode .riscv64 rf rn) (cloneSetup .riscv64 rf rn g hi gs desc arr c) = e
    change run 8 2 k (.syscall :: .bnz 10 64 :: .mov 10 rf :: .mov 11 2 :: .mov 12 rn :: .li 8 0 :: .li 1 0 :: [.jmp]) _ = e at he
    rw [run] at he
    dsimp only at he
    rw [run, if_neg (by exact fun hh => hh (by exact congrArg (· % 2 ^ 64) k1)),
        run_mov g.fn (by exact (k3 rf hf.2.2.2.1 hf.2.1 (by simp [clobbered])).trans hfn),
        run_mov g.childStack (by exact k2),
        run_mov g.numArgs (by
          simp only [Cpu.set, hn, if_false]
          exact (k3 rn hn.2.2.2.1 hn.2.1 (by simp [clobbered])).trans hnn), run_li, run_li, run] at he
    subst he
    exact ⟨_, cloneSetup .riscv64 rf rn g hi gs desc arr c, rfl, rfl, rfl, rfl, rfl, rfl, fun hal => (congrArg (· % 16) k2).trans hal, ⟨Nat.le_of_eq k2, by
      exact Nat.le_trans (Nat.le_of_eq k2.symm) (Nat.le_add_right _ _), congrArg (· % 4) k2⟩, rfl, hq, fun _ _ => rfl, fun _ _ _ => rfl⟩

theorem parentResult_mod {ws v : Nat} (hws : ws = 4 ∨ ws = 8) (h : ParentResult ws v) : v % 2 ^ 32 ≠ 0 ∧ v % 2 ^ 64 ≠ 0 := by
  rcases h with ⟨h1, h2⟩ | ⟨e, h1, h2, h3⟩
  · omega
  · rcases hws with rfl | rfl <;> simp only [Nat.reduceMul] at h3 <;> omega

/-- **C43 (the parent).**  In the calling thread `clone` returns what the kernel returned (a thread id or a negated error number) and, x86's
restored `esi` and `ebp` included, leaves every register other than the result and those declared as clobbered as it was. -/
theorem C43_clone_parent (a : Arch) (rf rn : Reg) (g : CloneArgs) (hi gs desc arr : Nat) (c : Cpu) (k : Cpu → (Reg → Nat) × Mem) (v : Nat)
    (h : Operands a rf rn g desc arr c) (hv : ParentResult a.ws v) (hk : InParent a v k) :
    ∃ c1 c', run a.ws (spReg a) k (cloneCode a rf rn) (cloneSetup a rf rn g hi gs desc arr c) = .fell c1 ∧
      run a.ws (spReg a) k (cloneTail a) c1 = .fell c' ∧ c'.reg (retReg a) = v ∧ c'.calls.length = c.calls.length + 1 ∧
      ∀ r, r ≠ retReg a → r ∉ clobbered a → c'.reg r = (cloneSetup a rf rn g hi gs desc arr c).reg r := by
  obtain ⟨m32, m64⟩ := parentResult_mod (by cases a <;> simp [Arch.ws]) hv
  cases a with
  | x86 =>
    obtain ⟨c1, e1, e2, p1, p2, e5, -, -, -, e4⟩ := x86_pre (hi := hi) (gs := gs) h k
    obtain ⟨x1, x2, -⟩ := h.x86 rfl
    obtain ⟨k1, k3, k4⟩ := hk (atCall c1)
    have r4 : (atCall c1).reg 4 = c.reg 4 - 8 := by simp only [atCall, e1]; rfl
    have s4 : (k (atCall c1)).1 4 = c.reg 4 - 8 := (k3 4 (by decide) (by decide)).trans r4
    simp only [spReg, X86.sp, Arch.ws, r4] at k4
    have q1 : ldN .little 4 (k (atCall c1)).2 (c.reg 4 - 8) = c.reg 5 := by
      rw [← p1]; exact ldN_congr fun i hi => k4 _ (by omega) (by omega)
    have q2 : ldN .little 4 (k (atCall c1)).2 (c.reg 4 - 4) = c.reg 6 := by
      rw [← p2]; exact ldN_congr fun i hi => k4 _ (by omega) (by omega)
    have a1 : uadd 4 (c.reg 4 - 8) 4 = c.reg 4 - 4 := by rw [uadd_of_lt (by unfold umax; omega)]; omega
    have a2 : uadd 4 (c.reg 4 - 4) 4 = c.reg 4 := by rw [uadd_of_lt (by unfold umax; omega)]; omega
    refine ⟨⟨(k (atCall c1)).1, (k (atCall c1)).2, (c1.reg, c1.mem) :: c1.calls, c1.touched⟩, ?_⟩
    rw [show run (Arch.ws .x86) (spReg .x86) k (cloneCode .x86 rf rn) (cloneSetup .x86 rf rn g hi gs desc arr c) = _ from e4]
    generalize he : run (Arch.ws .x86) (spReg .x86) k (cloneTail .x86) _ = e
    change run 4 4 k (.pop 5 :: .pop 6 :: []) _ = e at he
    rw [run_pop (c.reg 4 - 4) (c.reg 5) (by exact (congrArg (uadd 4 · 4) s4).trans a1) (by exact (congrArg (ldN .little 4 (k (atCall c1)).2) s4).trans q1),
      run_pop (c.reg 4) (c.reg 6) (by exact a2) (by exact q2), run] at he
    subst he
    refine ⟨_, ?_, rfl, k1, ?_, ?_⟩
    · show run 4 4 k (.syscall :: .bnz 0 32 :: _) _ = _
      rw [run]
      dsimp only
      rw [run, if_pos (by exact fun hh => m32 ((congrArg (· % 2 ^ 32) k1).symm.trans hh))]
      rfl
    · show (c1.calls.length + 1) = _
      rw [e2]
    · intro r h0 _
      have hk3 := k3 r h0 (by simp [clobbered])
      rw [show (atCall c1).reg r = c1.reg r from rfl, e1] at hk3
      have h0' : r ≠ 0 := h0
      have hcs : (cloneSetup .x86 rf rn g hi gs desc arr c).reg r = if r = 7 then g.childTid else if r = 2 then g.parentTid else
          if r = 1 then uwsub 4 g.childStack 4 else if r = 3 then g.flags else if r = 0 then arr else c.reg r := rfl
      rw [hcs, show uwsub 4 g.childStack 4 = g.childStack - 4 from uwsub_of_le h.words.2.1 (by have := h.room; omega)]
      simp only [Cpu.set]
      by_cases r6 : r = 6
      · subst r6; rfl
      by_cases r5 : r = 5
      · subst r5; rfl
      by_cases r4 : r = 4
      · subst r4; rfl
      simp only [r6, r5, r4, if_false, hk3, x86AtCall, h0']
  | x86_64 =>
    obtain ⟨k1, k3, -⟩ := hk (atCall (cloneSetup .x86_64 rf rn g hi gs desc arr c))
    let d := atCall (cloneSetup .x86_64 rf rn g hi gs desc arr c)
    refine ⟨⟨(k d).1, (k d).2, d.calls, d.touched⟩, ⟨(k d).1, (k d).2, d.calls, d.touched⟩, ?_, rfl, k1, rfl, k3⟩
    show run 8 4 k (.syscall :: .bnz 0 32 :: _) _ = _
    rw [run]; dsimp only
    rw [run, if_pos (by exact fun hh => m32 ((congrArg (· % 2 ^ 32) k1).symm.trans hh))]; rfl
  | aarch64 =>
    obtain ⟨k1, k3, -⟩ := hk (atCall (cloneSetup .aarch64 rf rn g hi gs desc arr c))
    let d := atCall (cloneSetup .aarch64 rf rn g hi gs desc arr c)
    refine ⟨⟨(k d).1, (k d).2, d.calls, d.touched⟩, ⟨(k d).1, (k d).2, d.calls, d.touched⟩, ?_, rfl, k1, rfl, k3⟩
    show run 8 31 k (.syscall :: .bnz 0 64 :: _) _ = _
    rw [run]; dsimp only
    rw [run, if_pos (by exact fun hh => m64 ((congrArg (· % 2 ^ 64) k1).symm.trans hh))]; rfl
  | arm =>
    obtain ⟨k1, k3, -⟩ := hk (atCall (cloneSetup .arm rf rn g hi gs desc arr c))
    let d := atCall (cloneSetup .arm rf rn g hi gs desc arr c)
    refine ⟨⟨(k d).1, (k d).2, d.calls, d.touched⟩, ⟨(k d).1, (k d).2, d.calls, d.touched⟩, ?_, rfl, k1, rfl, k3⟩
    show run 4 13 k (.syscall :: .bnz 0 32 :: _) _ = _
    rw [run]; dsimp only
    rw [run, if_pos (by exact fun hh => m32 ((congrArg (· % 2 ^ 32) k1).symm.trans hh))]; rfl
  | riscv64 =>
    obtain ⟨k1, k3, -⟩ := hk (atCall (cloneSetup .riscv64 rf rn g hi gs desc arr c))
    let d := atCall (cloneSetup .riscv64 rf rn g hi gs desc arr c)
    refine ⟨⟨(k d).1, (k d).2, d.calls, d.touched⟩, ⟨(k d).1, (k d).2, d.calls, d.touched⟩, ?_, rfl, k1, rfl, k3⟩
    show run 8 2 k (.syscall :: .bnz 10 64 :: _) _ = _
    rw [run]; dsimp only
    rw [run, if_pos (by exact fun hh => m64 ((congrArg (· % 2 ^ 64) k1).symm.trans hh))]; rfl

/-! ## C44 -/

/-- **C44.**  On every architecture, for all registers, memory, address and length, and whatever the kernel's calls do to the registers and
memory: `munmap_and_exit_thread` makes exactly two system calls, `munmap(addr, len)` and then `exit(0)`, touches no memory at all in between
(or before, or after), and, should `exit` return, stops at an invalid instruction. -/
theorem C44_unmap_exit (a : Arch) (addr len : Nat) (c : Cpu) (k : Cpu → (Reg → Nat) × Mem) :
    ∃ c' r1 r2, run a.ws (spReg a) k (exitCode a) (exitSetup a addr len c) = .trapped c' ∧ c'.calls = r2 :: r1 :: c.calls ∧
      request a 2 r1.1 = (nrMunmap a, [addr, len]) ∧ request a 1 r2.1 = (nrExit a, [0]) ∧ c'.touched = c.touched ∧
      r1.2 = c.mem ∧ r2.2 = (k (atCall (exitSetup a addr len c))).2 := by
  cases a <;> exact ⟨_, _, _, rfl, rfl, rfl, rfl, rfl, rfl, rfl⟩

/-- **C40 (the system call).**  `relocation_mprotect_readonly` makes exactly one system call, `mprotect(ptr, len, PROT_READ)`, returns if it
returned 0 and traps otherwise. -/
theorem C40_mprotect_call (a : Arch) (ptr len : Nat) (c : Cpu) (k : Cpu → (Reg → Nat) × Mem) :
    ∃ c' r, c'.calls = r :: c.calls ∧ request a 3 r.1 = (nrMprotect a, [ptr, len, 1]) ∧
      run a.ws (spReg a) k (protectCode a) (protectSetup a ptr len c) = (if c'.reg (retReg a) = 0 then .fell c' else .trapped c') ∧
      c'.reg = (k (atCall (protectSetup a ptr len c))).1 := by
  cases a <;> exact ⟨⟨_, _, _, _⟩, _, rfl, rfl, rfl, rfl⟩

/-! ## C41 -/

theorem mask_cases (x : BitVec 32) : x &&& SA_SIGINFO = if x.getLsbD 2 then SA_SIGINFO else 0 := by
  apply BitVec.eq_of_getLsbD_eq
  intro i hi
  have h4 : ∀ i, i < 32 → SA_SIGINFO.getLsbD i = (i == 2) := by decide
  rw [BitVec.getLsbD_and, h4 i hi]
  by_cases h : i = 2
  · subst h
    cases x.getLsbD 2 <;> simp [SA_SIGINFO]
  · cases x.getLsbD 2 <;> simp [h, h4 i hi]

/-- **C41.**  Whatever the kernel does (`k`, giving any kind of result), `sigaction` makes one request and returns its result as it is.
Without an action, the request has none.  With an action, the request's has the same handler and mask; other than on riscv64 it has the same
flags, but with `SA_RESTORER` (bit 26) set, and the restorer for `SA_SIGINFO` handlers exactly if `SA_SIGINFO` (bit 2) is set in the action's
flags, the one for other handlers otherwise; on riscv64 the request has the action unchanged. -/
theorem C41_sigaction {R : Type} (a : Arch) (k : Nat → Option Action → R) (sig : Nat) (act : Action) :
    sigaction a k sig none = k sig none ∧
    ∃ act', sigaction a k sig (some act) = k sig (some act') ∧ act'.handler = act.handler ∧ act'.mask = act.mask ∧
      (a = .riscv64 → act' = act) ∧
      (a ≠ .riscv64 → (∀ i, i < 32 → act'.flags.getLsbD i = (act.flags.getLsbD i || i == 26)) ∧
        act'.restorer = some (if act.flags.getLsbD 2 then .info else .noinfo)) := by
  constructor
  · unfold sigaction; dsimp only; split <;> rfl
  · by_cases ha : a = .riscv64
    · exact ⟨act, by unfold sigaction; rw [if_pos ha], rfl, rfl, fun _ => rfl, fun h => absurd ha h⟩
    · refine ⟨{ act with flags := act.flags ||| SA_RESTORER, restorer := some (if act.flags.getLsbD 2 then .info else .noinfo) }, ?_, rfl, rfl,
        fun h => absurd h ha, fun _ => ⟨?_, rfl⟩⟩
      · unfold sigaction
        rw [if_neg ha]
        dsimp only
        rw [mask_cases, show (act.flags ||| SA_RESTORER).getLsbD 2 = act.flags.getLsbD 2 by
          rw [BitVec.getLsbD_or, show SA_RESTORER.getLsbD 2 = false by decide, Bool.or_false]]
        cases act.flags.getLsbD 2 <;> simp [SA_SIGINFO]
      · intro i hi
        have : ∀ i, i < 32 → SA_RESTORER.getLsbD i = (i == 26) := by decide
        rw [BitVec.getLsbD_or, this i hi]

/-! ## C42 -/

/-- The instructions of a restorer. -/
def restorerCode (a : Arch) : Restorer → List Instr
  | .info => sigreturnCode a
  | .noinfo => sigreturnNoinfoCode a
  | .other _ => []

/-- **C42.**  Other than on riscv64 (where the kernel provides the restorer), for every action installed through `sigaction`: the action that
the kernel gets has `SA_RESTORER` and a restorer; when a handler, entered with the frame at `F`, returns to that restorer, then (whatever the
other registers) the first system call made is the one for the kind of frame that the kernel pushed, with a stack pointer with which the kernel
looks for that frame at `F`. -/
theorem C42_sigreturn (a : Arch) (ha : a ≠ .riscv64) (sig : Nat) (act : Action) :
    ∃ act' R, (∀ {T : Type} (kk : Nat → Option Action → T), sigaction a kk sig (some act) = kk sig (some act')) ∧
      act'.flags.getLsbD 26 = true ∧ act'.restorer = some R ∧
      ∀ (F : Nat) (c : Cpu) (k : Cpu → (Reg → Nat) × Mem), F + 16 < 2 ^ (8 * a.ws) → c.reg (spReg a) = afterReturn a F →
        ∃ c' r, run a.ws (spReg a) k (restorerCode a R) c = .trapped c' ∧ c'.calls = r :: c.calls ∧
          r.1 (nrReg a) = returnNr a (frameFor a act'.flags) ∧ lookedUp a (frameFor a act'.flags) (r.1 (spReg a)) = F := by
  refine ⟨{ act with flags := act.flags ||| SA_RESTORER, restorer := some (if act.flags.getLsbD 2 then .info else .noinfo) },
    if act.flags.getLsbD 2 then .info else .noinfo, ?_, ?_, rfl, ?_⟩
  · intro T kk
    unfold sigaction
    rw [if_neg ha]
    dsimp only
    rw [mask_cases, show (act.flags ||| SA_RESTORER).getLsbD 2 = act.flags.getLsbD 2 by
      rw [BitVec.getLsbD_or, show SA_RESTORER.getLsbD 2 = false by decide, Bool.or_false]]
    cases act.flags.getLsbD 2 <;> simp [SA_SIGINFO]
  · dsimp only
    rw [BitVec.getLsbD_or, show SA_RESTORER.getLsbD 26 = true by decide, Bool.or_true]
  · intro F c k hF hsp
    have hfr : frameFor a (act.flags ||| SA_RESTORER) = match a with
        | .x86 | .arm => if act.flags.getLsbD 2 then Frame.rt else .plain
        | _ => .rt := by
      unfold frameFor
      rw [show (4#32 : BitVec 32) = SA_SIGINFO from rfl, mask_cases, show (act.flags ||| SA_RESTORER).getLsbD 2 = act.flags.getLsbD 2 by
        rw [BitVec.getLsbD_or, show SA_RESTORER.getLsbD 2 = false by decide, Bool.or_false]]
      cases a <;> cases act.flags.getLsbD 2 <;> simp [SA_SIGINFO]
    dsimp only
    rw [hfr]
    cases a with
    | riscv64 => exact absurd rfl ha
    | x86_64 =>
      have hsp' : c.reg 4 = F + 8 := hsp
      cases act.flags.getLsbD 2 <;> refine ⟨_, _, rfl, rfl, rfl, ?_⟩ <;> show c.reg 4 - 8 = F <;> omega
    | aarch64 =>
      have hsp' : c.reg 31 = F := hsp
      cases act.flags.getLsbD 2 <;> refine ⟨_, _, rfl, rfl, rfl, ?_⟩ <;> exact hsp'
    | arm =>
      have hsp' : c.reg 13 = F := hsp
      cases act.flags.getLsbD 2 <;> refine ⟨_, _, rfl, rfl, rfl, ?_⟩ <;> exact hsp'
    | x86 =>
      have hsp' : c.reg 4 = F + 4 := hsp
      cases act.flags.getLsbD 2
      · refine ⟨_, _, rfl, rfl, rfl, ?_⟩
        show uadd 4 (c.reg 4) 4 - 8 = F
        rw [hsp', uadd_of_lt (by unfold umax; exact (by simp only [Arch.ws] at hF; omega))]; omega
      · refine ⟨_, _, rfl, rfl, rfl, ?_⟩
        show c.reg 4 - 4 = F
        omega

/-! ## C46 -/

/-- **C46, keys below 2^32** (all keys on the 32-bit targets).  A supported key is answered with the kernel's value; every other key panics. -/
theorem C46_getauxval_partial (hwcap hwcap2 minsigstksz type : Nat) (h : type < 2 ^ 32) :
    getauxval hwcap hwcap2 minsigstksz type =
      if type = 16 then some hwcap else if type = 26 then some hwcap2 else if type = 51 then some minsigstksz else none := by
  unfold getauxval
  rw [Nat.mod_eq_of_lt h]; rfl

/-- **C46 for all keys of 64-bit targets**: what happens is decided by the low 32 bits of the key. -/
theorem C46_low_half (hwcap hwcap2 minsigstksz type : Nat) :
    getauxval hwcap hwcap2 minsigstksz type = getauxval hwcap hwcap2 minsigstksz (type % 2 ^ 32) := by
  unfold getauxval; rw [Nat.mod_mod]

/-- So **C46 is false on 64-bit targets**: key `2^32 + 16` does not panic but gets the value of `AT_HWCAP`. -/
theorem C46_false : ∃ type, type < 2 ^ 64 ∧ type ≠ 16 ∧ ∀ hwcap hwcap2 minsigstksz, getauxval hwcap hwcap2 minsigstksz type = some hwcap :=
  ⟨2 ^ 32 + 16, by decide, by decide, fun _ _ _ => rfl⟩

end Origin.Asm

/-! ## Concrete cases -/

namespace Origin.Asm
open Origin Origin.Spec Origin.Asm.Spec

/-- A kernel in the child, and in the parent. -/
def childKernel (a : Arch) : Cpu → (Reg → Nat) × Mem := fun c =>
  (fun r => if r = retReg a then 0 else if r = spReg a then c.reg (argReg a 1) else c.reg r, c.mem)
def parentKernel (a : Arch) (v : Nat) : Cpu → (Reg → Nat) × Mem := fun c => (fun r => if r = retReg a then v else c.reg r, c.mem)

theorem childKernel_ok (a : Arch) (g : CloneArgs) : InChild a g (childKernel a) := by
  intro c _
  refine ⟨by simp [childKernel], ?_, fun r h1 h2 _ => by simp [childKernel, h1, h2], fun _ => rfl⟩
  cases a <;> simp [childKernel, spReg, retReg, X86.sp]

theorem parentKernel_ok (a : Arch) (v : Nat) : InParent a v (parentKernel a v) :=
  fun c => ⟨by simp [parentKernel], fun r h _ => by simp [parentKernel, h], fun _ _ _ => rfl⟩

/-- Arguments, and a machine state with the caller's stack at `0x9000`. -/
def demoArgs : CloneArgs := ⟨0x7d0f00, 0x5fe0, 0x6010, 0x6010, 0x6000, 0x1234, 3⟩
def demoCpu (a : Arch) : Cpu := ⟨fun r => if r = spReg a then 0x9000 else if r = fpReg a then 0 else 7 * r, fun _ => 0, [], []⟩

theorem demo_operands (a : Arch) : Operands a 5 6 demoArgs 0x9100 0x9200 (demoCpu a) where
  regs := by cases a <;> decide
  words := by cases a <;> decide
  room := by decide
  x86 := by rintro rfl; decide

/-- The theorems about `clone` apply on all five targets: the child enters with function `0x1234`, pointer `0x5fe0`, three arguments. -/
example (a : Arch) : ∃ c', run a.ws (spReg a) (childKernel a) (cloneCode a 5 6) (cloneSetup a 5 6 demoArgs 1 0x63 0x9100 0x9200 (demoCpu a)) =
    .entered c' ∧ fnArg a c' 0 = 0x1234 ∧ fnArg a c' 1 = 0x5fe0 ∧ fnArg a c' 2 = 3 ∧ EntryAligned a (c'.reg (spReg a)) := by
  obtain ⟨c', -, h1, h2, h3, h4, -, -, h5, -⟩ :=
    C43_clone_child a 5 6 demoArgs 1 0x63 0x9100 0x9200 (demoCpu a) _ (demo_operands a) (childKernel_ok a _)
  exact ⟨c', h1, h2, h3, h4, h5 (by cases a <;> decide)⟩

/-- And the parent gets thread id 4321, or an error number, with its stack pointer back. -/
example (a : Arch) : ∃ c1 c', run a.ws (spReg a) (parentKernel a 4321) (cloneCode a 5 6)
    (cloneSetup a 5 6 demoArgs 1 0x63 0x9100 0x9200 (demoCpu a)) = .fell c1 ∧
    run a.ws (spReg a) (parentKernel a 4321) (cloneTail a) c1 = .fell c' ∧ c'.reg (retReg a) = 4321 ∧ c'.reg (spReg a) = 0x9000 := by
  obtain ⟨c1, c', h1, h2, h3, -, h4⟩ := C43_clone_parent a 5 6 demoArgs 1 0x63 0x9100 0x9200 (demoCpu a) _ 4321 (demo_operands a)
    (Or.inl (by decide)) (parentKernel_ok a 4321)
  refine ⟨c1, c', h1, h2, h3, ?_⟩
  rw [h4 _ (by cases a <;> decide) (by cases a <;> decide)]
  cases a <;> rfl

/-- `_start` on all five targets. -/
example (a : Arch) : ∃ c', run a.ws (spReg a) (childKernel a) (startCode a) (demoCpu a) = .entered c' ∧ fnArg a c' 0 = 0x9000 ∧ retAddr a c' = 0 ∧
    EntryAligned a (c'.reg (spReg a)) := by
  have e : (demoCpu a).reg (spReg a) = 0x9000 := by simp [demoCpu]
  obtain ⟨c', h1, h2, h3, -, h5, -⟩ := C43_start a (childKernel a) (demoCpu a) (by rw [e]; decide)
    (by rw [e]; cases a <;> decide) (by intro _; cases a <;> rfl)
  exact ⟨c', h1, h2.trans e, h3, h5 (by rw [e]; cases a <;> decide)⟩

/-- On 32-bit x86, a handler without `SA_SIGINFO` returns by `sigreturn`, one with it by `rt_sigreturn`. -/
example : frameFor .x86 (0x10000000#32 ||| SA_RESTORER) = .plain ∧ frameFor .x86 (0x10000004#32 ||| SA_RESTORER) = .rt := by decide

end Origin.Asm
