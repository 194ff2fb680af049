import Verif.Spec.Asm
import Verif.Proof.Fields
/-!
# Running the assembly sequences
-/

namespace Origin.Asm
open Origin.Asm.Spec

/-- A sequence's final machine state. -/
def End.cpu : End → Cpu
  | .entered c | .trapped c | .fell c => c

theorem Cpu.set_same (c : Cpu) (r v : Nat) : (c.set r v).reg r = v := by simp [Cpu.set]
theorem Cpu.set_other (c : Cpu) {r x : Nat} (v : Nat) (h : x ≠ r) : (c.set r v).reg x = c.reg x := by simp [Cpu.set, h]

/-- What the compiler guarantees about the operands of `clone`: the registers chosen for `fn_` and `num_args` are different and not among
those with other uses; on x86, the temporary objects, the word below the child's stack and the two words below the stack pointer are apart. -/
structure Operands (a : Arch) (rf rn : Reg) (g : CloneArgs) (desc arr : Nat) (c : Cpu) : Prop where
  regs : rf ≠ rn ∧ rf ∉ cloneTaken a ∧ rn ∉ cloneTaken a
  words : g.flags < 2 ^ 32 ∧ g.childStack < 2 ^ (8 * a.ws) ∧ g.fn < 2 ^ (8 * a.ws) ∧ g.numArgs < 2 ^ (8 * a.ws) ∧ g.newtls < 2 ^ (8 * a.ws)
  room : 64 ≤ g.childStack
  x86 : a = .x86 → 8 ≤ c.reg 4 ∧ c.reg 4 < 2 ^ 32 ∧ c.reg 5 < 2 ^ 32 ∧ c.reg 6 < 2 ^ 32 ∧ desc + 16 ≤ 2 ^ 32 ∧ arr + 12 < 2 ^ 32 ∧
    (desc + 16 ≤ arr ∨ arr + 12 ≤ desc) ∧ (desc + 16 ≤ g.childStack - 4 ∨ g.childStack ≤ desc) ∧
    (desc + 16 ≤ c.reg 4 - 8 ∨ c.reg 4 ≤ desc) ∧
    (arr + 12 ≤ g.childStack - 4 ∨ g.childStack ≤ arr) ∧ (arr + 12 ≤ c.reg 4 - 8 ∨ c.reg 4 ≤ arr) ∧
    (g.childStack ≤ c.reg 4 - 8 ∨ c.reg 4 ≤ g.childStack - 4)

theorem run_push {ws : Nat} {sp : Reg} {k : Cpu → (Reg → Nat) × Mem} {s : Reg} {is : List Instr} {c : Cpu} (a v : Nat)
    (h1 : uwsub ws (c.reg sp) ws = a) (h2 : c.reg s = v) : run ws sp k (.push s :: is) c =
      run ws sp k is ⟨(c.set sp a).reg, stN .little ws c.mem a v, c.calls, a :: c.touched⟩ := by
  subst h1 h2; rfl

theorem run_pop {ws : Nat} {sp : Reg} {k : Cpu → (Reg → Nat) × Mem} {d : Reg} {is : List Instr} {c : Cpu} (a v : Nat)
    (h1 : uadd ws (c.reg sp) ws = a) (h2 : ldN .little ws c.mem (c.reg sp) = v) : run ws sp k (.pop d :: is) c =
      run ws sp k is ⟨((c.set sp a).set d v).reg, c.mem, c.calls, c.reg sp :: c.touched⟩ := by
  subst h1 h2; rfl

theorem run_load {ws : Nat} {sp : Reg} {k : Cpu → (Reg → Nat) × Mem} {d b : Reg} {off : Nat} {is : List Instr} {c : Cpu} (a v : Nat)
    (h1 : uadd ws (c.reg b) off = a) (h2 : ldN .little ws c.mem a = v) : run ws sp k (.load d b off :: is) c =
      run ws sp k is ⟨(c.set d v).reg, c.mem, c.calls, a :: c.touched⟩ := by
  subst h1 h2; rfl

theorem run_mov {ws : Nat} {sp : Reg} {k : Cpu → (Reg → Nat) × Mem} {d s : Reg} {is : List Instr} {c : Cpu} (v : Nat)
    (h1 : c.reg s = v) : run ws sp k (.mov d s :: is) c = run ws sp k is ⟨(c.set d v).reg, c.mem, c.calls, c.touched⟩ := by
  subst h1; rfl

theorem run_li {ws : Nat} {sp : Reg} {k : Cpu → (Reg → Nat) × Mem} {d v : Nat} {is : List Instr} {c : Cpu} :
    run ws sp k (.li d v :: is) c = run ws sp k is ⟨(c.set d v).reg, c.mem, c.calls, c.touched⟩ := rfl

/-- x86: the machine state at the system call. -/
def x86AtCall (g : CloneArgs) (desc : Nat) (c : Cpu) : Reg → Nat := fun x =>
  if x = 0 then 120 else if x = 6 then desc else if x = 5 then g.numArgs else if x = 4 then c.reg 4 - 8 else if x = 7 then g.childTid
  else if x = 2 then g.parentTid else if x = 1 then g.childStack - 4 else if x = 3 then g.flags else c.reg x

set_option maxHeartbeats 1000000 in
theorem x86_pre {rf rn : Reg} {g : CloneArgs} {hi gs desc arr : Nat} {c : Cpu} (h : Operands .x86 rf rn g desc arr c)
    (k : Cpu → (Reg → Nat) × Mem) : ∃ c1 : Cpu, c1.reg = x86AtCall g desc c ∧ c1.calls = c.calls ∧
      ldN .little 4 c1.mem (c.reg 4 - 8) = c.reg 5 ∧ ldN .little 4 c1.mem (c.reg 4 - 4) = c.reg 6 ∧
      ldN .little 4 c1.mem (g.childStack - 4) = g.fn ∧ ldN .little 4 c1.mem (desc + 4) = g.newtls ∧
      (ldN .little 4 c1.mem desc = (gs >>> 3) % 2 ^ 32 ∧ ldN .little 4 c1.mem (desc + 8) = 0xfffff ∧ ldN .little 4 c1.mem (desc + 12) = descBits) ∧
      (∀ x, (x < g.childStack - 4 ∨ g.childStack ≤ x) → (x < desc ∨ desc + 16 ≤ x) → (x < arr ∨ arr + 12 ≤ x) →
        (x < c.reg 4 - 8 ∨ c.reg 4 ≤ x) → c1.mem x = c.mem x) ∧
      run 4 4 k (cloneCode .x86 rf rn) (cloneSetup .x86 rf rn g hi gs desc arr c) =
        run 4 4 k ((cloneCode .x86 rf rn).drop 5) c1 := by
  obtain ⟨x1, x2, x3, x4, x5, x6, y1, y2, y3, y4, y5, y6⟩ := h.x86 rfl
  obtain ⟨w1, w2, w3, w4, w5⟩ := h.words
  have hr := h.room
  simp only [Arch.ws] at w2 w3 w4 w5
  have e0 : uwsub 4 g.childStack 4 = g.childStack - 4 := uwsub_of_le w2 (by omega)
  have e1 : uwsub 4 (c.reg 4) 4 = c.reg 4 - 4 := uwsub_of_le x2 (by omega)
  have e2 : uwsub 4 (c.reg 4 - 4) 4 = c.reg 4 - 8 := by rw [uwsub_of_le (by unfold umax; omega) (by omega)]; omega
  have a0 : uadd 4 arr 0 = arr := uadd_of_lt (by unfold umax; omega)
  have a4 : uadd 4 arr 4 = arr + 4 := uadd_of_lt (by unfold umax; omega)
  have a8 : uadd 4 arr 8 = arr + 8 := uadd_of_lt (by unfold umax; omega)
  let m1 := stN .little 4 (stDesc c.mem desc (gs >>> 3) g.newtls) (g.childStack - 4) g.fn
  let m2 := stN .little 4 (st2 m1 arr desc 120) (arr + 8) g.numArgs
  let m3 := stN .little 4 (stN .little 4 m2 (c.reg 4 - 4) (c.reg 6)) (c.reg 4 - 8) (c.reg 5)
  have l8 : ldN .little 4 m3 (arr + 8) = g.numArgs := by
    simp only [m3, m2]
    rw [ldN_stN_disj (by omega), ldN_stN_disj (by omega), ldN_stN_of_lt w4]
  have l0 : ldN .little 4 m3 arr = desc := by
    simp only [m3, m2, st2]
    rw [ldN_stN_disj (by omega), ldN_stN_disj (by omega), ldN_stN_disj (by omega), ldN_stN_disj (by omega), ldN_stN_of_lt (by omega)]
  have l4 : ldN .little 4 m3 (arr + 4) = 120 := by
    simp only [m3, m2, st2]
    rw [ldN_stN_disj (by omega), ldN_stN_disj (by omega), ldN_stN_disj (by omega), ldN_stN_of_lt (by omega)]
  refine ⟨⟨x86AtCall g desc c, m3, c.calls, (arr + 4) :: arr :: (arr + 8) :: (c.reg 4 - 8) :: (c.reg 4 - 4) :: c.touched⟩, rfl, rfl,
    ?_, ?_, ?_, ?_, ⟨?_, ?_, ?_⟩, ?_, ?_⟩
  · simp only [m3]; rw [ldN_stN_of_lt x3]
  · simp only [m3]; rw [ldN_stN_disj (by omega), ldN_stN_of_lt x4]
  · simp only [m3, m2, m1, st2]
    rw [ldN_stN_disj (by omega), ldN_stN_disj (by omega), ldN_stN_disj (by omega), ldN_stN_disj (by omega), ldN_stN_disj (by omega),
      ldN_stN_of_lt w3]
  · simp only [m3, m2, m1, st2, stDesc]
    rw [ldN_stN_disj (by omega), ldN_stN_disj (by omega), ldN_stN_disj (by omega), ldN_stN_disj (by omega), ldN_stN_disj (by omega),
      ldN_stN_disj (by omega), ldN_stN_disj (by omega), ldN_stN_disj (by omega), ldN_stN_of_lt w5]
  · simp only [m3, m2, m1, st2, stDesc]
    rw [ldN_stN_disj (by omega), ldN_stN_disj (by omega), ldN_stN_disj (by omega), ldN_stN_disj (by omega), ldN_stN_disj (by omega),
      ldN_stN_disj (by omega), ldN_stN_disj (by omega), ldN_stN_disj (by omega), ldN_stN_disj (by omega), ldN_stN_same]
  · simp only [m3, m2, m1, st2, stDesc]
    rw [ldN_stN_disj (by omega), ldN_stN_disj (by omega), ldN_stN_disj (by omega), ldN_stN_disj (by omega), ldN_stN_disj (by omega),
      ldN_stN_disj (by omega), ldN_stN_disj (by omega), ldN_stN_of_lt (by decide)]
  · simp only [m3, m2, m1, st2, stDesc]
    rw [ldN_stN_disj (by omega), ldN_stN_disj (by omega), ldN_stN_disj (by omega), ldN_stN_disj (by omega), ldN_stN_disj (by omega),
      ldN_stN_disj (by omega), ldN_stN_of_lt (by decide)]
  · intro x q1 q2 q3 q4
    simp only [m3, m2, m1, st2, stDesc]
    repeat rw [stN_frame (by omega)]
  · have hs : cloneSetup .x86 rf rn g hi gs desc arr c = ⟨(((((c.set 0 arr).set 3 g.flags).set 1 (g.childStack - 4)).set 2 g.parentTid).set 7
        g.childTid).reg, m2, c.calls, c.touched⟩ := by
      simp only [cloneSetup, e0]; rfl
    rw [hs]
    show run 4 4 k (.push 6 :: .push 5 :: .load 5 0 8 :: .load 6 0 0 :: .load 0 0 4 :: _) _ = _
    rw [run_push (c.reg 4 - 4) (c.reg 6) (by exact e1) (by rfl), run_push (c.reg 4 - 8) (c.reg 5) (by exact e2) (by rfl),
      run_load (arr + 8) g.numArgs (by exact a8) (by exact l8), run_load arr desc (by exact a0) (by exact l0),
      run_load (arr + 4) 120 (by exact a4) (by exact l4)]
    show run 4 4 k _ _ = run 4 4 k _ _
    refine congrArg (run 4 4 k _) (congrArg (fun r : Reg → Nat => (⟨r, m3, c.calls,
      (arr + 4) :: arr :: (arr + 8) :: (c.reg 4 - 8) :: (c.reg 4 - 4) :: c.touched⟩ : Cpu)) ?_)
    funext x
    simp only [x86AtCall, Cpu.set]
    split <;> try rfl
    split <;> try rfl
    split <;> try rfl
    split <;> rfl


/-! ### children -/

/-- x86: the child's instructions. -/
theorem x86_child {k : Cpu → (Reg → Nat) × Mem} {rf rn : Reg} {fn st n : Nat} {c : Cpu} (h0 : c.reg 0 = 0) (h4 : c.reg 4 = st - 4)
    (h5 : c.reg 5 = n) (hfn : ldN .little 4 c.mem (st - 4) = fn) (hst : 64 ≤ st) (hlt : st < 2 ^ 32) :
    ∃ r t, run 4 4 k ((cloneCode .x86 rf rn).drop 6) c = .entered
      ⟨r, stN .little 4 (stN .little 4 (stN .little 4 (stN .little 4 (stN .little 4 c.mem (st - 4) 0) (st - 8) n) (st - 12) st) (st - 16) fn)
        (st - 20) 0, c.calls, t⟩ ∧ r 4 = st - 20 ∧ r 5 = 0 := by
  have p : uadd 4 (c.reg 4) 4 = st := by rw [h4, uadd_of_lt (by unfold umax; omega)]; omega
  have s0 : uwsub 4 st 4 = st - 4 := uwsub_of_le hlt (by omega)
  have s1 : ∀ j, j ≤ 16 → uwsub 4 (st - j) 4 = st - (j + 4) := fun j hj => by
    rw [uwsub_of_le (by unfold umax; omega) (by omega)]; omega
  show ∃ r t, run 4 4 k (.bnz 0 32 :: .pop 7 :: .mov 6 4 :: .push 0 :: .push 5 :: .push 6 :: .push 7 :: .li 5 0 :: .push 0 :: [.jmp]) c = _ ∧ _
  rw [run, if_neg (by rw [h0]; simp), run_pop st fn (by exact p) (by rw [h4]; exact hfn), run_mov st (by rfl),
    run_push (st - 4) 0 (by exact s0) (by exact h0), run_push (st - 8) n (by exact s1 4 (by omega)) (by exact h5),
    run_push (st - 12) st (by exact s1 8 (by omega)) (by rfl), run_push (st - 16) fn (by exact s1 12 (by omega)) (by rfl),
    run_li, run_push (st - 20) 0 (by exact s1 16 (by omega)) (by exact h0)]
  exact ⟨_, _, rfl, rfl, rfl⟩

end Origin.Asm
