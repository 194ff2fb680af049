import Verif.Model.Startup
import Verif.Spec.Startup
/-!
# C33: argc, argv, envp and the auxiliary vector are found
-/

namespace Origin.Boot

variable {w : Nat} {ws : Nat} {mem : Nat → BitVec w} {sp : Nat} {argv envp auxv : List (BitVec w)}

theorem Words.cons {a : Nat} {x : BitVec w} {xs : List (BitVec w)} (h : Words ws mem a (x :: xs)) :
    mem a = x ∧ Words ws mem (a + ws) xs := by
  constructor
  · have := h 0 (by simp)
    rw [Nat.zero_mul, Nat.add_zero] at this
    exact this
  · intro i hi
    have := h (i + 1) (by simp only [List.length_cons]; omega)
    simp only [List.getElem_cons_succ] at this
    rw [← this]
    congr 1
    rw [Nat.add_mul]; omega

theorem Words.append {a : Nat} {xs ys : List (BitVec w)} (h : Words ws mem a (xs ++ ys)) :
    Words ws mem a xs ∧ Words ws mem (a + xs.length * ws) ys := by
  constructor
  · intro i hi
    rw [h i (by simp only [List.length_append]; omega), List.getElem_append_left hi]
  · intro i hi
    have := h (xs.length + i) (by simp only [List.length_append]; omega)
    rw [List.getElem_append_right (by omega)] at this
    simp only [Nat.add_sub_cancel_left] at this
    rw [← this]
    congr 1
    rw [Nat.add_mul]; omega

/-- **C33.** On every initial stack with fewer than 2³¹ arguments, constructors get the argument count,
and `argv` and `envp` point to the words that are the argument pointers (then NULL) and the environment
pointers (then NULL); `origin_main`'s `argc` is the argument count; and the debug assertions hold. -/
theorem C33_args (h32 : 32 ≤ w) (hst : InitialStack ws mem sp argv envp auxv) (hn : argv.length < 2 ^ 31) :
    (computeArgs ws mem sp).argc.toNat = argv.length ∧
    (computeArgs ws mem sp).argv = sp + ws ∧
    (computeArgs ws mem sp).envp = sp + (argv.length + 2) * ws ∧
    Words ws mem (computeArgs ws mem sp).argv (argv ++ [0#w]) ∧
    Words ws mem (computeArgs ws mem sp).envp (envp ++ [0#w]) ∧
    mainArgc w (computeArgs ws mem sp) = BitVec.ofNat w argv.length ∧
    argsAssert ws mem sp = true := by
  obtain ⟨h0, h1⟩ := hst.cons
  have hpow : (2 : Nat) ^ 31 ≤ 2 ^ w := Nat.pow_le_pow_right (by omega) (by omega)
  have hc : (computeArgs ws mem sp).argc = BitVec.ofNat 32 argv.length := by
    simp only [computeArgs, h0]
    apply BitVec.eq_of_toNat_eq
    simp only [BitVec.toNat_setWidth, BitVec.toNat_ofNat]
    rw [Nat.mod_eq_of_lt (show argv.length < 2 ^ w by omega)]
  have hcn : (computeArgs ws mem sp).argc.toNat = argv.length := by
    rw [hc, BitVec.toNat_ofNat]; omega
  have hargv : (computeArgs ws mem sp).argv = sp + ws := by simp [computeArgs]
  have henvp : (computeArgs ws mem sp).envp = sp + (argv.length + 2) * ws := by
    have : (computeArgs ws mem sp).envp = sp + 1 * ws + ((computeArgs ws mem sp).argc.toNat + 1) * ws := rfl
    rw [this, hcn]
    simp only [Nat.add_mul]; omega
  have hmsb : (computeArgs ws mem sp).argc.msb = false := by
    rw [BitVec.msb_eq_decide, hcn]
    simp; omega
  have hmain : mainArgc w (computeArgs ws mem sp) = BitVec.ofNat w argv.length := by
    unfold mainArgc
    rw [BitVec.signExtend_eq_setWidth_of_msb_false hmsb]
    apply BitVec.eq_of_toNat_eq
    rw [BitVec.toNat_setWidth, hcn, BitVec.toNat_ofNat]
  obtain ⟨-, h3⟩ := h1.append
  refine ⟨hcn, hargv, henvp, ?_, ?_, hmain, ?_⟩
  · rw [hargv]
    have : argv ++ 0#w :: (envp ++ 0#w :: auxv) = (argv ++ [0#w]) ++ (envp ++ 0#w :: auxv) := by simp
    rw [this] at h1
    exact h1.append.1
  · have h4 := h3.cons.2
    have : envp ++ 0#w :: auxv = (envp ++ [0#w]) ++ auxv := by simp
    rw [this] at h4
    rw [henvp]
    have e : sp + ws + argv.length * ws + ws = sp + (argv.length + 2) * ws := by simp only [Nat.add_mul]; omega
    rw [← e]
    exact h4.append.1
  · have hnull := h3.cons.1
    have hm : (computeArgs ws mem sp).argc.signExtend w = BitVec.ofNat w argv.length := hmain
    simp only [argsAssert, hargv, hcn, h0, hm, hnull, decide_true, Bool.and_true]
    rw [BitVec.toInt_eq_toNat_of_msb hmsb]
    exact decide_eq_true (Int.natCast_nonneg _)

theorem auxpLoop_eq (hnn : ∀ x ∈ envp, x ≠ 0#w) : ∀ (p fuel : Nat), envp.length < fuel →
    Words ws mem p (envp ++ 0#w :: auxv) → auxpLoop ws mem fuel p = some (p + (envp.length + 1) * ws) := by
  induction envp with
  | nil =>
    intro p fuel hf h
    obtain ⟨fuel, rfl⟩ : ∃ k, fuel = k + 1 := ⟨fuel - 1, by simp at hf; omega⟩
    have := h.cons.1
    simp only [auxpLoop]
    rw [if_pos this]; simp
  | cons x xs ih =>
    intro p fuel hf h
    simp only [List.length_cons] at hf
    obtain ⟨fuel, rfl⟩ : ∃ k, fuel = k + 1 := ⟨fuel - 1, by omega⟩
    have hx := h.cons.1
    simp only [auxpLoop]
    rw [if_neg (by rw [hx]; exact hnn x List.mem_cons_self), Nat.one_mul,
      ih (fun y hy => hnn y (List.mem_cons_of_mem _ hy)) (p + ws) fuel (by omega) h.cons.2]
    simp only [List.length_cons, Nat.add_mul]; congr 1; omega

/-- **C33 (auxiliary vector).** On every initial stack (environment pointers are not NULL), the search
for the auxiliary vector from the computed `envp` ends, after one step per environment variable, with the
address of the auxiliary vector. -/
theorem C33_auxv (h32 : 32 ≤ w) (hst : InitialStack ws mem sp argv envp auxv) (hn : argv.length < 2 ^ 31)
    (hnn : ∀ x ∈ envp, x ≠ 0#w) :
    ∃ auxp, (∀ fuel > envp.length, computeAuxp ws mem fuel (computeArgs ws mem sp).envp = some auxp) ∧
      auxp = sp + (argv.length + envp.length + 3) * ws ∧ Words ws mem auxp auxv := by
  obtain ⟨-, -, henvp, -⟩ := C33_args h32 hst hn
  have h3 := hst.cons.2.append.2.cons.2
  have e : sp + ws + argv.length * ws + ws = sp + (argv.length + 2) * ws := by simp only [Nat.add_mul]; omega
  rw [e] at h3
  refine ⟨_, fun fuel hf => ?_, rfl, ?_⟩
  · rw [henvp]
    unfold computeAuxp
    rw [auxpLoop_eq hnn _ _ hf h3]
    simp only [Nat.add_mul]; congr 1; omega
  · have := h3.append.2.cons.2
    have e2 : sp + (argv.length + envp.length + 3) * ws = sp + (argv.length + 2) * ws + envp.length * ws + ws := by
      simp only [Nat.add_mul]; omega
    rw [e2]; exact this

/-- Non-vacuity: a stack with two arguments, one environment variable and an auxiliary entry. -/
example : InitialStack (w := 64) 8
    (fun a => ([2, 0x1000, 0x1010, 0, 0x2000, 0, 6, 4096, 0, 0] : List (BitVec 64)).getD ((a - 0x7000) / 8) 0) 0x7000
    [0x1000, 0x1010] [0x2000] [6, 4096, 0, 0] := by
  intro i hi
  simp at hi
  have : i = 0 ∨ i = 1 ∨ i = 2 ∨ i = 3 ∨ i = 4 ∨ i = 5 ∨ i = 6 ∨ i = 7 ∨ i = 8 ∨ i = 9 := by omega
  rcases this with h | h | h | h | h | h | h | h | h | h <;> subst h <;> rfl

end Origin.Boot
