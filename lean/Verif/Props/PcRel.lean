import Verif.Model.PcRel
/-!
# C52: addresses before relocation
-/

namespace Origin.PcRel
open Origin

/-- How far the symbol can be from the code, for the instructions used (a linker reports an error beyond): 2 GiB, 4 GiB of pages on aarch64; the 32-bit targets
have no limit. -/
def InReach (a : Arch) (P S : Int) : Prop :=
  match a with
  | .x86_64 => -2 ^ 31 ≤ S - (P + 7) ∧ S - (P + 7) < 2 ^ 31
  | .aarch64 => -2 ^ 20 ≤ S / 4096 - P / 4096 ∧ S / 4096 - P / 4096 < 2 ^ 20
  | .riscv64 => -2 ^ 31 ≤ S - P + 0x800 ∧ S - P + 0x800 < 2 ^ 31
  | _ => True

theorem signed_field {w : Nat} {v : Int} (hw : 0 < w) (h1 : -2 ^ (w - 1) ≤ v) (h2 : v < 2 ^ (w - 1)) : signed w (field w v) = v := by
  have hp : (2:Int) ^ w = 2 ^ (w - 1) + 2 ^ (w - 1) := by
    have h : (2:Int) ^ (w - 1 + 1) = 2 ^ (w - 1) * 2 := Int.pow_succ 2 (w - 1)
    rw [Nat.sub_add_cancel hw] at h
    omega
  unfold signed field
  by_cases h0 : 0 ≤ v
  · rw [Int.emod_eq_of_lt h0 (by omega), if_pos h2]
  · have : v % 2 ^ w = v + 2 ^ w := by
      rw [← Int.add_emod_right, Int.emod_eq_of_lt (by omega) (by omega)]
    rw [this, if_neg (by omega)]; omega

/-- **C52.** On every architecture, wherever the program was linked and wherever it was loaded (on aarch64: by any multiple of 4096 bytes), before any
relocation was applied: `ehdr_addr` and `dynamic_table_addr` return the symbol's run-time address. -/
theorem C52_sym_addr (a : Arch) (len G P S bias : Int) (hr : InReach a P S) (hb : a = .aarch64 → bias % 4096 = 0) :
    symAddr a len G P S bias = (S + bias) % 2 ^ (8 * a.ws) := by
  cases a with
  | x86_64 =>
    simp only [symAddr, addrX86_64, InReach, Arch.ws] at *
    rw [show S - 4 - (P + 3) = S - (P + 7) by omega, signed_field (by decide) hr.1 hr.2]
    congr 1; omega
  | x86 => simp only [symAddr, addrX86, field, Arch.ws]; omega
  | aarch64 =>
    have hb := hb rfl
    simp only [symAddr, addrAArch64, InReach, Arch.ws] at *
    rw [signed_field (by decide) hr.1 hr.2]
    simp only [field]
    omega
  | arm => simp only [symAddr, addrArm, field, Arch.ws]; omega
  | riscv64 =>
    simp only [symAddr, addrRiscv64, InReach, Arch.ws] at *
    have e : signed 20 (field 20 ((S - P + 0x800) / 4096)) = (S - P + 0x800) / 4096 :=
      signed_field (by decide) (by simp only [Nat.reduceSub]; omega) (by simp only [Nat.reduceSub]; omega)
    rw [e]
    have e2 : signed 12 (field 12 (S - P)) = S - P - (S - P + 0x800) / 4096 * 4096 := by
      have h : signed 12 (field 12 (S - P)) = if (S - P) % 4096 < 2048 then (S - P) % 4096 else (S - P) % 4096 - 4096 := rfl
      rw [h]
      split <;> omega
    rw [e2]; omega

/-- **C52 needs the page multiple on aarch64**: with a bias of four bytes, and code at the end of a page, the address is wrong. -/
theorem C52_aarch64_unaligned_false : symAddr .aarch64 1 0 0x10ffc 0x20000 4 ≠ (0x20000 + 4) % 2 ^ 64 := by decide

/-- A position-independent executable at `0x5555_5555_4000`, code at `0x1234`, the header (address 0) before it and `_DYNAMIC` at `0x3e00` after it. -/
example (a : Arch) : symAddr a 2 0x3fe8 0x1234 0 0x555555554000 = 0x555555554000 % 2 ^ (8 * a.ws) ∧
    symAddr a 2 0x3fe8 0x1234 0x3e00 0x555555554000 = 0x555555557e00 % 2 ^ (8 * a.ws) := by
  constructor
  · exact C52_sym_addr a _ _ _ _ _ (by cases a <;> simp only [InReach] <;> decide) (fun _ => by decide)
  · exact C52_sym_addr a _ _ _ _ _ (by cases a <;> simp only [InReach] <;> decide) (fun _ => by decide)

end Origin.PcRel
