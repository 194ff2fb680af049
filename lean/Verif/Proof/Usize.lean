import Verif.Model.Usize
/-!
# Lemmas on `usize` arithmetic
-/

namespace Origin

theorem umax_pos (ws : Nat) : 0 < umax ws := Nat.two_pow_pos _

theorem uadd_eq (ws a b : Nat) : uadd ws a b = (a + b) % umax ws := by
  unfold uadd umax; rw [← BitVec.ofNat_add, BitVec.toNat_ofNat]

theorem uadd_of_lt {ws a b : Nat} (h : a + b < umax ws) : uadd ws a b = a + b := by
  rw [uadd_eq, Nat.mod_eq_of_lt h]

theorem uwsub_of_le {ws a b : Nat} (ha : a < umax ws) (h : b ≤ a) : uwsub ws a b = a - b := by
  have hb : b < umax ws := Nat.lt_of_le_of_lt h ha
  unfold uwsub umax at *
  rw [BitVec.toNat_sub, BitVec.toNat_ofNat, BitVec.toNat_ofNat, Nat.mod_eq_of_lt ha,
    Nat.mod_eq_of_lt hb]
  have : 2 ^ (8 * ws) - b + a = 2 ^ (8 * ws) + (a - b) := by omega
  rw [this, Nat.add_mod_left, Nat.mod_eq_of_lt (by omega)]

theorem uwsub_of_gt {ws a b : Nat} (h : a < b) (hb : b < umax ws) :
    uwsub ws a b = a + umax ws - b := by
  have ha : a < umax ws := Nat.lt_trans h hb
  unfold uwsub umax at *
  rw [BitVec.toNat_sub, BitVec.toNat_ofNat, BitVec.toNat_ofNat, Nat.mod_eq_of_lt ha,
    Nat.mod_eq_of_lt hb, Nat.mod_eq_of_lt (by omega)]
  omega

theorem uand_uneg_pow (ws x k : Nat) (hk : k < 8 * ws) (hx : x < umax ws) :
    uand ws x (uneg ws (2 ^ k)) = x - x % 2 ^ k := by
  unfold umax at hx
  have hb : (2:Nat) ^ k < 2 ^ (8 * ws) := Nat.pow_lt_pow_right (by omega) hk
  have hp : 0 < (2:Nat) ^ k := Nat.two_pow_pos k
  unfold uand uneg
  rw [BitVec.ofNat_toNat, BitVec.setWidth_eq]
  have hn : - BitVec.ofNat (8 * ws) (2 ^ k) = ~~~ BitVec.ofNat (8 * ws) (2 ^ k - 1) := by
    rw [BitVec.not_eq_neg_add]
    have : BitVec.ofNat (8 * ws) (2 ^ k) = BitVec.ofNat (8 * ws) (2 ^ k - 1) + 1#_ := by
      rw [← BitVec.ofNat_add]; congr 1; omega
    rw [this, BitVec.neg_add]
  rw [hn]
  have e : BitVec.ofNat (8 * ws) x &&& ~~~ BitVec.ofNat (8 * ws) (2 ^ k - 1)
      = BitVec.ofNat (8 * ws) x - (BitVec.ofNat (8 * ws) x &&& BitVec.ofNat (8 * ws) (2 ^ k - 1)) := by
    have hadd : BitVec.ofNat (8 * ws) x
        = (BitVec.ofNat (8 * ws) x &&& ~~~ BitVec.ofNat (8 * ws) (2 ^ k - 1))
          + (BitVec.ofNat (8 * ws) x &&& BitVec.ofNat (8 * ws) (2 ^ k - 1)) := by
      rw [BitVec.add_eq_or_of_and_eq_zero]
      · ext i hi; simp; cases (BitVec.ofNat (8 * ws) (2 ^ k - 1))[i] <;> simp_all
      · ext i hi; simp; intros; simp_all
    exact (BitVec.eq_sub_iff_add_eq.mpr hadd.symm)
  rw [e, BitVec.toNat_sub]
  have h2 : (BitVec.ofNat (8 * ws) x &&& BitVec.ofNat (8 * ws) (2 ^ k - 1)).toNat = x % 2 ^ k := by
    rw [BitVec.toNat_and, BitVec.toNat_ofNat, BitVec.toNat_ofNat, Nat.mod_eq_of_lt hx,
      Nat.mod_eq_of_lt (by omega : 2 ^ k - 1 < 2 ^ (8 * ws)), Nat.and_two_pow_sub_one_eq_mod]
  rw [h2, BitVec.toNat_ofNat, Nat.mod_eq_of_lt hx]
  have h3 : x % 2 ^ k ≤ x := Nat.mod_le _ _
  have : 2 ^ (8 * ws) - x % 2 ^ k + x = 2 ^ (8 * ws) + (x - x % 2 ^ k) := by omega
  rw [this, Nat.add_mod_left, Nat.mod_eq_of_lt (by omega)]

theorem roundUp_gen (ws a k : Nat) (hk : k < 8 * ws) :
    roundUp ws a (2 ^ k)
      = (a + (2 ^ k - 1)) % umax ws - (a + (2 ^ k - 1)) % umax ws % 2 ^ k := by
  have hb : (2:Nat) ^ k < umax ws := Nat.pow_lt_pow_right (by omega) hk
  unfold roundUp
  rw [uwsub_of_le hb (Nat.two_pow_pos k), uadd_eq, uand_uneg_pow ws _ k hk (Nat.mod_lt _ (umax_pos ws))]

theorem sub_mod_eq (x b : Nat) : x - x % b = x / b * b := by
  have := Nat.div_add_mod x b
  rw [Nat.mul_comm] at this; omega

theorem roundUp_eq {ws a b k : Nat} (hb : b = 2 ^ k) (h : a + (b - 1) < umax ws) :
    roundUp ws a b = natRoundUp a b := by
  subst hb
  by_cases hk : k < 8 * ws
  · rw [roundUp_gen ws a k hk, Nat.mod_eq_of_lt h, sub_mod_eq]; rfl
  · have h1 : umax ws ≤ 2 ^ k := Nat.pow_le_pow_right (by omega) (by omega)
    have h2 : (2:Nat) ^ k = umax ws := by omega
    have ha : a = 0 := by omega
    unfold roundUp natRoundUp
    have hz : (a + (2 ^ k - 1)) / 2 ^ k = 0 := by
      rw [h2]; exact Nat.div_eq_of_lt (by have := umax_pos ws; omega)
    rw [hz]
    unfold uand uneg
    have : BitVec.ofNat (8 * ws) (2 ^ k) = 0#_ := by
      apply BitVec.eq_of_toNat_eq; rw [h2]; simp [umax]
    rw [this]; simp

theorem le_natRoundUp {x b : Nat} (hb : 0 < b) : x ≤ natRoundUp x b := by
  unfold natRoundUp
  have h1 := Nat.div_add_mod (x + (b - 1)) b
  have h2 := Nat.mod_lt (x + (b - 1)) hb
  rw [Nat.mul_comm] at h1; omega

theorem natRoundUp_lt {x b : Nat} (hb : 0 < b) : natRoundUp x b < x + b := by
  unfold natRoundUp
  have := Nat.div_mul_le_self (x + (b - 1)) b
  omega

theorem dvd_natRoundUp (x b : Nat) : b ∣ natRoundUp x b := Nat.dvd_mul_left _ _

theorem natRoundUp_of_dvd {x b : Nat} (hb : 0 < b) (h : b ∣ x) : natRoundUp x b = x := by
  obtain ⟨q, rfl⟩ := h
  unfold natRoundUp
  rw [Nat.mul_add_div hb, Nat.div_eq_of_lt (by omega : b - 1 < b), Nat.add_zero, Nat.mul_comm]

theorem natRoundUp_eq_iff {x b : Nat} (hb : 0 < b) : natRoundUp x b = x ↔ b ∣ x :=
  ⟨fun h => h ▸ dvd_natRoundUp x b, natRoundUp_of_dvd hb⟩

/-- `natRoundUp x b` is the least multiple of `b` that is at least `x`. -/
theorem natRoundUp_least {x b y : Nat} (hb : 0 < b) (h : b ∣ y) (hy : x ≤ y) : natRoundUp x b ≤ y := by
  obtain ⟨q, rfl⟩ := h
  unfold natRoundUp
  rw [Nat.mul_comm b q]
  apply Nat.mul_le_mul_right
  apply Nat.le_of_lt_succ
  apply Nat.div_lt_of_lt_mul
  rw [Nat.mul_succ]; omega

/-- A non-wrapping `&` with a negated power of two rounds down. -/
theorem uand_uneg {ws x b k : Nat} (hb : b = 2 ^ k) (hk : k < 8 * ws) (hx : x < umax ws) :
    uand ws x (uneg ws b) = x / b * b := by
  subst hb; rw [uand_uneg_pow ws x k hk hx, sub_mod_eq]

end Origin
