import Verif.Model.MemBase
import Verif.Spec.Mem
/-!
# Lemmas on bytes, words, and `usize` bit masks
-/

namespace Origin
open Spec

theorem getLsbD_packLE (f : Nat → Byte) (n i j : Nat) (hi : i < n) (hj : j < 8) :
    (packLE f n).getLsbD (8 * i + j) = (f i).getLsbD j := by
  induction n generalizing f i with
  | zero => omega
  | succ n ih =>
    show BitVec.getLsbD (packLE (fun i => f (i + 1)) n ++ f 0) _ = _
    rw [BitVec.getLsbD_append]
    cases i with
    | zero => simp [hj]
    | succ i =>
      have : ¬ (8 * (i + 1) + j < 8) := by omega
      simp only [this, if_false]
      have h2 : 8 * (i + 1) + j - 8 = 8 * i + j := by omega
      rw [h2, ih (fun i => f (i + 1)) i (by omega)]

theorem extract_packLE (f : Nat → Byte) (n i : Nat) (hi : i < n) :
    (packLE f n).extractLsb' (8 * i) 8 = f i := by
  apply BitVec.eq_of_getLsbD_eq
  intro j hj
  simp [hj, getLsbD_packLE f n i j hi hj]

theorem byteOf_wordAt (e : Endian) (ws : Nat) (m : Mem) (a i : Nat) (hi : i < ws) :
    byteOf e (wordAt e ws m a) i = m (a + i) := by
  cases e with
  | little => exact extract_packLE _ _ _ hi
  | big =>
    simp only [byteOf, wordAt]
    rw [extract_packLE _ _ _ (by omega)]
    congr 1; omega

theorem byteOf_ext {e : Endian} {ws : Nat} {v w : BitVec (8 * ws)}
    (h : ∀ i, i < ws → byteOf e v i = byteOf e w i) : v = w := by
  apply BitVec.eq_of_getLsbD_eq
  intro k hk
  have key : ∀ i, i < ws → v.extractLsb' (8 * i) 8 = w.extractLsb' (8 * i) 8 := by
    intro i hi
    cases e with
    | little => exact h i hi
    | big =>
      have := h (ws - 1 - i) (by omega)
      simp only [byteOf] at this
      have h2 : ws - 1 - (ws - 1 - i) = i := by omega
      rwa [h2] at this
  have := congrArg (fun x => x.getLsbD (k % 8)) (key (k / 8) (by omega))
  simp only [BitVec.getLsbD_extractLsb'] at this
  have h3 : k % 8 < 8 := Nat.mod_lt _ (by omega)
  simp only [h3, decide_true, Bool.true_and] at this
  have h4 : 8 * (k / 8) + k % 8 = k := by omega
  rwa [h4] at this

theorem getLsbD_byteOf_little {ws : Nat} (w : BitVec (8 * ws)) (i j : Nat) (hj : j < 8) :
    (byteOf .little w i).getLsbD j = w.getLsbD (8 * i + j) := by
  simp [byteOf, hj]

theorem getLsbD_byteOf_big {ws : Nat} (w : BitVec (8 * ws)) (i j : Nat) (hj : j < 8) :
    (byteOf .big w i).getLsbD j = w.getLsbD (8 * (ws - 1 - i) + j) := by
  simp [byteOf, hj]

/-! ### masks -/

theorem two_pow_mask_lt (k ws : Nat) (h : ws = 2 ^ k) : ws - 1 < 2 ^ (8 * ws) := by
  have : ws < 2 ^ ws := Nat.lt_two_pow_self
  have : 2 ^ ws ≤ 2 ^ (8 * ws) := Nat.pow_le_pow_right (by omega) (by omega)
  omega

theorem ws_dvd (k ws : Nat) (h : ws = 2 ^ k) : ws ∣ 2 ^ (8 * ws) := by
  subst h
  apply Nat.pow_dvd_pow
  have : k < 2 ^ k := Nat.lt_two_pow_self
  omega

theorem uand_mask (k ws a : Nat) (h : ws = 2 ^ k) : uand ws a (ws - 1) = a % ws := by
  have h1 := two_pow_mask_lt k ws h
  unfold uand
  rw [BitVec.toNat_and, BitVec.toNat_ofNat, BitVec.toNat_ofNat, Nat.mod_eq_of_lt h1]
  rw [h, Nat.and_two_pow_sub_one_eq_mod, ← h, Nat.mod_mod_of_dvd _ (ws_dvd k ws h)]

theorem uand_not_mask (k ws a : Nat) (h : ws = 2 ^ k) (ha : a < 2 ^ (8 * ws)) :
    uand ws a (unot ws (ws - 1)) = a - a % ws := by
  have h1 := two_pow_mask_lt k ws h
  unfold uand unot
  rw [BitVec.ofNat_toNat, BitVec.setWidth_eq]
  have e : BitVec.ofNat (8 * ws) a &&& ~~~ BitVec.ofNat (8 * ws) (ws - 1)
      = BitVec.ofNat (8 * ws) a - (BitVec.ofNat (8 * ws) a &&& BitVec.ofNat (8 * ws) (ws - 1)) := by
    have hadd : BitVec.ofNat (8 * ws) a
        = (BitVec.ofNat (8 * ws) a &&& ~~~ BitVec.ofNat (8 * ws) (ws - 1))
          + (BitVec.ofNat (8 * ws) a &&& BitVec.ofNat (8 * ws) (ws - 1)) := by
      rw [BitVec.add_eq_or_of_and_eq_zero]
      · ext i hi; simp; cases (BitVec.ofNat (8 * ws) (ws - 1))[i] <;> simp_all
      · ext i hi; simp; intros; simp_all
    exact (BitVec.eq_sub_iff_add_eq.mpr hadd.symm)
  rw [e, BitVec.toNat_sub]
  have h2 : (BitVec.ofNat (8 * ws) a &&& BitVec.ofNat (8 * ws) (ws - 1)).toNat = a % ws :=
    uand_mask k ws a h
  rw [h2, BitVec.toNat_ofNat, Nat.mod_eq_of_lt ha]
  have h3 : a % ws ≤ a := Nat.mod_le _ _
  have : 2 ^ (8 * ws) - a % ws + a = 2 ^ (8 * ws) + (a - a % ws) := by omega
  rw [this, Nat.add_mod_left, Nat.mod_eq_of_lt (by omega)]

theorem uneg_mask (k ws a : Nat) (h : ws = 2 ^ k) :
    uand ws (uneg ws a) (ws - 1) = (ws - a % ws) % ws := by
  rw [uand_mask k ws _ h]
  unfold uneg
  rw [BitVec.toNat_neg, BitVec.toNat_ofNat, Nat.mod_mod_of_dvd _ (ws_dvd k ws h)]
  have hd := ws_dvd k ws h
  obtain ⟨q, hq⟩ := hd
  have hpos : 0 < ws := by subst h; exact Nat.two_pow_pos k
  have hlt : a % 2 ^ (8 * ws) < 2 ^ (8 * ws) := Nat.mod_lt _ (Nat.two_pow_pos _)
  have hm : a % 2 ^ (8 * ws) % ws = a % ws := Nat.mod_mod_of_dvd _ (ws_dvd k ws h)
  generalize a % 2 ^ (8 * ws) = x at *
  rw [← hm]
  rw [hq] at hlt ⊢
  have hxd := Nat.div_add_mod x ws
  have hxl := Nat.mod_lt x hpos
  have hxq : x / ws < q := Nat.div_lt_of_lt_mul hlt
  generalize x / ws = y at *
  generalize x % ws = r at *
  obtain ⟨z, rfl⟩ : ∃ z, q = y + 1 + z := ⟨q - (y + 1), by omega⟩
  have : ws * (y + 1 + z) - x = ws - r + ws * z := by
    rw [← hxd, Nat.mul_add, Nat.mul_add, Nat.mul_one]; omega
  rw [this, Nat.add_mul_mod_self_left]

theorem uwsub_eq (ws a b : Nat) (ha : a < 2 ^ (8 * ws)) (hb : b < 2 ^ (8 * ws)) :
    uwsub ws a b = if b ≤ a then a - b else a + 2 ^ (8 * ws) - b := by
  unfold uwsub
  rw [BitVec.toNat_sub, BitVec.toNat_ofNat, BitVec.toNat_ofNat, Nat.mod_eq_of_lt ha,
    Nat.mod_eq_of_lt hb]
  split
  · have : 2 ^ (8 * ws) - b + a = 2 ^ (8 * ws) + (a - b) := by omega
    rw [this, Nat.add_mod_left, Nat.mod_eq_of_lt (by omega)]
  · rw [Nat.mod_eq_of_lt (by omega)]; omega

end Origin
