import Verif.Proof.MemCopy
/-!
# `copy_forward` / `copy_backward` of `impls.rs`
-/

namespace Origin
open Spec

theorem wordSize_pow {ws : Nat} (h : ws = 4 ∨ ws = 8) : ∃ k, ws = 2 ^ k := by
  rcases h with rfl | rfl
  · exact ⟨2, rfl⟩
  · exact ⟨3, rfl⟩

theorem threshold_eq {ws : Nat} (h : ws = 4 ∨ ws = 8) : Impls.wordCopyThreshold ws = 16 := by
  rcases h with rfl | rfl <;> rfl

/-- Middle part, upward: `q` words to an aligned destination. -/
theorem fwdWords_runs (P : Access → Prop) (e : Endian) (ws : Nat) (hw : Bool)
    (hws : ws = 4 ∨ ws = 8) (s : St) (d r q : Nat)
    (hr : r < 2 ^ (8 * ws)) (hov : d ≤ r ∨ r + ws * q ≤ d) (hq : 0 < q)
    (hl : ∀ a, hw = true ∨ ws ∣ a → r ≤ a → a + ws ≤ r + ws * q → P (.ld a ws))
    (hla : ∀ a, ws ∣ a → a < r + ws * q → r < a + ws → P (.ld a ws))
    (hs : ∀ i, i < q → P (.st (d + ws * i) ws)) :
    Runs P s
      (if uand ws r (Impls.wordMask ws) = 0 then Impls.copyForwardAlignedWords e ws s d r (ws * q)
       else Impls.copyForwardMisalignedWords e ws hw s d r (ws * q))
      (moved s.mem d r (ws * q)) := by
  obtain ⟨k, hk⟩ := wordSize_pow hws
  have hpos : 0 < ws := by omega
  have hl' : hw = true ∨ ws ∣ r → ∀ i, i < q → P (.ld (r + ws * i) ws) := by
    intro hal i hi
    apply hl
    · exact hal.imp id (fun h => Nat.dvd_add h ⟨i, rfl⟩)
    · omega
    · have : ws * (i + 1) ≤ ws * q := Nat.mul_le_mul_left _ hi
      rw [Nat.mul_succ] at this; omega
  unfold Impls.wordMask
  rw [uand_mask k ws r hk]
  split
  · rename_i h0
    exact copyForwardWordsLoop_runs P e ws hpos q s d r hov (hl' (Or.inr (Nat.dvd_of_mod_eq_zero h0))) hs
  · rename_i hoff
    unfold Impls.copyForwardMisalignedWords
    split
    · rename_i hhw
      exact copyForwardWordsLoop_runs P e ws hpos q s d r hov (hl' (Or.inl hhw)) hs
    · unfold Impls.wordMask
      simp only [uand_mask k ws r hk, uand_not_mask k ws r hk hr, St.ldW]
      have hlt : r % ws < ws := Nat.mod_lt _ hpos
      have hle : r % ws ≤ r := Nat.mod_le _ _
      have hdv : ws ∣ r - r % ws := Nat.dvd_sub_mod r
      have h1q : ws * 1 ≤ ws * q := Nat.mul_le_mul_left _ hq
      have r1 := Runs.ld (P := P) s (r - r % ws) ws (hla _ hdv (by omega) (by omega))
      have r2 := shiftUp_runs P e ws (r % ws) (by omega) hlt q
        { s with log := .ld (r - r % ws) ws :: s.log } d (r - r % ws)
        (wordAt e ws s.mem (r - r % ws)) (fun j => s.mem (r + j))
        (by omega)
        (fun i hi => by
          have hle2 : ws * (i + 1) ≤ ws * q := Nat.mul_le_mul_left _ hi
          exact hla _ (Nat.dvd_add hdv ⟨i + 1, rfl⟩) (by omega) (by rw [Nat.mul_succ]; omega))
        hs
        (fun i hi _ => by
          rw [byteOf_wordAt _ _ _ _ _ (by omega)]; congr 1; omega)
        (fun j _ _ => by simp only; congr 1; omega)
      exact r1.trans r2

/-- Middle part, downward: `q` words; `d`, `r` are the start addresses. -/
theorem bwdWords_runs (P : Access → Prop) (e : Endian) (ws : Nat) (hw : Bool)
    (hws : ws = 4 ∨ ws = 8) (s : St) (d r q : Nat)
    (hr : r + ws * q < 2 ^ (8 * ws)) (hov : r ≤ d ∨ d + ws * q ≤ r) (hq : 0 < q)
    (hl : ∀ a, hw = true ∨ ws ∣ a → r ≤ a → a + ws ≤ r + ws * q → P (.ld a ws))
    (hla : ∀ a, ws ∣ a → a < r + ws * q → r < a + ws → P (.ld a ws))
    (hs : ∀ i, i < q → P (.st (d + ws * i) ws)) :
    Runs P s
      (if uand ws (r + ws * q) (Impls.wordMask ws) = 0 then
        Impls.copyBackwardAlignedWords e ws s (d + ws * q) (r + ws * q) (ws * q)
       else Impls.copyBackwardMisalignedWords e ws hw s (d + ws * q) (r + ws * q) (ws * q))
      (moved s.mem d r (ws * q)) := by
  obtain ⟨k, hk⟩ := wordSize_pow hws
  have hpos : 0 < ws := by omega
  have hl' : hw = true ∨ ws ∣ r → ∀ i, i < q → P (.ld (r + ws * i) ws) := by
    intro hal i hi
    apply hl
    · exact hal.imp id (fun h => Nat.dvd_add h ⟨i, rfl⟩)
    · omega
    · have : ws * (i + 1) ≤ ws * q := Nat.mul_le_mul_left _ hi
      rw [Nat.mul_succ] at this; omega
  unfold Impls.wordMask
  rw [uand_mask k ws _ hk]
  have ed : d + ws * q - ws * q = d := by omega
  split
  · rename_i h0
    rw [Nat.add_mul_mod_self_left] at h0
    unfold Impls.copyBackwardAlignedWords
    rw [ed]
    exact copyBackwardWordsLoop_runs P e ws hpos q s d r hov (hl' (Or.inr (Nat.dvd_of_mod_eq_zero h0))) hs
  · rename_i hoff
    unfold Impls.copyBackwardMisalignedWords
    split
    · rename_i hhw
      rw [ed]; exact copyBackwardWordsLoop_runs P e ws hpos q s d r hov (hl' (Or.inl hhw)) hs
    · unfold Impls.wordMask
      rw [ed]
      simp only [uand_mask k ws _ hk, uand_not_mask k ws _ hk hr, St.ldW]
      rw [Nat.add_mul_mod_self_left] at hoff ⊢
      have hlt : r % ws < ws := Nat.mod_lt _ hpos
      have hle : r % ws ≤ r := Nat.mod_le _ _
      have hdv : ws ∣ r - r % ws := Nat.dvd_sub_mod r
      have h1q : ws * 1 ≤ ws * q := Nat.mul_le_mul_left _ hq
      have hdv2 : ws ∣ r + ws * q - r % ws := by
        have : r + ws * q - r % ws = (r - r % ws) + ws * q := by omega
        rw [this]; exact Nat.dvd_add hdv ⟨q, rfl⟩
      have r1 := Runs.ld (P := P) s (r + ws * q - r % ws) ws (hla _ hdv2 (by omega) (by omega))
      have r2 := shiftDown_runs P e ws (r % ws) (by omega) hlt q
        { s with log := .ld (r + ws * q - r % ws) ws :: s.log } d r (r + ws * q - r % ws)
        (wordAt e ws s.mem (r + ws * q - r % ws)) (fun j => s.mem (r + j))
        (by omega) hov
        (fun i hi => by
          have hle2 : ws * (i + 1) ≤ ws * q := Nat.mul_le_mul_left _ hi
          refine hla _ (Nat.dvd_sub hdv2 ⟨i + 1, rfl⟩) (by omega) (by omega))
        hs
        (fun _ i hi => by
          rw [byteOf_wordAt _ _ _ _ _ (by omega)]; congr 1; omega)
        (fun j _ => rfl)
        (Or.inr hle)
      exact r1.trans r2

theorem copyForwardBytes_runs (P : Access → Prop) (n : Nat) (s : St) (d r : Nat)
    (h : d ≤ r ∨ r + n ≤ d) (hl : ∀ i, i < n → P (.ld (r + i) 1)) (hs : ∀ i, i < n → P (.st (d + i) 1)) :
    Runs P s (Impls.copyForwardBytes s d r n) (moved s.mem d r n) :=
  copyForwardBytesLoop_runs P n s d r h hl hs

theorem copyBackwardBytes_runs (P : Access → Prop) (n : Nat) (s : St) (d r : Nat)
    (h : r ≤ d ∨ d + n ≤ r) (hl : ∀ i, i < n → P (.ld (r + i) 1)) (hs : ∀ i, i < n → P (.st (d + i) 1)) :
    Runs P s (Impls.copyBackwardBytes s (d + n) (r + n) n) (moved s.mem d r n) := by
  unfold Impls.copyBackwardBytes
  rw [Nat.add_sub_cancel]
  exact copyBackwardBytesLoop_runs P n s d r h hl hs

theorem impls_copyForward_runs (e : Endian) (ws : Nat) (hw : Bool) (hws : ws = 4 ∨ ws = 8)
    (s : St) (d r n : Nat) (hn : n < 2 ^ (8 * ws)) (hr : r + n < 2 ^ (8 * ws))
    (hov : d ≤ r ∨ r + n ≤ d) :
    Runs (CopyFootprint hw d r n) s (Impls.copyForward e ws hw s d r n) (moved s.mem d r n) := by
  obtain ⟨k, hk⟩ := wordSize_pow hws
  have hpos : 0 < ws := by omega
  have hbl : ∀ a, r ≤ a → a < r + n → CopyFootprint hw d r n (.ld a 1) :=
    fun a h1 h2 => Or.inl ⟨⟨h1, by omega⟩, Or.inr (Nat.one_dvd _)⟩
  have hbs : ∀ a, d ≤ a → a < d + n → CopyFootprint hw d r n (.st a 1) :=
    fun a h1 h2 => ⟨⟨h1, by omega⟩, Nat.one_dvd _⟩
  unfold Impls.copyForward
  rw [threshold_eq hws]
  split
  · rename_i hge
    simp only [Impls.wordMask, uneg_mask k ws d hk]
    have hmis : (ws - d % ws) % ws < ws := Nat.mod_lt _ hpos
    have hal : ws ∣ d + (ws - d % ws) % ws := by rcases hws with rfl | rfl <;> omega
    generalize (ws - d % ws) % ws = mis at *
    rw [uand_not_mask k ws _ hk (by omega)]
    have hnw : n - mis - (n - mis) % ws = ws * ((n - mis) / ws) := by
      have := Nat.div_add_mod (n - mis) ws; omega
    rw [hnw]
    have hq : 0 < (n - mis) / ws := Nat.div_pos (by omega) hpos
    have hqle : ws * ((n - mis) / ws) ≤ n - mis := by omega
    generalize (n - mis) / ws = q at *
    have r1 := copyForwardBytes_runs (CopyFootprint hw d r n) mis s d r (by omega)
      (fun i hi => hbl _ (by omega) (by omega)) (fun i hi => hbs _ (by omega) (by omega))
    have r2 := fwdWords_runs (CopyFootprint hw d r n) e ws hw hws
      (Impls.copyForwardBytes s d r mis) (d + mis) (r + mis) q (by omega) (by omega) hq
      (fun a h0 h1 h2 => Or.inl ⟨⟨by omega, by omega⟩, h0⟩)
      (fun a h1 h2 h3 => Or.inr ⟨by omega, h1,
        ⟨max a (r + mis), by omega, by omega, by omega, by omega⟩⟩)
      (fun i hi => by
        have : ws * (i + 1) ≤ ws * q := Nat.mul_le_mul_left _ hi
        rw [Nat.mul_succ] at this
        exact ⟨⟨by omega, by omega⟩, Nat.dvd_add hal ⟨i, rfl⟩⟩)
    simp only [Impls.wordMask] at r2
    refine (r1.trans (r2.trans (copyForwardBytes_runs (CopyFootprint hw d r n) (n - mis - ws * q) _
      (d + mis + ws * q) (r + mis + ws * q) (by omega)
      (fun i hi => hbl _ (by omega) (by omega)) (fun i hi => hbs _ (by omega) (by omega))))).congr ?_
    rw [r2.mem, r1.mem, moved_fwd _ _ _ _ _ (by omega)]
    rw [moved_fwd _ _ _ _ _ (by omega)]
    congr 1; omega
  · exact copyForwardBytes_runs _ n s d r hov
      (fun i hi => hbl _ (by omega) (by omega)) (fun i hi => hbs _ (by omega) (by omega))

theorem impls_copyBackward_runs (e : Endian) (ws : Nat) (hw : Bool) (hws : ws = 4 ∨ ws = 8)
    (s : St) (d r n : Nat) (hn : n < 2 ^ (8 * ws)) (hr : r + n < 2 ^ (8 * ws))
    (hov : r ≤ d ∨ d + n ≤ r) :
    Runs (CopyFootprint hw d r n) s (Impls.copyBackward e ws hw s d r n) (moved s.mem d r n) := by
  obtain ⟨k, hk⟩ := wordSize_pow hws
  have hpos : 0 < ws := by omega
  have hbl : ∀ a, r ≤ a → a < r + n → CopyFootprint hw d r n (.ld a 1) :=
    fun a h1 h2 => Or.inl ⟨⟨h1, by omega⟩, Or.inr (Nat.one_dvd _)⟩
  have hbs : ∀ a, d ≤ a → a < d + n → CopyFootprint hw d r n (.st a 1) :=
    fun a h1 h2 => ⟨⟨h1, by omega⟩, Nat.one_dvd _⟩
  unfold Impls.copyBackward
  rw [threshold_eq hws]
  simp only
  split
  · rename_i hge
    simp only [Impls.wordMask, uand_mask k ws (d + n) hk]
    have hmis : (d + n) % ws < ws := Nat.mod_lt _ hpos
    have hal : ws ∣ d + (n - (d + n) % ws - ws * ((n - (d + n) % ws) / ws)) := by
      rcases hws with rfl | rfl <;> omega
    generalize (d + n) % ws = mis at *
    rw [uand_not_mask k ws _ hk (by omega)]
    have hnw : n - mis - (n - mis) % ws = ws * ((n - mis) / ws) := by
      have := Nat.div_add_mod (n - mis) ws; omega
    rw [hnw]
    have hq : 0 < (n - mis) / ws := Nat.div_pos (by omega) hpos
    have hqle : ws * ((n - mis) / ws) ≤ n - mis := by omega
    generalize (n - mis) / ws = q at *
    have h1q : ws * 1 ≤ ws * q := Nat.mul_le_mul_left _ hq
    have hrest : n - mis - ws * q + ws * q + mis = n := by omega
    generalize hx : n - mis - ws * q = x at *
    have r1 := copyBackwardBytes_runs (CopyFootprint hw d r n) mis s (d + (x + ws * q)) (r + (x + ws * q))
      (by omega) (fun i hi => hbl _ (by omega) (by omega)) (fun i hi => hbs _ (by omega) (by omega))
    have ed : d + (x + ws * q) + mis = d + n := by omega
    have er : r + (x + ws * q) + mis = r + n := by omega
    rw [ed, er] at r1
    have ed2 : d + n - mis = d + x + ws * q := by omega
    have er2 : r + n - mis = r + x + ws * q := by omega
    rw [ed2, er2]
    have r2 := bwdWords_runs (CopyFootprint hw d r n) e ws hw hws
      (Impls.copyBackwardBytes s (d + n) (r + n) mis) (d + x) (r + x) q (by omega) (by omega) hq
      (fun a h0 h1 h2 => Or.inl ⟨⟨by omega, by omega⟩, h0⟩)
      (fun a h1 h2 h3 => Or.inr ⟨by omega, h1,
        ⟨max a (r + x), by omega, by omega, by omega, by omega⟩⟩)
      (fun i hi => by
        have : ws * (i + 1) ≤ ws * q := Nat.mul_le_mul_left _ hi
        rw [Nat.mul_succ] at this
        exact ⟨⟨by omega, by omega⟩, Nat.dvd_add hal ⟨i, rfl⟩⟩)
    simp only [Impls.wordMask] at r2
    have ed3 : d + x + ws * q - ws * q = d + x := by omega
    have er3 : r + x + ws * q - ws * q = r + x := by omega
    rw [ed3, er3]
    refine (r1.trans (r2.trans (copyBackwardBytes_runs (CopyFootprint hw d r n) x _ d r (by omega)
      (fun i hi => hbl _ (by omega) (by omega)) (fun i hi => hbs _ (by omega) (by omega))))).congr ?_
    rw [r2.mem, r1.mem, moved_bwd _ d r x (ws * q) (by omega), moved_bwd _ _ _ _ _ (by omega)]
    congr 1
  · exact copyBackwardBytes_runs _ n s d r hov
      (fun i hi => hbl _ (by omega) (by omega)) (fun i hi => hbs _ (by omega) (by omega))

end Origin
