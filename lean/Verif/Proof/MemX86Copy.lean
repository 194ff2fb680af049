import Verif.Proof.MemCopyTop
/-!
# x86-64 string-instruction copies, and all fills
-/

namespace Origin
open Spec

theorem idx_up {a k : Nat} (h : a + k < 2 ^ 64) : X86.idx false a k = a + k := by
  simp only [X86.idx]; exact Nat.mod_eq_of_lt h

theorem repMovs_up (P : Access → Prop) (sz : Nat) (n : Nat) : ∀ (s : St) (d r : Nat),
    d + sz * n < 2 ^ 64 → r + sz * n < 2 ^ 64 →
    (d ≤ r ∨ r + sz * n ≤ d) → (∀ i, i < n → P (.ld (r + sz * i) sz)) →
    (∀ i, i < n → P (.st (d + sz * i) sz)) →
    Runs P s (X86.repMovs false sz n s d r).1 (moved s.mem d r (sz * n)) ∧
    (X86.repMovs false sz n s d r).2 = (d + sz * n, r + sz * n) := by
  induction n with
  | zero =>
    intro s d r _ _ _ _ _
    simp only [X86.repMovs, Nat.mul_zero, moved_zero, Nat.add_zero, and_true]
    exact Runs.refl _ _
  | succ n ih =>
    intro s d r hd hr h hl hs
    rw [Nat.mul_succ] at hd hr h
    simp only [X86.repMovs]
    rw [idx_up (by omega), idx_up (by omega)]
    have h1 := word_step P .little sz s d r (hl 0 (by omega)) (hs 0 (by omega))
    have h2 := ih ((s.ldW .little sz r).2.stW .little sz d (s.ldW .little sz r).1) (d + sz) (r + sz)
      (by omega) (by omega) (by omega)
      (fun i hi => by
        have := hl (i + 1) (by omega); rwa [Nat.mul_succ, Nat.add_comm _ sz, ← Nat.add_assoc] at this)
      (fun i hi => by
        have := hs (i + 1) (by omega); rwa [Nat.mul_succ, Nat.add_comm _ sz, ← Nat.add_assoc] at this)
    rw [h1.mem, moved_fwd _ _ _ _ _ (by omega)] at h2
    have e2 : sz + sz * n = sz * (n + 1) := by rw [Nat.mul_succ]; omega
    refine ⟨?_, ?_⟩
    · rw [e2] at h2; exact h1.trans h2.1
    · rw [h2.2, ← e2]; congr 1 <;> omega

theorem idx_down_step (a sz : Nat) (hsz : sz ≤ 2 ^ 64) (ha : a + sz < 2 ^ 64) :
    X86.idx true (a + sz) sz = a := by
  simp only [X86.idx, if_true]
  omega

theorem repMovs_down (P : Access → Prop) (sz : Nat) (hsz : sz ≤ 2 ^ 64) (n : Nat) :
    ∀ (s : St) (d r : Nat),
    d + sz * n < 2 ^ 64 → r + sz * n < 2 ^ 64 →
    (r ≤ d ∨ d + sz * n ≤ r) → (∀ i, i < n → P (.ld (r + sz * i) sz)) →
    (∀ i, i < n → P (.st (d + sz * i) sz)) →
    Runs P s (X86.repMovs true sz n s (X86.idx true (d + sz * n) sz) (X86.idx true (r + sz * n) sz)).1
      (moved s.mem d r (sz * n)) ∧
    (X86.repMovs true sz n s (X86.idx true (d + sz * n) sz) (X86.idx true (r + sz * n) sz)).2
      = (X86.idx true d sz, X86.idx true r sz) := by
  induction n with
  | zero =>
    intro s d r _ _ _ _ _
    simp only [X86.repMovs, Nat.mul_zero, moved_zero, Nat.add_zero, and_true]
    exact Runs.refl _ _
  | succ n ih =>
    intro s d r hd hr h hl hs
    rw [Nat.mul_succ] at hd hr h
    have ed : d + sz * (n + 1) = d + sz * n + sz := by rw [Nat.mul_succ]; omega
    have er : r + sz * (n + 1) = r + sz * n + sz := by rw [Nat.mul_succ]; omega
    rw [ed, er, idx_down_step _ _ hsz (by omega), idx_down_step _ _ hsz (by omega)]
    simp only [X86.repMovs]
    have h1 := word_step P .little sz s (d + sz * n) (r + sz * n) (hl n (by omega)) (hs n (by omega))
    have h2 := ih ((s.ldW .little sz (r + sz * n)).2.stW .little sz (d + sz * n)
      (s.ldW .little sz (r + sz * n)).1) d r (by omega) (by omega) (by omega)
      (fun i hi => hl i (by omega)) (fun i hi => hs i (by omega))
    rw [h1.mem, moved_bwd _ _ _ _ _ (by omega)] at h2
    exact ⟨h1.trans h2.1, h2.2⟩

theorem and7 (x : Nat) : x &&& 0b111 = x % 8 := Nat.and_two_pow_sub_one_eq_mod x 3

theorem repParam_eq (d n : Nat) : ∃ pre q b, X86.repParam d n = (pre, q, b) ∧
    pre + 8 * q + b = n ∧ pre < 8 ∧ b < 8 ∧ (q = 0 ∨ (d + pre) % 8 = 0) := by
  refine ⟨_, _, _, rfl, ?_⟩
  rw [and7, and7, and7, Nat.shiftRight_eq_div_pow]
  rw [Nat.min_def]
  split <;> omega

theorem x86_copyForward_runs (ermsb : Bool) (s : St) (d r n : Nat) (hd : d + n < 2 ^ 64)
    (hr : r + n < 2 ^ 64) (hov : d ≤ r ∨ r + n ≤ d) :
    Runs (CopyFootprint true d r n) s (X86.copyForward ermsb s d r n) (moved s.mem d r n) := by
  unfold X86.copyForward
  split
  · have := (repMovs_up (CopyFootprint true d r n) 1 n s d r (by omega) (by omega) (by omega)
      (fun i hi => Or.inl ⟨⟨by omega, by omega⟩, Or.inl rfl⟩) (fun i hi => ⟨⟨by omega, by omega⟩, by omega⟩)).1
    rwa [Nat.one_mul] at this
  · obtain ⟨pre, q, b, hp, hsum, -, -, hq⟩ := repParam_eq d n
    rw [hp]
    simp only
    obtain ⟨a1, a2⟩ := repMovs_up (CopyFootprint true d r n) 1 pre s d r (by omega) (by omega) (by omega)
      (fun i hi => Or.inl ⟨⟨by omega, by omega⟩, Or.inl rfl⟩) (fun i hi => ⟨⟨by omega, by omega⟩, by omega⟩)
    rw [Prod.ext_iff] at a2
    rw [a2.1, a2.2]
    obtain ⟨b1, b2⟩ := repMovs_up (CopyFootprint true d r n) 8 q (X86.repMovs false 1 pre s d r).1
      (d + 1 * pre) (r + 1 * pre) (by omega) (by omega) (by omega)
      (fun i hi => Or.inl ⟨⟨by omega, by omega⟩, Or.inl rfl⟩) (fun i hi => ⟨⟨by omega, by omega⟩, by omega⟩)
    rw [Prod.ext_iff] at b2
    rw [b2.1, b2.2]
    obtain ⟨c1, -⟩ := repMovs_up (CopyFootprint true d r n) 1 b
      (X86.repMovs false 8 q (X86.repMovs false 1 pre s d r).1 (d + 1 * pre) (r + 1 * pre)).1
      (d + 1 * pre + 8 * q) (r + 1 * pre + 8 * q) (by omega) (by omega) (by omega)
      (fun i hi => Or.inl ⟨⟨by omega, by omega⟩, Or.inl rfl⟩) (fun i hi => ⟨⟨by omega, by omega⟩, by omega⟩)
    refine (a1.trans (b1.trans c1)).congr ?_
    rw [b1.mem, a1.mem, moved_fwd _ _ _ _ _ (by omega), moved_fwd _ _ _ _ _ (by omega)]
    congr 1; omega

theorem idx_down_split (a : Nat) : X86.idx true (X86.idx true a 1) 7 = X86.idx true a 8 := by
  simp only [X86.idx, if_true]; omega

theorem idx_down_join (a : Nat) : X86.idx false (X86.idx true a 8) 7 = X86.idx true a 1 := by
  simp only [X86.idx, if_true]
  simp only [Bool.false_eq_true, if_false]
  omega

theorem x86_copyBackward_runs (s : St) (d r n : Nat) (hn : 0 < n) (hd : d + n < 2 ^ 64)
    (hr : r + n < 2 ^ 64) (hov : r ≤ d ∨ d + n ≤ r) :
    Runs (CopyFootprint true d r n) s (X86.copyBackward s d r n) (moved s.mem d r n) := by
  unfold X86.copyBackward
  obtain ⟨pre, q, b, hp, hsum, hpre, -, hq⟩ := repParam_eq d n
  rw [hp]
  simp only
  have ed : d + (n - 1) = X86.idx true (d + 1 * pre + 8 * q + 1 * b) 1 := by
    simp only [X86.idx, if_true]; omega
  have er : r + (n - 1) = X86.idx true (r + 1 * pre + 8 * q + 1 * b) 1 := by
    simp only [X86.idx, if_true]; omega
  rw [ed, er]
  obtain ⟨a1, a2⟩ := repMovs_down (CopyFootprint true d r n) 1 (by omega) b s
    (d + 1 * pre + 8 * q) (r + 1 * pre + 8 * q) (by omega) (by omega) (by omega)
    (fun i hi => Or.inl ⟨⟨by omega, by omega⟩, Or.inl rfl⟩) (fun i hi => ⟨⟨by omega, by omega⟩, by omega⟩)
  generalize X86.repMovs true 1 b s (X86.idx true (d + 1 * pre + 8 * q + 1 * b) 1)
    (X86.idx true (r + 1 * pre + 8 * q + 1 * b) 1) = t1 at *
  rw [Prod.ext_iff] at a2
  rw [a2.1, a2.2, idx_down_split, idx_down_split]
  obtain ⟨b1, b2⟩ := repMovs_down (CopyFootprint true d r n) 8 (by omega) q t1.1
    (d + 1 * pre) (r + 1 * pre) (by omega) (by omega) (by omega)
    (fun i hi => Or.inl ⟨⟨by omega, by omega⟩, Or.inl rfl⟩) (fun i hi => ⟨⟨by omega, by omega⟩, by omega⟩)
  generalize X86.repMovs true 8 q t1.1 (X86.idx true (d + 1 * pre + 8 * q) 8)
    (X86.idx true (r + 1 * pre + 8 * q) 8) = t2 at *
  rw [Prod.ext_iff] at b2
  rw [b2.1, b2.2, idx_down_join, idx_down_join,
    Nat.mod_eq_of_lt (by omega)]
  obtain ⟨c1, -⟩ := repMovs_down (CopyFootprint true d r n) 1 (by omega) pre t2.1 d r
    (by omega) (by omega) (by omega)
    (fun i hi => Or.inl ⟨⟨by omega, by omega⟩, Or.inl rfl⟩) (fun i hi => ⟨⟨by omega, by omega⟩, by omega⟩)
  refine (a1.trans (b1.trans c1)).congr ?_
  rw [b1.mem, a1.mem, moved_bwd _ d r (1 * pre) (8 * q) (by omega)]
  simp only [Nat.add_assoc]
  rw [moved_bwd _ _ _ _ _ (by omega)]
  congr 1; omega

/-! ### fills -/

theorem filled_zero (m : Mem) (p : Nat) (c : Byte) : filled m p 0 c = m := by
  funext a; unfold filled; rw [if_neg (by omega)]

theorem filled_comp (m : Mem) (p n1 n2 : Nat) (c : Byte) :
    filled (filled m p n1 c) (p + n1) n2 c = filled m p (n1 + n2) c := by
  funext a
  unfold filled
  by_cases h : p ≤ a ∧ a < p + (n1 + n2)
  · rw [if_pos h]; split
    · rfl
    · rw [if_pos (by omega)]
  · rw [if_neg h, if_neg (by omega), if_neg (by omega)]

theorem byte_fill (P : Access → Prop) (s : St) (p : Nat) (c : Byte) (h : P (.st p 1)) :
    Runs P s (s.st8 p c) (filled s.mem p 1 c) := by
  refine ⟨?_, [.st p 1], rfl, by simpa using h⟩
  funext a
  simp only [St.st8, filled]
  by_cases h : a = p
  · subst h; simp
  · rw [if_neg h, if_neg (by omega)]

theorem word_fill (P : Access → Prop) (e : Endian) (ws : Nat) (s : St) (p : Nat) (c : Byte)
    (w : BitVec (8 * ws)) (hw : ∀ i, i < ws → byteOf e w i = c) (h : P (.st p ws)) :
    Runs P s (s.stW e ws p w) (filled s.mem p ws c) := by
  refine ⟨?_, [.st p ws], rfl, by simpa using h⟩
  funext a
  simp only [St.stW, filled]
  split
  · exact hw _ (by omega)
  · rfl

theorem setBytesBytesLoop_runs (P : Access → Prop) (c : Byte) (n : Nat) : ∀ (s : St) (p : Nat),
    (∀ i, i < n → P (.st (p + i) 1)) →
    Runs P s (Impls.setBytesBytesLoop s p (p + n) c) (filled s.mem p n c) := by
  induction n with
  | zero =>
    intro s p _
    rw [Impls.setBytesBytesLoop]
    simp only [Nat.add_zero, Nat.lt_irrefl, if_false, filled_zero]
    exact Runs.refl _ _
  | succ n ih =>
    intro s p hs
    rw [Impls.setBytesBytesLoop, if_pos (by omega)]
    have h1 := byte_fill P s p c (hs 0 (by omega))
    have h2 := ih (s.st8 p c) (p + 1)
      (fun i hi => by have := hs (i + 1) (by omega); rwa [Nat.add_comm i 1, ← Nat.add_assoc] at this)
    rw [h1.mem, filled_comp, Nat.add_assoc, Nat.add_comm 1 n] at h2
    exact h1.trans h2

theorem fillUp_eq (s : St) (p e : Nat) (c : Byte) : Small.fillUp s p e c = Impls.setBytesBytesLoop s p e c := by
  induction hk : e - p using Nat.strongRecOn generalizing s p with
  | ind k ih =>
    rw [Small.fillUp, Impls.setBytesBytesLoop]
    split
    · exact ih (e - (p + 1)) (by omega) _ _ rfl
    · rfl

theorem setBytesWordsLoop_runs (P : Access → Prop) (e : Endian) (ws : Nat) (hws : 0 < ws) (c : Byte)
    (w : BitVec (8 * ws)) (hw : ∀ i, i < ws → byteOf e w i = c) (q : Nat) : ∀ (s : St) (p : Nat),
    (∀ i, i < q → P (.st (p + ws * i) ws)) →
    Runs P s (Impls.setBytesWordsLoop e ws s p (p + ws * q) w) (filled s.mem p (ws * q) c) := by
  induction q with
  | zero =>
    intro s p _
    rw [Impls.setBytesWordsLoop, dif_neg (by simp), Nat.mul_zero, filled_zero]
    exact Runs.refl _ _
  | succ q ih =>
    intro s p hs
    rw [Impls.setBytesWordsLoop, dif_pos (by rw [Nat.mul_succ]; omega)]
    have h1 := word_fill P e ws s p c w hw (hs 0 (by omega))
    have h2 := ih (s.stW e ws p w) (p + ws)
      (fun i hi => by
        have := hs (i + 1) (by omega); rwa [Nat.mul_succ, Nat.add_comm _ ws, ← Nat.add_assoc] at this)
    have e1 : p + ws + ws * q = p + ws * (q + 1) := by rw [Nat.mul_succ]; omega
    have e2 : ws + ws * q = ws * (q + 1) := by rw [Nat.mul_succ]; omega
    rw [h1.mem, filled_comp, e1, e2] at h2
    exact h1.trans h2

/-- The doubling loop fills every byte. -/
theorem broadcastLoop_bits (ws : Nat) (c : Byte) (j : Nat) : ∀ (b : BitVec (8 * ws)) (h : Nat),
    0 < h → ws * 8 ≤ 8 * h * 2 ^ j →
    (∀ k, k < 8 * ws → b.getLsbD k = (decide (k < 8 * h) && c.getLsbD (k % 8))) →
    ∀ k, k < 8 * ws → (Impls.broadcastLoop ws b (8 * h)).getLsbD k = c.getLsbD (k % 8) := by
  induction j with
  | zero =>
    intro b h hh hle hb k hk
    rw [Impls.broadcastLoop, dif_neg (by omega), hb k hk]
    have : k < 8 * h := by omega
    simp [this]
  | succ j ih =>
    intro b h hh hle hb k hk
    rw [Impls.broadcastLoop]
    split
    · have e1 : 8 * h * 2 = 8 * (2 * h) := by omega
      rw [e1]
      apply ih _ _ (by omega) _ _ k hk
      · have : 8 * (2 * h) * 2 ^ j = 8 * h * 2 ^ (j + 1) := by
          rw [Nat.pow_succ, ← e1, Nat.mul_assoc, Nat.mul_comm 2 (2 ^ j)]
        omega
      · intro k hk
        rw [BitVec.getLsbD_or, BitVec.getLsbD_shiftLeft, hb k hk]
        by_cases h1 : k < 8 * h
        · have h2 : k < 8 * (2 * h) := by omega
          simp [h1, h2]
        · rw [hb (k - 8 * h) (by omega)]
          have h3 : (k - 8 * h) % 8 = k % 8 := by omega
          by_cases h2 : k < 8 * (2 * h)
          · have h4 : k - 8 * h < 8 * h := by omega
            simp [h1, h2, h3, h4, hk]
          · have h4 : ¬ k - 8 * h < 8 * h := by omega
            simp [h1, h2, h4]
    · rename_i hn
      rw [hb k hk]
      have : k < 8 * h := by omega
      simp [this]

theorem byteOf_broadcast (e : Endian) (ws : Nat) (c : Byte) (i : Nat) (hi : i < ws) :
    byteOf e (Impls.broadcastLoop ws (c.setWidth (8 * ws)) 8) i = c := by
  have key := broadcastLoop_bits ws c ws (c.setWidth (8 * ws)) 1 (by omega)
    (by have : ws < 2 ^ ws := Nat.lt_two_pow_self
        omega)
    (fun k hk => by
      rw [BitVec.getLsbD_setWidth]
      by_cases h : k < 8
      · simp [h, Nat.mod_eq_of_lt h, hk]
      · have : c.getLsbD k = false := BitVec.getLsbD_of_ge _ _ (by omega)
        simp [h, this])
  apply BitVec.eq_of_getLsbD_eq
  intro j hj
  cases e with
  | little =>
    rw [getLsbD_byteOf_little _ _ _ hj, key _ (by omega)]
    congr 1; omega
  | big =>
    rw [getLsbD_byteOf_big _ _ _ hj, key _ (by omega)]
    congr 1; omega

theorem impls_setBytes_runs (e : Endian) (ws : Nat) (hws : ws = 4 ∨ ws = 8)
    (s : St) (p : Nat) (c : Byte) (n : Nat) (hn : n < 2 ^ (8 * ws)) :
    Runs (FillFootprint p n) s (Impls.setBytes e ws s p c n) (filled s.mem p n c) := by
  obtain ⟨k, hk⟩ := wordSize_pow hws
  have hpos : 0 < ws := by omega
  unfold Impls.setBytes
  rw [threshold_eq hws]
  split
  · rename_i hge
    simp only [Impls.wordMask, uneg_mask k ws p hk]
    have hmis : (ws - p % ws) % ws < ws := Nat.mod_lt _ hpos
    have hal : ws ∣ p + (ws - p % ws) % ws := by rcases hws with rfl | rfl <;> omega
    generalize (ws - p % ws) % ws = mis at *
    rw [uand_not_mask k ws _ hk (by omega)]
    have hnw : n - mis - (n - mis) % ws = ws * ((n - mis) / ws) := by
      have := Nat.div_add_mod (n - mis) ws; omega
    rw [hnw]
    have hqle : ws * ((n - mis) / ws) ≤ n - mis := by omega
    generalize (n - mis) / ws = q at *
    unfold Impls.setBytesBytes Impls.setBytesWords
    have r1 := setBytesBytesLoop_runs (FillFootprint p n) c mis s p (fun i hi => ⟨⟨by omega, by omega⟩, by omega⟩)
    have r2 := setBytesWordsLoop_runs (FillFootprint p n) e ws hpos c _
      (fun i hi => byteOf_broadcast e ws c i hi) q (Impls.setBytesBytesLoop s p (p + mis) c) (p + mis)
      (fun i hi => by
        have : ws * (i + 1) ≤ ws * q := Nat.mul_le_mul_left _ hi
        rw [Nat.mul_succ] at this
        exact ⟨⟨by omega, by omega⟩, Nat.dvd_add hal ⟨i, rfl⟩⟩)
    refine (r1.trans (r2.trans (setBytesBytesLoop_runs (FillFootprint p n) c (n - mis - ws * q) _
      (p + mis + ws * q) (fun i hi => ⟨⟨by omega, by omega⟩, by omega⟩)))).congr ?_
    rw [r2.mem, r1.mem, filled_comp, filled_comp]
    congr 1; omega
  · exact setBytesBytesLoop_runs (FillFootprint p n) c n s p (fun i hi => ⟨⟨by omega, by omega⟩, by omega⟩)

theorem repStos_up (P : Access → Prop) (sz : Nat) (c : Byte) (w : BitVec (8 * sz))
    (hw : ∀ i, i < sz → byteOf .little w i = c) (n : Nat) : ∀ (s : St) (d : Nat),
    d + sz * n < 2 ^ 64 → (∀ i, i < n → P (.st (d + sz * i) sz)) →
    Runs P s (X86.repStos sz w n s d).1 (filled s.mem d (sz * n) c) ∧
    (X86.repStos sz w n s d).2 = d + sz * n := by
  induction n with
  | zero =>
    intro s d _ _
    simp only [X86.repStos, Nat.mul_zero, filled_zero, Nat.add_zero, and_true]
    exact Runs.refl _ _
  | succ n ih =>
    intro s d hd hs
    rw [Nat.mul_succ] at hd
    simp only [X86.repStos]
    rw [idx_up (by omega)]
    have h1 := word_fill P .little sz s d c w hw (hs 0 (by omega))
    have h2 := ih (s.stW .little sz d w) (d + sz) (by omega)
      (fun i hi => by
        have := hs (i + 1) (by omega); rwa [Nat.mul_succ, Nat.add_comm _ sz, ← Nat.add_assoc] at this)
    have e2 : sz + sz * n = sz * (n + 1) := by rw [Nat.mul_succ]; omega
    rw [h1.mem, filled_comp] at h2
    refine ⟨?_, ?_⟩
    · rw [e2] at h2; exact h1.trans h2.1
    · rw [h2.2, ← e2]; omega

theorem byteOf_one (c : Byte) (i : Nat) (hi : i < 1) : byteOf (ws := 1) .little c i = c := by
  have : i = 0 := by omega
  subst this
  apply BitVec.eq_of_getLsbD_eq
  intro j hj
  rw [getLsbD_byteOf_little _ _ _ hj]; simp

theorem rep_byte (c M H H' L p : Nat) (hM : M = H * p + L) (hL : 255 * L < p)
    (hH : H = 256 * H' + 1) (hc : c < 256) : c * M / p % 256 = c := by
  have hp : 0 < p := by omega
  have h1 : c * L ≤ 255 * L := Nat.mul_le_mul_right _ (by omega)
  have h2 : c * M = c * L + p * (c * H) := by
    rw [hM, Nat.mul_add, Nat.add_comm]; congr 1
    rw [Nat.mul_comm H p, ← Nat.mul_assoc, Nat.mul_comm c p, Nat.mul_assoc]
  rw [h2, Nat.add_mul_div_left _ _ hp, Nat.div_eq_of_lt (by omega), Nat.zero_add, hH]
  have h3 : c * (256 * H' + 1) = c + 256 * (c * H') := by
    rw [Nat.mul_add, Nat.mul_one, Nat.add_comm]; congr 1
    rw [← Nat.mul_assoc, Nat.mul_comm c 256, Nat.mul_assoc]
  rw [h3, Nat.add_mul_mod_self_left, Nat.mod_eq_of_lt hc]

theorem c64_toNat (c : Byte) :
    (c.setWidth 64 * 0x0101010101010101#64).toNat = c.toNat * 0x0101010101010101 := by
  have hc : c.toNat < 256 := c.isLt
  rw [BitVec.toNat_mul, BitVec.toNat_setWidth, BitVec.toNat_ofNat]
  have a1 : c.toNat % 2 ^ 64 = c.toNat := Nat.mod_eq_of_lt (Nat.lt_trans hc (by decide))
  have a2 : 72340172838076673 % 2 ^ 64 = 72340172838076673 := by decide
  have a3 : c.toNat * 72340172838076673 < 2 ^ 64 := by
    have : c.toNat * 72340172838076673 ≤ 255 * 72340172838076673 :=
      Nat.mul_le_mul_right _ (by omega)
    exact Nat.lt_of_le_of_lt this (by decide)
  rw [a1, a2, Nat.mod_eq_of_lt a3]

theorem byteOf_c64 (c : Byte) (i : Nat) (hi : i < 8) :
    byteOf (ws := 8) .little (c.setWidth 64 * 0x0101010101010101#64) i = c := by
  have hw := c64_toNat c
  have hc : c.toNat < 256 := c.isLt
  generalize (c.setWidth 64 * 0x0101010101010101#64) = w at hw
  apply BitVec.eq_of_toNat_eq
  rw [byteOf, BitVec.extractLsb'_toNat, Nat.shiftRight_eq_div_pow, hw]
  have : i = 0 ∨ i = 1 ∨ i = 2 ∨ i = 3 ∨ i = 4 ∨ i = 5 ∨ i = 6 ∨ i = 7 := by omega
  rcases this with rfl | rfl | rfl | rfl | rfl | rfl | rfl | rfl
  · exact rep_byte _ _ 0x0101010101010101 0x01010101010101 0 _ (by decide) (by decide) (by decide) hc
  · exact rep_byte _ _ 0x01010101010101 0x010101010101 0x01 _ (by decide) (by decide) (by decide) hc
  · exact rep_byte _ _ 0x010101010101 0x0101010101 0x0101 _ (by decide) (by decide) (by decide) hc
  · exact rep_byte _ _ 0x0101010101 0x01010101 0x010101 _ (by decide) (by decide) (by decide) hc
  · exact rep_byte _ _ 0x01010101 0x010101 0x01010101 _ (by decide) (by decide) (by decide) hc
  · exact rep_byte _ _ 0x010101 0x0101 0x0101010101 _ (by decide) (by decide) (by decide) hc
  · exact rep_byte _ _ 0x0101 0x01 0x010101010101 _ (by decide) (by decide) (by decide) hc
  · exact rep_byte _ _ 0x01 0x0 0x01010101010101 _ (by decide) (by decide) (by decide) hc

theorem setWidth8_c64 (c : Byte) : (c.setWidth 64 * 0x0101010101010101#64).setWidth 8 = c := by
  apply BitVec.eq_of_toNat_eq
  rw [BitVec.toNat_setWidth, c64_toNat]
  have h := rep_byte c.toNat 0x0101010101010101 0x0101010101010101 0x01010101010101 0 1
    (by decide) (by decide) (by decide) c.isLt
  rw [Nat.div_one] at h
  exact h

theorem x86_setBytes_runs (ermsb : Bool) (s : St) (p : Nat) (c : Byte) (n : Nat) (hd : p + n < 2 ^ 64) :
    Runs (FillFootprint p n) s (X86.setBytes ermsb s p c n) (filled s.mem p n c) := by
  unfold X86.setBytes
  split
  · have := (repStos_up (FillFootprint p n) 1 c c (byteOf_one c) n s p (by omega)
      (fun i hi => ⟨⟨by omega, by omega⟩, by omega⟩)).1
    rwa [Nat.one_mul] at this
  · obtain ⟨pre, q, b, hp, hsum, -, -, hq⟩ := repParam_eq p n
    rw [hp]
    simp only [setWidth8_c64]
    obtain ⟨a1, a2⟩ := repStos_up (FillFootprint p n) 1 c c (byteOf_one c) pre s p (by omega)
      (fun i hi => ⟨⟨by omega, by omega⟩, by omega⟩)
    rw [a2]
    obtain ⟨b1, b2⟩ := repStos_up (FillFootprint p n) 8 c _ (byteOf_c64 c) q
      (X86.repStos 1 c pre s p).1 (p + 1 * pre) (by omega) (fun i hi => ⟨⟨by omega, by omega⟩, by omega⟩)
    rw [b2]
    have c1 := (repStos_up (FillFootprint p n) 1 c c (byteOf_one c) b
      (X86.repStos 8 (c.setWidth 64 * 0x0101010101010101#64) q (X86.repStos 1 c pre s p).1
        (p + 1 * pre)).1 (p + 1 * pre + 8 * q) (by omega) (fun i hi => ⟨⟨by omega, by omega⟩, by omega⟩)).1
    refine (a1.trans (b1.trans c1)).congr ?_
    rw [b1.mem, a1.mem, filled_comp, filled_comp]
    congr 1; omega

end Origin
