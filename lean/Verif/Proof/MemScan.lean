import Verif.Proof.MemCopy
/-!
# Comparison and string length
-/

namespace Origin
open Spec

/-! ### comparison -/

theorem ld8_runs (P : Access → Prop) (s : St) (a : Nat) (h : P (.ld a 1)) :
    Runs P s (s.ld8 a).2 s.mem := Runs.ld s a 1 h

theorem compareBytesFrom_ok (a b n : Nat) (k : Nat) : ∀ (s : St) (i : Nat), n - i = k → i ≤ n →
    (∀ j, j < i → s.mem (a + j) = s.mem (b + j)) →
    Runs (CmpFootprint a b n) s (Impls.compareBytesFrom s a b i n).2 s.mem ∧
    CmpResult s.mem a b n (Impls.compareBytesFrom s a b i n).1 := by
  induction k with
  | zero =>
    intro s i hk hi heq
    have : i = n := by omega
    subst this
    rw [Impls.compareBytesFrom, if_neg (by omega)]
    exact ⟨Runs.refl _ _, Or.inl ⟨heq, rfl⟩⟩
  | succ k ih =>
    intro s i hk hi heq
    rw [Impls.compareBytesFrom, if_pos (by omega)]
    simp only
    have r1 := ld8_runs (CmpFootprint a b n) s (a + i) (Or.inl ⟨by omega, by omega⟩)
    have r2 := ld8_runs (CmpFootprint a b n) (s.ld8 (a + i)).2 (b + i) (Or.inr ⟨by omega, by omega⟩)
    split
    · rename_i hne
      refine ⟨r1.trans r2, Or.inr ⟨i, by omega, heq, hne, rfl⟩⟩
    · rename_i hne
      have hne' : s.mem (a + i) = s.mem (b + i) := Decidable.of_not_not hne
      obtain ⟨i1, i2⟩ := ih ((s.ld8 (a + i)).2.ld8 (b + i)).2 (i + 1) (by omega) (by omega)
        (fun j hj => by
          by_cases h : j < i
          · exact heq j h
          · have : j = i := by omega
            subst this; exact hne')
      exact ⟨r1.trans (r2.trans i1), i2⟩

theorem cmpFrom_eq (s : St) (a b i n : Nat) : Small.cmpFrom s a b i n = Impls.compareBytesFrom s a b i n := by
  induction hk : n - i using Nat.strongRecOn generalizing s i with
  | ind k ih =>
    rw [Small.cmpFrom, Impls.compareBytesFrom]
    split
    · simp only
      split
      · rfl
      · exact ih (n - (i + 1)) (by omega) _ _ rfl
    · rfl

/-- `f n s a b` compares `n` bytes correctly, reading nothing else. -/
def CmpOK (f : Nat → St → Nat → Nat → Int × St) : Prop :=
  ∀ n s a b, Runs (CmpFootprint a b n) s (f n s a b).2 s.mem ∧ CmpResult s.mem a b n (f n s a b).1

theorem Spec.CmpResult.cons {m : Mem} {a b k n : Nat} {r : Int} (h : CmpResult m (a + k) (b + k) n r)
    (heq : ∀ i, i < k → m (a + i) = m (b + i)) : CmpResult m a b (k + n) r := by
  have hx : ∀ i n', (∀ j, j < n' → m (a + k + j) = m (b + k + j)) → i < k + n' → m (a + i) = m (b + i) := by
    intro i n' hall hi
    by_cases hk : i < k
    · exact heq i hk
    · have := hall (i - k) (by omega)
      have e1 : a + k + (i - k) = a + i := by omega
      have e2 : b + k + (i - k) = b + i := by omega
      rwa [e1, e2] at this
  rcases h with ⟨hall, rfl⟩ | ⟨i, hi, hlt, hne, rfl⟩
  · exact Or.inl ⟨fun i hi => hx i n hall hi, rfl⟩
  · refine Or.inr ⟨k + i, by omega, fun j hj => hx j i hlt hj, ?_, ?_⟩
    · rwa [← Nat.add_assoc, ← Nat.add_assoc]
    · rw [← Nat.add_assoc, ← Nat.add_assoc]

theorem Spec.CmpResult.prefix {m : Mem} {a b k n : Nat} {r : Int} (h : CmpResult m a b k r)
    (hne : ¬ ∀ i, i < k → m (a + i) = m (b + i)) (hk : k ≤ n) : CmpResult m a b n r := by
  rcases h with ⟨hall, _⟩ | ⟨i, hi, hlt, hd, hr⟩
  · exact absurd hall hne
  · exact Or.inr ⟨i, by omega, hlt, hd, hr⟩

theorem Spec.CmpFootprint.mono {a b n a' b' n' : Nat} (ha : a ≤ a') (hb : b ≤ b') (hna : a' + n' ≤ a + n)
    (hnb : b' + n' ≤ b + n) (x : Access) (h : CmpFootprint a' b' n' x) : CmpFootprint a b n x := by
  cases x with
  | ld x k =>
    rcases h with ⟨h1, h2⟩ | ⟨h1, h2⟩
    · exact Or.inl ⟨by omega, by omega⟩
    · exact Or.inr ⟨by omega, by omega⟩
  | st => exact h

theorem c1_ok : CmpOK X86.c1 := by
  intro n
  induction n with
  | zero => intro s a b; exact ⟨Runs.refl _ _, Or.inl ⟨fun i hi => absurd hi (by omega), rfl⟩⟩
  | succ n ih =>
    intro s a b
    simp only [X86.c1]
    have r1 := ld8_runs (CmpFootprint a b (n + 1)) s a (Or.inl ⟨by omega, by omega⟩)
    have r2 := ld8_runs (CmpFootprint a b (n + 1)) (s.ld8 a).2 b (Or.inr ⟨by omega, by omega⟩)
    split
    · rename_i hne
      have r3 := ld8_runs (CmpFootprint a b (n + 1)) ((s.ld8 a).2.ld8 b).2 a (Or.inl ⟨by omega, by omega⟩)
      have r4 := ld8_runs (CmpFootprint a b (n + 1)) (((s.ld8 a).2.ld8 b).2.ld8 a).2 b
        (Or.inr ⟨by omega, by omega⟩)
      exact ⟨r1.trans (r2.trans (r3.trans r4)),
        Or.inr ⟨0, by omega, fun j hj => absurd hj (by omega), hne, rfl⟩⟩
    · rename_i hne
      have hne' : s.mem a = s.mem b := Decidable.of_not_not hne
      obtain ⟨i1, i2⟩ := ih ((s.ld8 a).2.ld8 b).2 (a + 1) (b + 1)
      refine ⟨r1.trans (r2.trans (i1.mono ?_)), ?_⟩
      · exact fun x => CmpFootprint.mono (by omega) (by omega) (by omega) (by omega) x
      · have := CmpResult.cons (k := 1) i2 (fun i hi => by
          have : i = 0 := by omega
          subst this; exact hne')
        rwa [Nat.add_comm 1 n] at this

theorem wordAt_eq_iff (e : Endian) (ws : Nat) (m : Mem) (a b : Nat) :
    wordAt e ws m a = wordAt e ws m b ↔ ∀ i, i < ws → m (a + i) = m (b + i) := by
  constructor
  · intro h i hi
    rw [← byteOf_wordAt e ws m a i hi, ← byteOf_wordAt e ws m b i hi, h]
  · intro h
    apply byteOf_ext (e := e)
    intro i hi
    rw [byteOf_wordAt _ _ _ _ _ hi, byteOf_wordAt _ _ _ _ _ hi, h i hi]

theorem cmpLoop_ok (sz : Nat) (f) (hf : CmpOK f) (rest k : Nat) : ∀ s a b,
    Runs (CmpFootprint a b (sz * k + rest)) s (X86.cmpLoop sz f rest k s a b).2 s.mem ∧
    CmpResult s.mem a b (sz * k + rest) (X86.cmpLoop sz f rest k s a b).1 := by
  induction k with
  | zero =>
    intro s a b
    simp only [X86.cmpLoop, Nat.mul_zero, Nat.zero_add]
    exact hf rest s a b
  | succ k ih =>
    intro s a b
    simp only [X86.cmpLoop]
    have e1 : sz * (k + 1) + rest = sz + (sz * k + rest) := by rw [Nat.mul_succ]; omega
    rw [e1]
    have r1 := Runs.ld (P := CmpFootprint a b (sz + (sz * k + rest))) s a sz (Or.inl ⟨by omega, by omega⟩)
    have r2 := Runs.ld (P := CmpFootprint a b (sz + (sz * k + rest)))
      { s with log := .ld a sz :: s.log } b sz (Or.inr ⟨by omega, by omega⟩)
    simp only at r2
    split
    · rename_i hne
      obtain ⟨i1, i2⟩ := hf sz { s with log := .ld b sz :: .ld a sz :: s.log } a b
      refine ⟨r1.trans (r2.trans (i1.mono ?_)), i2.prefix ?_ (by omega)⟩
      · exact fun x => CmpFootprint.mono (by omega) (by omega) (by omega) (by omega) x
      · intro hall
        exact hne ((wordAt_eq_iff .little sz s.mem a b).mpr hall)
    · rename_i hne
      have heq := (wordAt_eq_iff .little sz s.mem a b).mp (Decidable.of_not_not hne)
      obtain ⟨i1, i2⟩ := ih { s with log := .ld b sz :: .ld a sz :: s.log } (a + sz) (b + sz)
      refine ⟨r1.trans (r2.trans (i1.mono ?_)), i2.cons heq⟩
      exact fun x => CmpFootprint.mono (by omega) (by omega) (by omega) (by omega) x

theorem cmp_ok (sz : Nat) (f) (hf : CmpOK f) : CmpOK (X86.cmp sz f) := by
  intro n s a b
  have := cmpLoop_ok sz f hf (n % sz) (n / sz) s a b
  rw [Nat.div_add_mod] at this
  exact this

theorem x86_compareBytes_ok (s : St) (a b n : Nat) :
    Runs (CmpFootprint a b n) s (X86.compareBytes s a b n).2 s.mem ∧
    CmpResult s.mem a b n (X86.compareBytes s a b n).1 :=
  cmp_ok 16 _ (cmp_ok 8 _ (cmp_ok 4 _ (cmp_ok 2 _ c1_ok))) n s a b

/-! ### string length: byte loops -/

theorem cStringLengthLoop_ok (P : Access → Prop) (L : Nat) : ∀ (fuel : Nat) (s : St) (p n : Nat),
    FirstNul s.mem p L → L < fuel → (∀ i, i ≤ L → P (.ld (p + i) 1)) →
    ∃ s', Impls.cStringLengthLoop fuel s p n = some (n + L, s') ∧ Runs P s s' s.mem := by
  induction L with
  | zero =>
    intro fuel s p n h hf hP
    obtain ⟨f, rfl⟩ : ∃ f, fuel = f + 1 := ⟨fuel - 1, by omega⟩
    refine ⟨(s.ld8 p).2, ?_, ld8_runs P s p (by simpa using hP 0 (by omega))⟩
    have h0 : s.mem p = 0 := by simpa using h.1
    simp [Impls.cStringLengthLoop, St.ld8, h0]
  | succ L ih =>
    intro fuel s p n h hf hP
    obtain ⟨f, rfl⟩ : ∃ f, fuel = f + 1 := ⟨fuel - 1, by omega⟩
    have h0 : s.mem p ≠ 0 := by simpa using h.2 0 (by omega)
    obtain ⟨s', e, r⟩ := ih f (s.ld8 p).2 (p + 1) (n + 1)
      ⟨by have := h.1; rw [← this]; simp only [St.ld8]; congr 1; omega,
       fun j hj => by have := h.2 (j + 1) (by omega); rw [Nat.add_comm j 1, ← Nat.add_assoc] at this; exact this⟩
      (by omega)
      (fun i hi => by have := hP (i + 1) (by omega); rwa [Nat.add_comm i 1, ← Nat.add_assoc] at this)
    refine ⟨s', ?_, (ld8_runs P s p (by simpa using hP 0 (by omega))).trans r⟩
    simp only [Impls.cStringLengthLoop]
    rw [if_pos (by simpa [St.ld8] using h0), e]
    congr 2; omega

theorem lenFrom_eq (fuel : Nat) (s : St) (p n : Nat) :
    Small.lenFrom fuel s p n = Impls.cStringLengthLoop fuel s p n := by
  induction fuel generalizing s p n with
  | zero => rfl
  | succ f ih => simp only [Small.lenFrom, Impls.cStringLengthLoop, ih]

/-! ### string length: SSE2 blocks -/

theorem Spec.FirstNul.shift {m : Mem} {p L k : Nat} (h : FirstNul m p L) (hk : k ≤ L) :
    FirstNul m (p + k) (L - k) := by
  refine ⟨?_, fun j hj => ?_⟩
  · have := h.1; rw [← this]; congr 1; omega
  · have := h.2 (k + j) (by omega); rwa [← Nat.add_assoc] at this

theorem zeroMaskFrom_lt (x : BitVec (8 * 16)) (k : Nat) : X86.zeroMaskFrom x k < 2 ^ k := by
  induction k with
  | zero => simp [X86.zeroMaskFrom]
  | succ k ih => simp only [X86.zeroMaskFrom]; rw [Nat.pow_succ]; split <;> omega

theorem zeroMaskFrom_bit (x : BitVec (8 * 16)) (k i : Nat) (hi : i < k) :
    (X86.zeroMaskFrom x k).testBit i = decide (byteOf .little x i = 0) := by
  induction k with
  | zero => omega
  | succ k ih =>
    simp only [X86.zeroMaskFrom]
    have hlt := zeroMaskFrom_lt x k
    by_cases h : i < k
    · rw [← ih h]
      split
      · rw [Nat.add_comm, Nat.testBit_two_pow_add_gt h]
      · simp
    · have : i = k := by omega
      subst this
      split
      · rename_i h0
        rw [Nat.add_comm, Nat.testBit_two_pow_add_eq, Nat.testBit_lt_two_pow hlt]; simp [h0]
      · rename_i h0
        rw [Nat.add_zero, Nat.testBit_lt_two_pow hlt]; simpa using h0

theorem trailingZeros_eq (t : Nat) : ∀ (fuel x : Nat), t < fuel → x.testBit t = true →
    (∀ j, j < t → x.testBit j = false) → X86.trailingZeros fuel x = t := by
  induction t with
  | zero =>
    intro fuel x hf hb _
    obtain ⟨f, rfl⟩ : ∃ f, fuel = f + 1 := ⟨fuel - 1, by omega⟩
    rw [Nat.testBit_zero] at hb
    have : x % 2 = 1 := by simpa using hb
    simp [X86.trailingZeros, this]
  | succ t ih =>
    intro fuel x hf hb hl
    obtain ⟨f, rfl⟩ : ∃ f, fuel = f + 1 := ⟨fuel - 1, by omega⟩
    have h0 := hl 0 (by omega)
    rw [Nat.testBit_zero] at h0
    have h0' : ¬ x % 2 = 1 := by simpa using h0
    simp only [X86.trailingZeros, if_neg h0']
    rw [ih f (x / 2) (by omega) (by rwa [Nat.testBit_succ] at hb)
      (fun j hj => by have := hl (j + 1) (by omega); rwa [Nat.testBit_succ] at this)]
    omega

/-- The mask of a block, shifted by `al`: bit `i` says whether the byte at `p + al + i` is NUL. -/
theorem mask_bit (m : Mem) (p al i : Nat) (h : al + i < 16) :
    (X86.zeroMask (wordAt .little 16 m p) >>> al).testBit i = decide (m (p + al + i) = 0) := by
  rw [Nat.testBit_shiftRight, X86.zeroMask, zeroMaskFrom_bit _ _ _ h, byteOf_wordAt _ _ _ _ _ h,
    Nat.add_assoc]

theorem mask_bit_ge (x : BitVec (8 * 16)) (al i : Nat) (h : 16 ≤ al + i) :
    (X86.zeroMask x >>> al).testBit i = false := by
  rw [Nat.testBit_shiftRight]
  exact Nat.testBit_lt_two_pow (Nat.lt_of_lt_of_le (zeroMaskFrom_lt x 16)
    (Nat.pow_le_pow_right (by omega) h))

/-- One block: the shifted mask is zero iff the string does not end in the block, and otherwise its
trailing-zero count is the index of the NUL. -/
theorem mask_spec (m : Mem) (p al L : Nat) (hal : al < 16) (h : FirstNul m (p + al) L) :
    if al + L < 16 then
      X86.zeroMask (wordAt .little 16 m p) >>> al ≠ 0 ∧
      X86.trailingZeros 32 (X86.zeroMask (wordAt .little 16 m p) >>> al) = L
    else X86.zeroMask (wordAt .little 16 m p) >>> al = 0 := by
  split
  · rename_i hlt
    have hb : (X86.zeroMask (wordAt .little 16 m p) >>> al).testBit L = true := by
      rw [mask_bit m p al L hlt, h.1]; simp
    refine ⟨?_, trailingZeros_eq L 32 _ (by omega) hb ?_⟩
    · intro h0; rw [h0] at hb; simp at hb
    · intro j hj
      rw [mask_bit m p al j (by omega)]
      simpa using h.2 j hj
  · rename_i hge
    apply Nat.eq_of_testBit_eq
    intro i
    rw [Nat.zero_testBit]
    by_cases hi : al + i < 16
    · rw [mask_bit m p al i hi]
      simpa using h.2 i (by omega)
    · exact mask_bit_ge _ _ _ (by omega)

theorem lenBlocks_ok (P : Access → Prop) : ∀ (fuel : Nat) (s : St) (p n L : Nat),
    FirstNul s.mem p L → L < 16 * fuel → 16 ∣ p → (∀ a, 16 ∣ a → p ≤ a → a ≤ p + L → P (.ld a 16)) →
    ∃ s', X86.lenBlocks fuel s p n = some (n + L, s') ∧ Runs P s s' s.mem := by
  intro fuel
  induction fuel with
  | zero => intro s p n L _ h; omega
  | succ f ih =>
    intro s p n L h hf hp hP
    have key := mask_spec s.mem p 0 L (by omega) h
    rw [Nat.shiftRight_zero, Nat.zero_add] at key
    have r1 := Runs.ld (P := P) s p 16 (hP p hp (by omega) (by omega))
    simp only [X86.lenBlocks]
    split at key
    · rw [if_neg (show ¬ X86.zeroMask (s.ldW .little 16 p).1 = 0 from key.1)]
      refine ⟨_, ?_, r1⟩
      show some (n + X86.trailingZeros 32 (X86.zeroMask (wordAt .little 16 s.mem p)), _) = _
      rw [key.2]; rfl
    · rw [if_pos (show X86.zeroMask (s.ldW .little 16 p).1 = 0 from key)]
      obtain ⟨s', e, r⟩ := ih (s.ldW .little 16 p).2 (p + 16) (n + 16) (L - 16)
        (h.shift (by omega)) (by omega) (by omega) (fun a ha h1 h2 => hP a ha (by omega) (by omega))
      refine ⟨s', ?_, r1.trans r⟩
      rw [e]; congr 2; omega

theorem lenProbe_ok (P : Access → Prop) (k : Nat) : ∀ (s : St) (p n L : Nat), FirstNul s.mem p L →
    (∀ i, i ≤ L → P (.ld (p + i) 1)) →
    if L < k then ∃ s', X86.lenProbe k s p n = .inl (n + L, s') ∧ Runs P s s' s.mem
    else ∃ s', X86.lenProbe k s p n = .inr (s', p + k, n + k) ∧ Runs P s s' s.mem := by
  induction k with
  | zero =>
    intro s p n L _ _
    rw [if_neg (by omega)]
    exact ⟨s, rfl, Runs.refl _ _⟩
  | succ k ih =>
    intro s p n L h hP
    simp only [X86.lenProbe]
    have r1 := ld8_runs P s p (hP 0 (by omega))
    by_cases h0 : L = 0
    · subst h0
      have hz : s.mem p = 0 := h.1
      rw [if_pos (by omega)]
      refine ⟨(s.ld8 p).2, ?_, r1⟩
      rw [if_pos (show (s.ld8 p).1 = 0 from hz)]; rfl
    · have hz : s.mem p ≠ 0 := by simpa using h.2 0 (by omega)
      have := ih (s.ld8 p).2 (p + 1) (n + 1) (L - 1) (h.shift (by omega))
        (fun i hi => by have := hP (1 + i) (by omega); rwa [← Nat.add_assoc] at this)
      rw [if_neg (show ¬ (s.ld8 p).1 = 0 from hz)]
      split
      · rw [if_pos (by omega)] at this
        obtain ⟨s', e, r⟩ := this
        refine ⟨s', ?_, r1.trans r⟩
        rw [e]; congr 2; omega
      · rw [if_neg (by omega)] at this
        obtain ⟨s', e, r⟩ := this
        refine ⟨s', ?_, r1.trans r⟩
        rw [e]; congr 3 <;> omega

theorem sse2_ok (s : St) (p L : Nat) (h : FirstNul s.mem p L) (fuel : Nat) (hf : L < fuel) :
    ∃ s', X86.cStringLengthSse2 fuel s p = some (L, s') ∧ Runs (ScanFootprint p (L + 1)) s s' s.mem := by
  unfold X86.cStringLengthSse2
  have hp := lenProbe_ok (ScanFootprint p (L + 1)) 4 s p 0 L h
    (fun i hi => Or.inl ⟨⟨by omega, by omega⟩, Nat.one_dvd _⟩)
  split at hp
  · obtain ⟨s', e, r⟩ := hp
    rw [e]
    exact ⟨s', by simp, r⟩
  · rename_i hge
    obtain ⟨s1, e, r1⟩ := hp
    rw [e]
    simp only
    have hal : (p + 4) &&& 15 = (p + 4) % 16 := Nat.and_two_pow_sub_one_eq_mod (p + 4) 4
    rw [hal]
    have hlt : (p + 4) % 16 < 16 := by omega
    have hF : FirstNul s1.mem (p + 4 - (p + 4) % 16 + (p + 4) % 16) (L - 4) := by
      have e2 : p + 4 - (p + 4) % 16 + (p + 4) % 16 = p + 4 := by omega
      rw [e2, r1.mem]; exact h.shift (by omega)
    have key := mask_spec s1.mem _ _ _ hlt hF
    have r2 := Runs.ld (P := ScanFootprint p (L + 1)) s1 (p + 4 - (p + 4) % 16) 16
      (Or.inr ⟨by omega, by omega, p + 4, by omega, by omega, by omega, by omega⟩)
    split at key
    · rw [if_pos (show X86.zeroMask (s1.ldW .little 16 (p + 4 - (p + 4) % 16)).1 >>> ((p + 4) % 16) ≠ 0
        from key.1)]
      refine ⟨_, ?_, (r1.trans r2).congr r1.mem⟩
      show some (0 + 4 + X86.trailingZeros 32
        (X86.zeroMask (wordAt .little 16 s1.mem (p + 4 - (p + 4) % 16)) >>> ((p + 4) % 16)), _) = _
      rw [key.2]
      congr 2; omega
    · rw [if_neg (show ¬ X86.zeroMask (s1.ldW .little 16 (p + 4 - (p + 4) % 16)).1 >>> ((p + 4) % 16) ≠ 0
        from fun h => h key)]
      obtain ⟨s', e3, r3⟩ := lenBlocks_ok (ScanFootprint p (L + 1)) fuel
        (s1.ldW .little 16 (p + 4 - (p + 4) % 16)).2
        (p + 4 - (p + 4) % 16 + 16) (0 + 4 + (16 - (p + 4) % 16)) (L - (20 - (p + 4) % 16))
        (by
          have := h.shift (k := 20 - (p + 4) % 16) (by omega)
          have e4 : p + (20 - (p + 4) % 16) = p + 4 - (p + 4) % 16 + 16 := by omega
          rw [e4] at this
          show FirstNul s1.mem _ _
          rw [r1.mem]; exact this)
        (by omega) (by omega)
        (fun a h1 h2 h3 => Or.inr ⟨by omega, h1, a, by omega, by omega, by omega, by omega⟩)
      refine ⟨s', ?_, (r1.trans (r2.trans r3)).congr r1.mem⟩
      rw [e3]; congr 2; omega

/-! ### string length: 8-byte words with the zero-byte test -/

/-- `0x0101…01` with `n` bytes. -/
def ones (n : Nat) : BitVec (8 * n) := packLE (fun _ => 1#8) n
/-- `0x8080…80` with `n` bytes. -/
def highs (n : Nat) : BitVec (8 * n) := packLE (fun _ => 0x80#8) n

/-- The zero-byte test (x86_64.rs:291) on `n` bytes. -/
def zeroTest (n : Nat) (w : BitVec (8 * n)) : BitVec (8 * n) := (w - ones n) &&& ~~~ w &&& highs n

theorem toNat_append8 {n : Nat} (x : BitVec n) (a : BitVec 8) :
    (x ++ a).toNat = x.toNat * 256 + a.toNat := by
  rw [BitVec.toNat_append, Nat.shiftLeft_eq]
  have := Nat.two_pow_add_eq_or_of_lt (b := a.toNat) (i := 8) a.isLt x.toNat
  rw [Nat.mul_comm x.toNat, ← this]

theorem sub_append {n : Nat} (x y : BitVec n) (a b : BitVec 8) (h : b.toNat ≤ a.toNat) :
    (x ++ a) - (y ++ b) = (x - y) ++ (a - b) := by
  symm
  rw [BitVec.eq_sub_iff_add_eq]
  apply BitVec.eq_of_toNat_eq
  rw [BitVec.toNat_add, toNat_append8, toNat_append8, toNat_append8]
  have hb : (a - b).toNat = a.toNat - b.toNat := BitVec.toNat_sub_of_le h
  have hx : ((x - y).toNat + y.toNat) % 2 ^ n = x.toNat := by
    rw [← BitVec.toNat_add, BitVec.sub_add_cancel]
  have ha := a.isLt
  rw [hb, Nat.add_comm n 8, Nat.pow_add, Nat.mod_mul, ← hx]
  generalize (x - y).toNat = u at *
  generalize y.toNat = v at *
  have e1 : (u * 256 + (a.toNat - b.toNat) + (v * 256 + b.toNat)) / 2 ^ 8 = u + v := by omega
  rw [e1]
  omega

/-- Full domain: every non-zero byte. -/
theorem byte_test (b : Byte) (h : b ≠ 0) : (b - 1#8) &&& ~~~ b &&& 0x80#8 = 0#8 := by
  have h1 : 1 ≤ b.toNat := by
    have : b.toNat ≠ 0 := fun h' => h (BitVec.eq_of_toNat_eq (by simpa using h'))
    omega
  have hlt := b.isLt
  have e1 : (b - 1#8).toNat = b.toNat - 1 := BitVec.toNat_sub_of_le (show (1#8).toNat ≤ b.toNat from h1)
  have hk : ∀ j, j < 8 → j ≠ 7 → (0x80#8).getLsbD j = false := by decide
  apply BitVec.eq_of_getLsbD_eq
  intro j hj
  rw [BitVec.getLsbD_and, BitVec.getLsbD_and, BitVec.getLsbD_not]
  by_cases h7 : j = 7
  · subst h7
    rw [BitVec.getLsbD, BitVec.getLsbD, e1]
    by_cases h128 : b.toNat < 128
    · rw [Nat.testBit_lt_two_pow (show b.toNat - 1 < 2 ^ 7 by omega)]; rfl
    · have : b.toNat.testBit 7 = true := by
        rw [Nat.testBit_eq_decide_div_mod_eq]
        have : b.toNat / 2 ^ 7 % 2 = 1 := by omega
        simp [this]
      rw [this]; simp
  · rw [hk j hj h7]; simp

theorem zeroTest_succ (n : Nat) (f : Nat → Byte) (h0 : f 0 ≠ 0) :
    zeroTest (n + 1) (packLE f (n + 1)) = zeroTest n (packLE (fun i => f (i + 1)) n) ++ (0 : BitVec 8) := by
  have h1 : (1#8).toNat ≤ (f 0).toNat := by
    have : (f 0).toNat ≠ 0 := fun h => h0 (BitVec.eq_of_toNat_eq (by simpa using h))
    show 1 ≤ _
    omega
  have hb := byte_test (f 0) h0
  show ((packLE (fun i => f (i + 1)) n ++ f 0) - (ones n ++ 1#8)) &&&
      ~~~ (packLE (fun i => f (i + 1)) n ++ f 0) &&& (highs n ++ 0x80#8) = _
  rw [sub_append _ _ _ _ h1, BitVec.not_append, BitVec.and_append, BitVec.and_append, hb]
  rfl

theorem zeroTest_zero (n : Nat) (f : Nat → Byte) (h0 : f 0 = 0) :
    zeroTest (n + 1) (packLE f (n + 1)) ≠ 0 := by
  intro h
  have hbit := congrArg (fun x => BitVec.getLsbD x 7) h
  have hsub : ((packLE (fun i => f (i + 1)) n ++ f 0) - (ones n ++ 1#8)).getLsbD 7 = true := by
    rw [BitVec.getLsbD, BitVec.toNat_sub, toNat_append8, toNat_append8, h0]
    have h8 : 2 ^ (8 * n + 8) = 2 ^ (8 * n) * 256 := Nat.pow_add 2 (8 * n) 8
    have hx := (packLE (fun i => f (i + 1)) n).isLt
    have hy := (ones n).isLt
    rw [h8]
    generalize (packLE (fun i => f (i + 1)) n).toNat = x at *
    generalize (ones n).toNat = y at *
    generalize hN : 2 ^ (8 * n) = N at *
    have e1 : (1#8).toNat = 1 := rfl
    have e0 : (0 : Byte).toNat = 0 := rfl
    rw [e1, e0]
    have e2 : N * 256 - (y * 256 + 1) + (x * 256 + 0) = 255 + 256 * (N - 1 - y + x) := by omega
    rw [e2, Nat.mul_comm N 256, Nat.mod_mul]
    have e3 : (255 + 256 * (N - 1 - y + x)) % 256 = 255 := by omega
    rw [e3]
    have : (255 + 256 * ((255 + 256 * (N - 1 - y + x)) / 256 % N)).testBit 7
        = (255 : Nat).testBit 7 := by
      rw [Nat.testBit_eq_decide_div_mod_eq, Nat.testBit_eq_decide_div_mod_eq]
      generalize ((255 + 256 * (N - 1 - y + x)) / 256 % N) = z
      congr 1
      have : (255 + 256 * z) / 2 ^ 7 % 2 = 255 / 2 ^ 7 % 2 := by omega
      rw [this]
    rw [this]; rfl
  have hn : (packLE (fun i => f (i + 1)) n ++ f 0).getLsbD 7 = false := by
    rw [BitVec.getLsbD_append, h0]; rfl
  have hh : (highs n ++ 0x80#8).getLsbD 7 = true := by
    rw [BitVec.getLsbD_append]; rfl
  have : BitVec.getLsbD (((packLE (fun i => f (i + 1)) n ++ f 0) - (ones n ++ 1#8)) &&&
      ~~~ (packLE (fun i => f (i + 1)) n ++ f 0) &&& (highs n ++ 0x80#8)) 7 = true := by
    rw [BitVec.getLsbD_and, BitVec.getLsbD_and, BitVec.getLsbD_not, hsub, hn, hh]
    simp
  have hbit' : BitVec.getLsbD (((packLE (fun i => f (i + 1)) n ++ f 0) - (ones n ++ 1#8)) &&&
      ~~~ (packLE (fun i => f (i + 1)) n ++ f 0) &&& (highs n ++ 0x80#8)) 7 = false := by
    have e : (((packLE (fun i => f (i + 1)) n ++ f 0) - (ones n ++ 1#8)) &&&
      ~~~ (packLE (fun i => f (i + 1)) n ++ f 0) &&& (highs n ++ 0x80#8)) = 0#(8 * n + 8) := h
    rw [e]; simp
  rw [this] at hbit'
  exact Bool.noConfusion hbit'

/-- The zero-byte test is exact. -/
theorem zeroTest_iff (n : Nat) (f : Nat → Byte) :
    zeroTest n (packLE f n) ≠ 0 ↔ ∃ i, i < n ∧ f i = 0 := by
  induction n generalizing f with
  | zero =>
    constructor
    · intro h; exact absurd (BitVec.eq_of_toNat_eq (by omega)) h
    · rintro ⟨i, hi, _⟩; omega
  | succ n ih =>
    by_cases h0 : f 0 = 0
    · exact ⟨fun _ => ⟨0, by omega, h0⟩, fun _ => zeroTest_zero n f h0⟩
    · rw [zeroTest_succ n f h0]
      have hx : zeroTest n (packLE (fun i => f (i + 1)) n) ++ (0 : BitVec 8) ≠ 0 ↔
          zeroTest n (packLE (fun i => f (i + 1)) n) ≠ 0 := by
        apply not_congr
        constructor
        · intro h
          apply BitVec.eq_of_toNat_eq
          have := congrArg BitVec.toNat h
          rw [toNat_append8] at this
          have e0 : (0 : BitVec 8).toNat = 0 := rfl
          have e1 : (0 : BitVec (8 * n + 8)).toNat = 0 := by simp
          have e2 : (0 : BitVec (8 * n)).toNat = 0 := by simp
          rw [e2]
          have h3 : (zeroTest n (packLE (fun i => f (i + 1)) n)).toNat * 256 + (0 : BitVec 8).toNat = 0 :=
            this.trans e1
          rw [e0] at h3
          omega
        · intro h
          rw [h]; apply BitVec.eq_of_toNat_eq; rw [toNat_append8]; simp
      refine hx.trans ?_
      rw [ih]
      constructor
      · rintro ⟨i, hi, h⟩; exact ⟨i + 1, by omega, h⟩
      · rintro ⟨i, hi, h⟩
        cases i with
        | zero => exact absurd h h0
        | succ i => exact ⟨i, by omega, h⟩

theorem swar_test (m : Mem) (p : Nat) :
    ((wordAt .little 8 m p - 0x0101010101010101#64) &&& ~~~ wordAt .little 8 m p
      &&& 0x8080808080808080#64 ≠ 0) ↔ ∃ i, i < 8 ∧ m (p + i) = 0 :=
  zeroTest_iff 8 (fun i => m (p + i))

theorem lowZero_ok (k : Nat) : ∀ (fuel : Nat) (cs : BitVec 64) (n : Nat), k < fuel →
    cs.extractLsb' (8 * k) 8 = 0 → (∀ j, j < k → cs.extractLsb' (8 * j) 8 ≠ 0) →
    X86.lowZero fuel cs n = n + k := by
  have hlow : ∀ cs : BitVec 64, cs &&& 255#64 = 0 ↔ cs.extractLsb' 0 8 = 0 := by
    intro cs
    have e1 : (cs &&& 255#64).toNat = cs.toNat % 256 := by
      rw [BitVec.toNat_and]; exact Nat.and_two_pow_sub_one_eq_mod cs.toNat 8
    have e2 : (cs.extractLsb' 0 8).toNat = cs.toNat % 256 := by
      rw [BitVec.extractLsb'_toNat, Nat.shiftRight_zero]
    constructor
    · intro h; apply BitVec.eq_of_toNat_eq; rw [e2, ← e1, h]; rfl
    · intro h; apply BitVec.eq_of_toNat_eq; rw [e1, ← e2, h]; rfl
  have hsh : ∀ (cs : BitVec 64) (j : Nat), (cs >>> 8).extractLsb' (8 * j) 8 = cs.extractLsb' (8 * (j + 1)) 8 := by
    intro cs j
    apply BitVec.eq_of_getLsbD_eq
    intro i hi
    rw [BitVec.getLsbD_extractLsb', BitVec.getLsbD_extractLsb', BitVec.getLsbD_ushiftRight]
    congr 2; omega
  induction k with
  | zero =>
    intro fuel cs n hf h0 _
    obtain ⟨f, rfl⟩ : ∃ f, fuel = f + 1 := ⟨fuel - 1, by omega⟩
    simp only [X86.lowZero]
    rw [if_pos ((hlow cs).mpr h0)]; rfl
  | succ k ih =>
    intro fuel cs n hf h0 hl
    obtain ⟨f, rfl⟩ : ∃ f, fuel = f + 1 := ⟨fuel - 1, by omega⟩
    simp only [X86.lowZero]
    rw [if_neg (fun h => hl 0 (by omega) ((hlow cs).mp h))]
    rw [ih f (cs >>> 8) (n + 1) (by omega) (by rw [hsh]; exact h0)
      (fun j hj => by rw [hsh]; exact hl (j + 1) (by omega))]
    omega

theorem lenWords_ok (P : Access → Prop) : ∀ (fuel : Nat) (s : St) (p n L : Nat),
    FirstNul s.mem p L → L < 8 * fuel → 8 ∣ p → (∀ a, 8 ∣ a → p ≤ a → a ≤ p + L → P (.ld a 8)) →
    ∃ s', X86.lenWords fuel s p n = some (n + L, s') ∧ Runs P s s' s.mem := by
  intro fuel
  induction fuel with
  | zero => intro s p n L _ h; omega
  | succ f ih =>
    intro s p n L h hf hp hP
    have r1 := Runs.ld (P := P) s p 8 (hP p hp (by omega) (by omega))
    simp only [X86.lenWords]
    by_cases hL : L < 8
    · have hc : ((s.ldW .little 8 p).1 - 0x0101010101010101#64) &&& ~~~ (s.ldW .little 8 p).1
          &&& 0x8080808080808080#64 ≠ 0 := (swar_test s.mem p).mpr ⟨L, hL, h.1⟩
      rw [if_pos hc]
      refine ⟨_, ?_, r1⟩
      show some (X86.lowZero 9 (wordAt .little 8 s.mem p) n, _) = _
      rw [lowZero_ok L 9 _ n (by omega)
        (by have := byteOf_wordAt .little 8 s.mem p L hL
            rw [h.1] at this; exact this)
        (fun j hj => by
          have := byteOf_wordAt .little 8 s.mem p j (by omega)
          have h2 := h.2 j hj
          rw [← this] at h2; exact h2)]
      rfl
    · have hc : ¬ ((s.ldW .little 8 p).1 - 0x0101010101010101#64) &&& ~~~ (s.ldW .little 8 p).1
          &&& 0x8080808080808080#64 ≠ 0 := fun hc => by
        obtain ⟨i, hi, hz⟩ := (swar_test s.mem p).mp hc
        exact h.2 i (by omega) hz
      rw [if_neg hc]
      obtain ⟨s', e, r⟩ := ih (s.ldW .little 8 p).2 (p + 8) (n + 8) (L - 8)
        (h.shift (by omega)) (by omega) (by omega) (fun a ha h1 h2 => hP a ha (by omega) (by omega))
      refine ⟨s', ?_, r1.trans r⟩
      rw [e]; congr 2; omega

theorem lenAlign_ok (P : Access → Prop) (fuel : Nat) : ∀ (s : St) (p n L : Nat), FirstNul s.mem p L →
    (8 - p % 8) % 8 < fuel → (∀ i, i ≤ L → P (.ld (p + i) 1)) →
    if L < (8 - p % 8) % 8 then ∃ s', X86.lenAlign fuel s p n = .inl (n + L, s') ∧ Runs P s s' s.mem
    else ∃ s', X86.lenAlign fuel s p n = .inr (s', p + (8 - p % 8) % 8, n + (8 - p % 8) % 8) ∧
      Runs P s s' s.mem := by
  induction fuel with
  | zero => intro s p n L _ h; omega
  | succ f ih =>
    intro s p n L h hf hP
    have h7 : p &&& 7 = p % 8 := Nat.and_two_pow_sub_one_eq_mod p 3
    simp only [X86.lenAlign]
    rw [h7]
    by_cases ha : p % 8 = 0
    · rw [if_neg (by omega), if_neg (by omega)]
      refine ⟨s, ?_, Runs.refl _ _⟩
      have e : (8 - p % 8) % 8 = 0 := by omega
      rw [e]; rfl
    · rw [if_pos ha]
      have r1 := ld8_runs P s p (hP 0 (by omega))
      by_cases h0 : L = 0
      · subst h0
        have hz : s.mem p = 0 := h.1
        rw [if_pos (by omega)]
        refine ⟨(s.ld8 p).2, ?_, r1⟩
        rw [if_pos (show (s.ld8 p).1 = 0 from hz)]; rfl
      · have hz : s.mem p ≠ 0 := by simpa using h.2 0 (by omega)
        have := ih (s.ld8 p).2 (p + 1) (n + 1) (L - 1) (h.shift (by omega)) (by omega)
          (fun i hi => by have := hP (1 + i) (by omega); rwa [← Nat.add_assoc] at this)
        rw [if_neg (show ¬ (s.ld8 p).1 = 0 from hz)]
        split
        · rw [if_pos (by omega)] at this
          obtain ⟨s', e, r⟩ := this
          refine ⟨s', ?_, r1.trans r⟩
          rw [e]; congr 2; omega
        · rw [if_neg (by omega)] at this
          obtain ⟨s', e, r⟩ := this
          refine ⟨s', ?_, r1.trans r⟩
          rw [e]; congr 3 <;> omega

theorem swar_ok (s : St) (p L : Nat) (h : FirstNul s.mem p L) (fuel : Nat) (hf : L < fuel) :
    ∃ s', X86.cStringLengthSwar fuel s p = some (L, s') ∧ Runs (ScanFootprint p (L + 1)) s s' s.mem := by
  unfold X86.cStringLengthSwar
  have hp := lenAlign_ok (ScanFootprint p (L + 1)) 8 s p 0 L h (by omega)
    (fun i hi => Or.inl ⟨⟨by omega, by omega⟩, Nat.one_dvd _⟩)
  split at hp
  · obtain ⟨s', e, r⟩ := hp
    rw [e]
    exact ⟨s', by simp, r⟩
  · obtain ⟨s1, e, r1⟩ := hp
    rw [e]
    simp only
    have hs := h.shift (k := (8 - p % 8) % 8) (by omega)
    obtain ⟨s', e3, r3⟩ := lenWords_ok (ScanFootprint p (L + 1)) fuel s1 (p + (8 - p % 8) % 8)
      (0 + (8 - p % 8) % 8) (L - (8 - p % 8) % 8) (by rw [r1.mem]; exact hs) (by omega) (by omega)
      (fun a h1 h2 h3 => Or.inr ⟨by omega, h1, a, by omega, by omega, by omega, by omega⟩)
    refine ⟨s', ?_, (r1.trans r3).congr r1.mem⟩
    rw [e3]; congr 2; omega

end Origin
