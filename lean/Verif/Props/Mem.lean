import Verif.Proof.MemX86Copy
import Verif.Proof.MemScan
/-!
# C01–C06: the exported memory functions

`MemCfg` ranges over every build configuration: the size-optimised build, the word-at-a-time build
(4- and 8-byte words, both byte orders, with and without hardware unaligned access), and the
x86-64 build (with and without `ermsb`/`sse2`).
-/

namespace Origin
open Spec

/-- The range `[p, p+n)` does not run into the top of the address space (a Rust allocation never
does). -/
def InSpace (c : MemCfg) (p n : Nat) : Prop := p + n < 2 ^ (8 * c.ws)

/-- The target loads words at unaligned addresses (src/mem/impls.rs:23-28; x86-64 string instructions). -/
def MemCfg.hwUnaligned : MemCfg → Bool
  | .small _ => false
  | .fast (.x86_64 ..) => true
  | .fast (.generic _ _ hw) => hw

instance (c p n) : Decidable (InSpace c p n) := by unfold InSpace; infer_instance

theorem fwd_runs (c : MemCfg) (b : Backend) (hc : c = .fast b) (hv : c.Valid) (s : St) (d r n : Nat)
    (hd : InSpace c d n) (hr : InSpace c r n) (hov : d ≤ r ∨ r + n ≤ d) :
    Runs (CopyFootprint c.hwUnaligned d r n) s (b.copyForward s d r n) (moved s.mem d r n) := by
  subst hc
  simp only [InSpace, MemCfg.ws] at hd hr
  cases b with
  | x86_64 ermsb sse2 =>
    simp only [Backend.ws] at hd hr
    exact x86_copyForward_runs ermsb s d r n hd hr hov
  | generic e ws hw =>
    simp only [Backend.ws] at hd hr
    exact impls_copyForward_runs e ws hw hv s d r n (by omega) hr hov

theorem bwd_runs (c : MemCfg) (b : Backend) (hc : c = .fast b) (hv : c.Valid) (s : St) (d r n : Nat)
    (hn : 0 < n) (hd : InSpace c d n) (hr : InSpace c r n) (hov : r ≤ d ∨ d + n ≤ r) :
    Runs (CopyFootprint c.hwUnaligned d r n) s (b.copyBackward s d r n) (moved s.mem d r n) := by
  subst hc
  simp only [InSpace, MemCfg.ws] at hd hr
  cases b with
  | x86_64 ermsb sse2 =>
    simp only [Backend.ws] at hd hr
    exact x86_copyBackward_runs s d r n hn hd hr hov
  | generic e ws hw =>
    simp only [Backend.ws] at hd hr
    exact impls_copyBackward_runs e ws hw hv s d r n (by omega) hr hov

theorem memcpy_runs (c : MemCfg) (hv : c.Valid) (s : St) (d r n : Nat)
    (hd : InSpace c d n) (hr : InSpace c r n) (hov : d ≤ r ∨ r + n ≤ d) :
    (c.memcpy s d r n).1 = d ∧
    Runs (CopyFootprint c.hwUnaligned d r n) s (c.memcpy s d r n).2 (moved s.mem d r n) := by
  cases c with
  | small ws =>
    refine ⟨rfl, ?_⟩
    simp only [MemCfg.memcpy, Small.memcpy, copyUp_eq]
    exact copyForwardBytesLoop_runs _ n s d r hov
      (fun i hi => Or.inl ⟨⟨by omega, by omega⟩, Or.inr (Nat.one_dvd _)⟩)
        (fun i hi => ⟨⟨by omega, by omega⟩, Nat.one_dvd _⟩)
  | fast b => exact ⟨rfl, fwd_runs _ b rfl hv s d r n hd hr hov⟩

theorem memmove_runs (c : MemCfg) (hv : c.Valid) (s : St) (d r n : Nat)
    (hd : InSpace c d n) (hr : InSpace c r n) :
    (c.memmove s d r n).1 = d ∧
    Runs (CopyFootprint c.hwUnaligned d r n) s (c.memmove s d r n).2 (moved s.mem d r n) := by
  have hd' := hd
  have hr' := hr
  unfold InSpace at hd' hr'
  have hdelta := uwsub_eq c.ws d r (by omega) (by omega)
  cases c with
  | small ws =>
    simp only [MemCfg.ws] at hdelta hd' hr'
    simp only [MemCfg.memmove, Small.memmove]
    split
    · rename_i hge
      refine ⟨rfl, ?_⟩
      simp only [copyUp_eq]
      exact copyForwardBytesLoop_runs _ n s d r (by rw [hdelta] at hge; split at hge <;> omega)
        (fun i hi => Or.inl ⟨⟨by omega, by omega⟩, Or.inr (Nat.one_dvd _)⟩)
        (fun i hi => ⟨⟨by omega, by omega⟩, Nat.one_dvd _⟩)
    · rename_i hge
      refine ⟨rfl, ?_⟩
      simp only [copyDown_eq]
      exact copyBackwardBytesLoop_runs _ n s d r (by rw [hdelta] at hge; split at hge <;> omega)
        (fun i hi => Or.inl ⟨⟨by omega, by omega⟩, Or.inr (Nat.one_dvd _)⟩)
        (fun i hi => ⟨⟨by omega, by omega⟩, Nat.one_dvd _⟩)
  | fast b =>
    simp only [MemCfg.ws] at hdelta hd' hr'
    simp only [MemCfg.memmove, Fast.memmove]
    split
    · rename_i hge
      exact ⟨rfl, fwd_runs _ b rfl hv s d r n hd hr (by rw [hdelta] at hge; split at hge <;> omega)⟩
    · rename_i hge
      exact ⟨rfl, bwd_runs _ b rfl hv s d r n (by omega) hd hr
        (by rw [hdelta] at hge; split at hge <;> omega)⟩

theorem memset_runs (c : MemCfg) (hv : c.Valid) (s : St) (p : Nat) (x : BitVec 32) (n : Nat)
    (hd : InSpace c p n) :
    (c.memset s p x n).1 = p ∧
    Runs (FillFootprint p n) s (c.memset s p x n).2 (filled s.mem p n (x.setWidth 8)) := by
  cases c with
  | small ws =>
    refine ⟨rfl, ?_⟩
    simp only [MemCfg.memset, Small.memset, fillUp_eq]
    exact setBytesBytesLoop_runs _ _ n s p (fun i hi => ⟨⟨by omega, by omega⟩, Nat.one_dvd _⟩)
  | fast b =>
    refine ⟨rfl, ?_⟩
    simp only [InSpace, MemCfg.ws] at hd
    cases b with
    | x86_64 ermsb sse2 =>
      simp only [Backend.ws] at hd
      exact x86_setBytes_runs ermsb s p _ n hd
    | generic e ws hw =>
      simp only [Backend.ws] at hd
      exact impls_setBytes_runs e ws hv s p _ n (by omega)

theorem memcmp_runs (c : MemCfg) (s : St) (a b n : Nat) :
    Runs (CmpFootprint a b n) s (c.memcmp s a b n).2 s.mem ∧
    CmpResult s.mem a b n (c.memcmp s a b n).1 := by
  have hgen := compareBytesFrom_ok a b n n s 0 (by omega) (by omega) (fun j hj => absurd hj (by omega))
  cases c with
  | small ws =>
    simp only [MemCfg.memcmp, Small.memcmp, cmpFrom_eq]
    exact hgen
  | fast bk =>
    cases bk with
    | x86_64 ermsb sse2 => exact x86_compareBytes_ok s a b n
    | generic e ws hw => exact hgen

theorem strlen_runs (c : MemCfg) (s : St) (p L : Nat) (h : FirstNul s.mem p L) (fuel : Nat)
    (hf : L < fuel) :
    ∃ s', c.strlen fuel s p = some (L, s') ∧ Runs (ScanFootprint p (L + 1)) s s' s.mem := by
  have hgen := cStringLengthLoop_ok (ScanFootprint p (L + 1)) L fuel s p 0 h hf
    (fun i hi => Or.inl ⟨⟨by omega, by omega⟩, Nat.one_dvd _⟩)
  rw [Nat.zero_add] at hgen
  cases c with
  | small ws =>
    simp only [MemCfg.strlen, Small.strlen, lenFrom_eq]
    exact hgen
  | fast bk =>
    cases bk with
    | x86_64 ermsb sse2 =>
      simp only [MemCfg.strlen, Fast.strlen, Backend.cStringLength, X86.cStringLength]
      split
      · exact sse2_ok s p L h fuel hf
      · exact swar_ok s p L h fuel hf
    | generic e ws hw => exact hgen

/-! ### C01 -/

/-- **C01.** In every build, for non-overlapping ranges, `memcpy` returns `dest`, transfers exactly
the `n` source bytes, and changes no other byte. -/
theorem C01_memcpy (c : MemCfg) (hv : c.Valid) (s : St) (dest src n : Nat)
    (hd : InSpace c dest n) (hs : InSpace c src n)
    (hdisj : dest + n ≤ src ∨ src + n ≤ dest) :
    (c.memcpy s dest src n).1 = dest ∧
    (∀ i, i < n → (c.memcpy s dest src n).2.mem (dest + i) = s.mem (src + i)) ∧
    (∀ a, a < dest ∨ dest + n ≤ a → (c.memcpy s dest src n).2.mem a = s.mem a) := by
  obtain ⟨h1, h2⟩ := memcpy_runs c hv s dest src n hd hs (by omega)
  refine ⟨h1, fun i hi => ?_, fun a ha => ?_⟩
  · rw [h2.mem, moved, if_pos (by omega)]; congr 1; omega
  · rw [h2.mem, moved, if_neg (by omega)]

/-- A concrete memory used to show hypotheses are satisfiable: byte at `a` is `a` mod 256. -/
def demoSt : St := ⟨fun a => BitVec.ofNat 8 a, []⟩

-- Misaligned shift-and-merge copy of 37 bytes on a big-endian 4-byte-word machine.
example : InSpace (.fast (.generic .big 4 false)) 4099 37 ∧ InSpace (.fast (.generic .big 4 false)) 8206 37
    ∧ (MemCfg.fast (.generic .big 4 false)).Valid ∧ (4099 + 37 ≤ 8206 ∨ 8206 + 37 ≤ 4099) := by decide
-- The model computes: the copied byte really differs from what was there before.
example : ((MemCfg.fast (.generic .big 4 false)).memcpy demoSt 4099 8206 37).2.mem 4120 = 35#8
    ∧ demoSt.mem 4120 = 24#8 := by
  have h := (C01_memcpy (.fast (.generic .big 4 false)) (by decide) demoSt 4099 8206 37 (by decide)
    (by decide) (by decide)).2.1 21 (by decide)
  exact ⟨h, by decide⟩

/-! ### C02 -/

/-- **C02.** In every build, however the ranges overlap, `memmove` returns `dest`, leaves in the
destination the bytes the source held before the call, and changes no other byte. -/
theorem C02_memmove (c : MemCfg) (hv : c.Valid) (s : St) (dest src n : Nat)
    (hd : InSpace c dest n) (hs : InSpace c src n) :
    (c.memmove s dest src n).1 = dest ∧
    (∀ i, i < n → (c.memmove s dest src n).2.mem (dest + i) = s.mem (src + i)) ∧
    (∀ a, a < dest ∨ dest + n ≤ a → (c.memmove s dest src n).2.mem a = s.mem a) := by
  obtain ⟨h1, h2⟩ := memmove_runs c hv s dest src n hd hs
  refine ⟨h1, fun i hi => ?_, fun a ha => ?_⟩
  · rw [h2.mem, moved, if_pos (by omega)]; congr 1; omega
  · rw [h2.mem, moved, if_neg (by omega)]

-- Overlapping ranges, both directions.
example : ((MemCfg.fast (.x86_64 false true)).memmove demoSt 1003 1000 50).2.mem 1010 = demoSt.mem 1007 :=
  (C02_memmove (.fast (.x86_64 false true)) (by decide) demoSt 1003 1000 50 (by decide) (by decide)).2.1
    7 (by decide)
example : ((MemCfg.fast (.generic .little 8 false)).memmove demoSt 1000 1003 50).2.mem 1010 = demoSt.mem 1013 :=
  (C02_memmove (.fast (.generic .little 8 false)) (by decide) demoSt 1000 1003 50 (by decide) (by decide)).2.1
    10 (by decide)

/-! ### C03 -/

/-- **C03.** In every build `memset` returns `s`, makes each of the `n` bytes the low 8 bits of the
`int` `x`, and changes no other byte. -/
theorem C03_memset (c : MemCfg) (hv : c.Valid) (s : St) (p : Nat) (x : BitVec 32) (n : Nat)
    (hp : InSpace c p n) :
    (c.memset s p x n).1 = p ∧
    (∀ i, i < n → (c.memset s p x n).2.mem (p + i) = BitVec.ofNat 8 (x.toNat % 256)) ∧
    (∀ a, a < p ∨ p + n ≤ a → (c.memset s p x n).2.mem a = s.mem a) := by
  obtain ⟨h1, h2⟩ := memset_runs c hv s p x n hp
  refine ⟨h1, fun i hi => ?_, fun a ha => ?_⟩
  · rw [h2.mem, filled, if_pos (by omega)]
    apply BitVec.eq_of_toNat_eq
    rw [BitVec.toNat_setWidth, BitVec.toNat_ofNat]; omega
  · rw [h2.mem, filled, if_neg (by omega)]

-- A negative int: -2 stores 0xfe.
example : ((MemCfg.fast (.generic .little 8 true)).memset demoSt 1001 (-2#32) 50).2.mem 1030 = 0xfe#8 :=
  ((C03_memset (.fast (.generic .little 8 true)) (by decide) demoSt 1001 (-2#32) 50 (by decide)).2.1
    29 (by decide)).trans (by decide)

/-! ### C04 -/

/-- **C04.** In every build `memcmp` (and `bcmp`) is `0` iff the `n` bytes agree, and otherwise the
difference as unsigned bytes at the first index where they differ; memory is unchanged. -/
theorem C04_memcmp (c : MemCfg) (s : St) (a b n : Nat) :
    CmpResult s.mem a b n (c.memcmp s a b n).1 ∧ (c.memcmp s a b n).2.mem = s.mem ∧
    (c.bcmp s a b n).1 = (c.memcmp s a b n).1 :=
  ⟨(memcmp_runs c s a b n).2, (memcmp_runs c s a b n).1.mem, by cases c <;> rfl⟩

/-- `CmpResult` determines the result, so all builds agree and the value depends only on the two
ranges. -/
theorem CmpResult_unique {m m' : Mem} {a b n : Nat} {r r' : Int}
    (ha : ∀ i, i < n → m (a + i) = m' (a + i)) (hb : ∀ i, i < n → m (b + i) = m' (b + i))
    (h : CmpResult m a b n r) (h' : CmpResult m' a b n r') : r = r' := by
  rcases h with ⟨h1, rfl⟩ | ⟨i, hi, hl, hne, rfl⟩ <;>
    rcases h' with ⟨h1', rfl⟩ | ⟨i', hi', hl', hne', rfl⟩
  · rfl
  · exact absurd (by rw [← ha _ hi', ← hb _ hi']; exact h1 i' hi') hne'
  · exact absurd (by rw [ha _ hi, hb _ hi]; exact h1' i hi) hne
  · have : i = i' := by
      rcases Nat.lt_trichotomy i i' with hlt | heq | hgt
      · exact absurd (by rw [ha _ hi, hb _ hi]; exact hl' i hlt) hne
      · exact heq
      · exact absurd (by rw [← ha _ hi', ← hb _ hi']; exact hl i' hgt) hne'
    subst this
    rw [ha _ hi, hb _ hi]

/-- **C04** (agreement): any two builds, on memories that agree on the two ranges, return the same. -/
theorem C04_builds_agree (c c' : MemCfg) (s s' : St) (a b n : Nat)
    (ha : ∀ i, i < n → s.mem (a + i) = s'.mem (a + i))
    (hb : ∀ i, i < n → s.mem (b + i) = s'.mem (b + i)) :
    (c.memcmp s a b n).1 = (c'.memcmp s' a b n).1 :=
  CmpResult_unique ha hb (C04_memcmp c s a b n).1 (C04_memcmp c' s' a b n).1

/-- **C04** (sign): zero exactly when the ranges agree. -/
theorem C04_zero_iff (c : MemCfg) (s : St) (a b n : Nat) :
    (c.memcmp s a b n).1 = 0 ↔ ∀ i, i < n → s.mem (a + i) = s.mem (b + i) := by
  rcases (C04_memcmp c s a b n).1 with ⟨h, hr⟩ | ⟨i, hi, hl, hne, hr⟩
  · exact ⟨fun _ => h, fun _ => hr⟩
  · constructor
    · intro h0
      exfalso; apply hne
      apply BitVec.eq_of_toNat_eq
      omega
    · intro h; exact absurd (h i hi) hne

-- 0x80 > 0x01: unsigned comparison.
example : ((MemCfg.fast (.x86_64 true true)).memcmp ⟨fun a => if a = 40 then 0x80 else if a = 140 then 1 else 7, []⟩
    20 120 33).1 = 127 := by decide

/-! ### C05 -/

/-- **C05.** In every build, if the string at `p` has its first NUL at index `L`, `strlen` terminates
(with any iteration budget above `L`) and returns `L`, changing no memory. -/
theorem C05_strlen (c : MemCfg) (s : St) (p L : Nat) (h : FirstNul s.mem p L) :
    ∀ fuel, L < fuel → ∃ s', c.strlen fuel s p = some (L, s') ∧ s'.mem = s.mem := by
  intro fuel hf
  obtain ⟨s', e, r⟩ := strlen_runs c s p L h fuel hf
  exact ⟨s', e, r.mem⟩

/-- Every memory with a NUL at or after `p` has a first one. -/
theorem firstNul_exists (m : Mem) (p : Nat) (k : Nat) (h : m (p + k) = 0) : ∃ L, L ≤ k ∧ FirstNul m p L := by
  induction k using Nat.strongRecOn with
  | ind k ih =>
    by_cases hex : ∃ j, j < k ∧ m (p + j) = 0
    · obtain ⟨j, hj, hz⟩ := hex
      obtain ⟨L, hL, hF⟩ := ih j hj hz
      exact ⟨L, by omega, hF⟩
    · exact ⟨k, by omega, h, fun j hj hz => hex ⟨j, hj, hz⟩⟩

/-- **C05**, in the form of the property: a terminator somewhere is enough. -/
theorem C05_strlen_terminated (c : MemCfg) (s : St) (p k : Nat) (h : s.mem (p + k) = 0) :
    ∃ L, L ≤ k ∧ s.mem (p + L) = 0 ∧ (∀ j, j < L → s.mem (p + j) ≠ 0) ∧
      ∀ fuel, k < fuel → ∃ s', c.strlen fuel s p = some (L, s') := by
  obtain ⟨L, hL, hF⟩ := firstNul_exists s.mem p k h
  refine ⟨L, hL, hF.1, hF.2, fun fuel hf => ?_⟩
  obtain ⟨s', e, _⟩ := C05_strlen c s p L hF fuel (by omega)
  exact ⟨s', e⟩

example : ∃ s', (MemCfg.fast (.x86_64 false false)).strlen 100 demoSt 200 = some (56, s') := by
  obtain ⟨s', e, _⟩ := C05_strlen (.fast (.x86_64 false false)) demoSt 200 56
    (show FirstNul demoSt.mem 200 56 from ⟨by decide, by decide⟩) 100 (by decide)
  exact ⟨s', e⟩

/-! ### C06 -/

/-- The accesses made by running from `s` to `s'` (the log grows by them). -/
def NewAccesses (s s' : St) (P : Access → Prop) : Prop := ∃ l, s'.log = l ++ s.log ∧ ∀ x ∈ l, P x

/-- **C06** (copies). Every store `memcpy`/`memmove` makes is inside the destination; every load is
inside the source or is a naturally aligned word holding at least one source byte.  Stores are
naturally aligned; loads are too unless the target has hardware unaligned access (C48). -/
theorem C06_copy_footprint (c : MemCfg) (hv : c.Valid) (s : St) (dest src n : Nat)
    (hd : InSpace c dest n) (hs : InSpace c src n) :
    NewAccesses s (c.memmove s dest src n).2 (CopyFootprint c.hwUnaligned dest src n) ∧
    ((dest + n ≤ src ∨ src + n ≤ dest) →
      NewAccesses s (c.memcpy s dest src n).2 (CopyFootprint c.hwUnaligned dest src n)) :=
  ⟨(memmove_runs c hv s dest src n hd hs).2.log,
   fun h => (memcpy_runs c hv s dest src n hd hs (by omega)).2.log⟩

/-- **C06** (fill). `memset` loads nothing and stores only into `[p, p+n)`. -/
theorem C06_fill_footprint (c : MemCfg) (hv : c.Valid) (s : St) (p : Nat) (x : BitVec 32) (n : Nat)
    (hp : InSpace c p n) : NewAccesses s (c.memset s p x n).2 (FillFootprint p n) :=
  (memset_runs c hv s p x n hp).2.log

/-- **C06** (comparison). `memcmp` loads only bytes of the two ranges and stores nothing. -/
theorem C06_cmp_footprint (c : MemCfg) (s : St) (a b n : Nat) :
    NewAccesses s (c.memcmp s a b n).2 (CmpFootprint a b n) :=
  (memcmp_runs c s a b n).1.log

/-- **C06** (scan). Every load `strlen` makes is a byte of the string or terminator, or a naturally
aligned block holding at least one of them; it stores nothing. -/
theorem C06_scan_footprint (c : MemCfg) (s s' : St) (p L fuel r : Nat) (h : FirstNul s.mem p L)
    (hf : L < fuel) (hr : c.strlen fuel s p = some (r, s')) :
    NewAccesses s s' (ScanFootprint p (L + 1)) := by
  obtain ⟨s2, e, rr⟩ := strlen_runs c s p L h fuel hf
  rw [e] at hr
  cases hr
  exact rr.log

/-- **C06** (pages). An access allowed by the load footprints lies in the page of an operand byte:
for every page size that is a multiple of 16, each byte accessed shares its page with a byte of the
operand range. -/
theorem C06_same_page (lo n addr size page : Nat) (hpage : 16 ∣ page)
    (h : Within lo n addr size ∨ AlignedTouching lo n addr size) (x : Nat)
    (hx : addr ≤ x ∧ x < addr + size) :
    ∃ b, lo ≤ b ∧ b < lo + n ∧ b / page = x / page := by
  rcases h with ⟨h1, h2⟩ | ⟨hsz, ⟨q, hq⟩, b, hb1, hb2, hb3, hb4⟩
  · exact ⟨x, by omega, by omega, rfl⟩
  · refine ⟨b, hb1, hb2, ?_⟩
    have hdvd : size ∣ page := by
      refine Nat.dvd_trans ?_ hpage
      rcases hsz with rfl | rfl | rfl <;> decide
    obtain ⟨k, rfl⟩ := hdvd
    have hpos : 0 < size := by omega
    have e1 : b / size = q := by
      rw [hq] at hb3 hb4
      exact Nat.div_eq_of_lt_le (by rw [Nat.mul_comm]; exact hb3)
        (by rw [Nat.add_mul, Nat.mul_comm]; omega)
    have e2 : x / size = q := by
      rw [hq] at hx
      exact Nat.div_eq_of_lt_le (by rw [Nat.mul_comm]; exact hx.1)
        (by rw [Nat.add_mul, Nat.mul_comm]; omega)
    rw [← Nat.div_div_eq_div_mul, ← Nat.div_div_eq_div_mul, e1, e2]

/-! ### C48 -/

/-- The access is naturally aligned. -/
def Access.aligned : Access → Prop
  | .ld a k => k ∣ a
  | .st a k => k ∣ a

/-- **C48.** Every store of `memcpy`, `memmove` and `memset` is naturally aligned, and so is every load
on a target without hardware unaligned access. -/
theorem C48_aligned_accesses (c : MemCfg) (hv : c.Valid) (s : St) (dest src n : Nat) (x : BitVec 32)
    (hd : InSpace c dest n) (hs : InSpace c src n) :
    NewAccesses s (c.memmove s dest src n).2 (fun a => (∃ p k, a = .ld p k ∧ c.hwUnaligned = true) ∨ a.aligned) ∧
    ((dest + n ≤ src ∨ src + n ≤ dest) → NewAccesses s (c.memcpy s dest src n).2
      (fun a => (∃ p k, a = .ld p k ∧ c.hwUnaligned = true) ∨ a.aligned)) ∧
    NewAccesses s (c.memset s dest x n).2 Access.aligned := by
  have key : ∀ a, CopyFootprint c.hwUnaligned dest src n a →
      (∃ p k, a = .ld p k ∧ c.hwUnaligned = true) ∨ a.aligned := by
    intro a ha
    cases a with
    | ld p k =>
      rcases ha with ⟨_, h | h⟩ | ⟨_, h, _⟩
      · exact Or.inl ⟨p, k, rfl, h⟩
      · exact Or.inr h
      · exact Or.inr h
    | st p k => exact Or.inr ha.2
  have fp := C06_copy_footprint c hv s dest src n hd hs
  refine ⟨?_, fun h => ?_, ?_⟩
  · obtain ⟨l, e, p⟩ := fp.1
    exact ⟨l, e, fun y hy => key y (p y hy)⟩
  · obtain ⟨l, e, p⟩ := fp.2 h
    exact ⟨l, e, fun y hy => key y (p y hy)⟩
  · obtain ⟨l, e, p⟩ := C06_fill_footprint c hv s dest x n hd
    refine ⟨l, e, fun y hy => ?_⟩
    have := p y hy
    cases y with
    | ld => exact this.elim
    | st => exact this.2

-- The wide-load case really occurs: the SSE2 scan of a string at 200 loads the block at 192.
example : AlignedTouching 200 57 192 16 := ⟨by decide, by decide, 204, by decide⟩

end Origin
