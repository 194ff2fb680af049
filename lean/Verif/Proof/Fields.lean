import Verif.Model.Layout
import Verif.Proof.MemBytes
import Verif.Proof.Usize
/-!
# Reading back typed stores, struct layouts
-/

namespace Origin

theorem ldN_congr {e : Endian} {n a a' : Nat} {m m' : Mem}
    (h : ∀ i, i < n → m (a + i) = m' (a' + i)) : ldN e n m a = ldN e n m' a' := by
  unfold ldN
  congr 1
  apply byteOf_ext (e := e)
  intro i hi
  rw [byteOf_wordAt _ _ _ _ _ hi, byteOf_wordAt _ _ _ _ _ hi, h i hi]

theorem ldN_stN_same {e : Endian} {n : Nat} {m : Mem} {a v : Nat} :
    ldN e n (stN e n m a v) a = v % 2 ^ (8 * n) := by
  unfold ldN
  have : wordAt e n (stN e n m a v) a = BitVec.ofNat (8 * n) v := by
    apply byteOf_ext (e := e)
    intro i hi
    rw [byteOf_wordAt _ _ _ _ _ hi]
    unfold stN
    rw [if_pos (by omega)]
    congr 1; omega
  rw [this, BitVec.toNat_ofNat]

theorem ldN_stN_of_lt {e : Endian} {n : Nat} {m : Mem} {a v : Nat} (h : v < 2 ^ (8 * n)) :
    ldN e n (stN e n m a v) a = v := by
  rw [ldN_stN_same, Nat.mod_eq_of_lt h]

theorem stN_frame {e : Endian} {n : Nat} {m : Mem} {a v x : Nat} (h : x < a ∨ a + n ≤ x) :
    stN e n m a v x = m x := by
  unfold stN; rw [if_neg (by omega)]

theorem ldN_stN_disj {e : Endian} {n k : Nat} {m : Mem} {a b v : Nat} (h : b + k ≤ a ∨ a + n ≤ b) :
    ldN e k (stN e n m a v) b = ldN e k m b := by
  apply ldN_congr
  intro i hi
  exact stN_frame (by omega)

theorem stFields_frame {e : Endian} {base : Nat} {m : Mem} {fs : List FieldVal} {x : Nat}
    (h : ∀ f ∈ fs, x < base + f.off ∨ base + f.off + f.size ≤ x) : stFields e base m fs x = m x := by
  induction fs generalizing m with
  | nil => rfl
  | cons f fs ih =>
    show stFields e base (stN e f.size m (base + f.off) f.val) fs x = m x
    rw [ih (fun g hg => h g (List.mem_cons_of_mem _ hg))]
    exact stN_frame (h f List.mem_cons_self)

theorem ldN_stFields {e : Endian} {base : Nat} {m : Mem} {fs : List FieldVal}
    (hd : fs.Pairwise fun f g => f.off + f.size ≤ g.off ∨ g.off + g.size ≤ f.off)
    {f : FieldVal} (hf : f ∈ fs) :
    ldN e f.size (stFields e base m fs) (base + f.off) = f.val % 2 ^ (8 * f.size) := by
  induction fs generalizing m with
  | nil => cases hf
  | cons g fs ih =>
    rw [List.pairwise_cons] at hd
    show ldN e f.size (stFields e base (stN e g.size m (base + g.off) g.val) fs) _ = _
    rcases List.mem_cons.mp hf with rfl | hf'
    · have : ldN e f.size (stFields e base (stN e f.size m (base + f.off) f.val) fs) (base + f.off)
          = ldN e f.size (stN e f.size m (base + f.off) f.val) (base + f.off) := by
        apply ldN_congr
        intro i hi
        apply stFields_frame
        intro g hg
        have := hd.1 g hg
        omega
      rw [this, ldN_stN_same]
    · exact ih hd.2 hf'

/-! ### struct layouts -/

theorem ws_pos (a : Arch) : 0 < a.ws := by cases a <;> decide

theorem abiSize_eq (a : Arch) : abiSize a =
    match a with | .x86_64 => 48 | .x86 => 24 | .aarch64 => 24 | .arm => 16 | .riscv64 => 16 := by
  cases a <;> decide

theorem abiOff_pointee (a : Arch) : abiOff a .pointee =
    match a with | .x86_64 => 0 | .x86 => 0 | .aarch64 => 8 | .arm => 4 | .riscv64 => 16 := by
  cases a <;> decide

theorem abiOff_canary (a : Arch) : abiOff a .canary =
    match a with | .x86_64 => 40 | .x86 => 20 | .aarch64 => 0 | .arm => 0 | .riscv64 => 0 := by
  cases a <;> decide

theorem metaAlign_eq (a : Arch) : metaAlign a =
    match a with | .x86 => 4 | _ => 8 := by
  cases a <;> decide

/-- Where the two parts of `Metadata` are. -/
theorem meta_layout (a : Arch) (t : ThreadLayout) (h : t.Valid a) :
    (a.variantI = true → metaOff a t .thread = 0 ∧ metaOff a t .abi = natRoundUp t.size (abiAlign a) ∧
      metaSize a t = natRoundUp t.size (abiAlign a) + abiSize a) ∧
    (a.variantI = false → metaOff a t .abi = 0 ∧ metaOff a t .thread = abiSize a ∧
      metaSize a t = abiSize a + t.size) := by
  have hs := h.sizeAligned
  constructor
  · intro hv
    have e0 : metaOff a t .thread = natRoundUp 0 a.ws := by
      simp [metaOff, fieldOff, metaFields, hv, layoutFrom]
    have e1 : metaOff a t .abi = natRoundUp (natRoundUp 0 a.ws + t.size) (abiAlign a) := by
      simp [metaOff, fieldOff, metaFields, hv, layoutFrom, List.lookup]; rfl
    have e2 : metaSize a t
        = natRoundUp (natRoundUp (natRoundUp 0 a.ws + t.size) (abiAlign a) + abiSize a) (metaAlign a) := by
      simp [metaSize, structSize, metaFields, hv, layoutFrom]
    have z : natRoundUp 0 a.ws = 0 := natRoundUp_of_dvd (ws_pos a) (Nat.dvd_zero _)
    rw [z, Nat.zero_add] at e1 e2
    refine ⟨by rw [e0, z], e1, ?_⟩
    rw [e2]
    apply natRoundUp_of_dvd
    · cases a <;> decide
    · have h1 : metaAlign a = abiAlign a := by cases a <;> first | rfl | (exfalso; revert hv; decide)
      rw [h1]
      apply Nat.dvd_add (dvd_natRoundUp _ _)
      cases a <;> decide
  · intro hv
    have e0 : metaOff a t .abi = natRoundUp 0 (abiAlign a) := by
      simp [metaOff, fieldOff, metaFields, hv, layoutFrom]
    have e1 : metaOff a t .thread = natRoundUp (natRoundUp 0 (abiAlign a) + abiSize a) a.ws := by
      simp [metaOff, fieldOff, metaFields, hv, layoutFrom, List.lookup]; rfl
    have e2 : metaSize a t
        = natRoundUp (natRoundUp (natRoundUp 0 (abiAlign a) + abiSize a) a.ws + t.size) (metaAlign a) := by
      simp [metaSize, structSize, metaFields, hv, layoutFrom]
    have z : natRoundUp 0 (abiAlign a) = 0 :=
      natRoundUp_of_dvd (by cases a <;> decide) (Nat.dvd_zero _)
    rw [z, Nat.zero_add] at e1 e2
    have z1 : natRoundUp (abiSize a) a.ws = abiSize a :=
      natRoundUp_of_dvd (ws_pos a) (by cases a <;> decide)
    rw [z1] at e1 e2
    refine ⟨by rw [e0, z], e1, ?_⟩
    rw [e2]
    apply natRoundUp_of_dvd
    · cases a <;> decide
    · have h1 : metaAlign a = a.ws := by cases a <;> first | rfl | (exfalso; revert hv; decide)
      rw [h1]
      exact Nat.dvd_add (by cases a <;> decide) hs

/-- Both parts of `Metadata` are inside it and disjoint. -/
theorem meta_parts (a : Arch) (t : ThreadLayout) (h : t.Valid a) :
    metaOff a t .abi + abiSize a ≤ metaSize a t ∧ metaOff a t .thread + t.size ≤ metaSize a t ∧
    (metaOff a t .abi + abiSize a ≤ metaOff a t .thread ∨
      metaOff a t .thread + t.size ≤ metaOff a t .abi) := by
  obtain ⟨h1, h2⟩ := meta_layout a t h
  have hle : t.size ≤ natRoundUp t.size (abiAlign a) := le_natRoundUp (by cases a <;> decide)
  cases hv : a.variantI with
  | true => obtain ⟨q1, q2, q3⟩ := h1 hv; omega
  | false => obtain ⟨q1, q2, q3⟩ := h2 hv; omega

theorem metaAlign_dvd_metaSize (a : Arch) (t : ThreadLayout) : metaAlign a ∣ metaSize a t :=
  dvd_natRoundUp _ _

theorem metaSize_pos (a : Arch) (t : ThreadLayout) (h : t.Valid a) : 0 < metaSize a t := by
  have := (meta_parts a t h).1
  have : 0 < abiSize a := by rw [abiSize_eq]; cases a <;> decide
  omega

/-- The ABI fields are inside `Abi` and disjoint. -/
theorem abiVals_ok (a : Arch) (canary newtls : Nat) :
    (∀ f ∈ abiVals a canary newtls, f.off + f.size ≤ abiSize a) ∧
    (abiVals a canary newtls).Pairwise fun f g => f.off + f.size ≤ g.off ∨ g.off + g.size ≤ f.off := by
  have : (∀ f ∈ (abiVals a canary newtls).map (fun f => (f.off, f.size)), f.1 + f.2 ≤ abiSize a) ∧
    ((abiVals a canary newtls).map (fun f => (f.off, f.size))).Pairwise
      fun f g => f.1 + f.2 ≤ g.1 ∨ g.1 + g.2 ≤ f.1 := by
    cases a <;> (simp only [abiVals, List.map]; decide)
  obtain ⟨h1, h2⟩ := this
  refine ⟨fun f hf => h1 (f.off, f.size) (List.mem_map_of_mem hf), ?_⟩
  rw [List.pairwise_map] at h2
  exact h2

theorem threadVals_map (a : Arch) (t : ThreadLayout) (p q r s : Nat) :
    (threadVals a t p q r s).map (fun f => (f.off, f.size)) = t.extents a := by
  unfold threadVals ThreadLayout.extents errnoVals ThreadLayout.errnoExtent
  cases t.errno <;> rfl

/-- No field is empty. -/
theorem extents_pos {a : Arch} {t : ThreadLayout} {o n : Nat} (h : (o, n) ∈ t.extents a) : 0 < n := by
  have := ws_pos a
  unfold ThreadLayout.extents ThreadLayout.errnoExtent at h
  cases he : t.errno <;> rw [he] at h <;>
    simp only [List.cons_append, List.nil_append, List.mem_cons, Prod.mk.injEq, List.not_mem_nil, or_false] at h <;>
    omega

/-- The fields every build has are disjoint. -/
theorem ThreadLayout.Valid.disjointBase {a : Arch} {t : ThreadLayout} (h : t.Valid a) :
    [(t.tid, 4), (t.detached, 1), (t.stackAddr, a.ws), (t.stackSize, a.ws), (t.guardSize, a.ws),
      (t.mapSize, a.ws), (t.returnValue, a.ws)].Pairwise fun f g => f.1 + f.2 ≤ g.1 ∨ g.1 + g.2 ≤ f.1 := by
  have := h.disjoint
  unfold ThreadLayout.extents at this
  exact (List.pairwise_append.mp this).1

theorem threadVals_ok (a : Arch) (t : ThreadLayout) (h : t.Valid a) (p q r s : Nat) :
    (∀ f ∈ threadVals a t p q r s, f.off + f.size ≤ t.size) ∧
    (threadVals a t p q r s).Pairwise fun f g => f.off + f.size ≤ g.off ∨ g.off + g.size ≤ f.off := by
  have h1 := h.inside
  have h2 := h.disjoint
  rw [← threadVals_map a t p q r s] at h1 h2
  refine ⟨fun f hf => h1 (f.off, f.size) (List.mem_map_of_mem hf), ?_⟩
  rw [List.pairwise_map] at h2
  exact h2

theorem metaVals_ok (a : Arch) (t : ThreadLayout) (h : t.Valid a) (cn nt p q r s : Nat) :
    (∀ f ∈ metaVals a t cn nt p q r s, f.off + f.size ≤ metaSize a t) ∧
    (metaVals a t cn nt p q r s).Pairwise fun f g => f.off + f.size ≤ g.off ∨ g.off + g.size ≤ f.off := by
  obtain ⟨p1, p2, p3⟩ := meta_parts a t h
  obtain ⟨a1, a2⟩ := abiVals_ok a cn nt
  obtain ⟨t1, t2⟩ := threadVals_ok a t h p q r s
  constructor
  · intro f hf
    rcases List.mem_append.mp hf with hf | hf <;>
      (obtain ⟨g, hg, rfl⟩ := List.mem_map.mp hf)
    · have := a1 g hg; simp only; omega
    · have := t1 g hg; simp only; omega
  · unfold metaVals
    rw [List.pairwise_append]
    refine ⟨?_, ?_, ?_⟩
    · unfold shiftVals; rw [List.pairwise_map]; exact a2.imp (fun h => by simp only; omega)
    · unfold shiftVals; rw [List.pairwise_map]; exact t2.imp (fun h => by simp only; omega)
    · intro f hf g hg
      obtain ⟨f', hf', rfl⟩ := List.mem_map.mp hf
      obtain ⟨g', hg', rfl⟩ := List.mem_map.mp hg
      have := a1 f' hf'
      have := t1 g' hg'
      simp only; omega

theorem writeStruct_frame {e : Endian} {m : Mem} {base size : Nat} {junk : Nat → Byte}
    {fs : List FieldVal} (hb : ∀ f ∈ fs, f.off + f.size ≤ size) {x : Nat}
    (hx : x < base ∨ base + size ≤ x) : writeStruct e m base size junk fs x = m x := by
  unfold writeStruct
  rw [stFields_frame (fun f hf => by have := hb f hf; omega), if_neg (by omega)]

theorem stWords_frame {e : Endian} {ws : Nat} {m : Mem} {a : Nat} {vs : List Nat} {x : Nat}
    (hx : x < a ∨ a + ws * vs.length ≤ x) : stWords e ws m a vs x = m x := by
  induction vs generalizing m a with
  | nil => rfl
  | cons v vs ih =>
    simp only [List.length_cons, Nat.mul_add, Nat.mul_one] at hx
    show stWords e ws (stN e ws m a v) (a + ws) vs x = m x
    have h2 : 0 ≤ ws * vs.length := Nat.zero_le _
    rw [ih (by omega), stN_frame (by omega)]

theorem ldN_stWords {e : Endian} {ws : Nat} {m : Mem} {a : Nat} {vs : List Nat} {i : Nat}
    (hi : i < vs.length) (hv : vs[i] < 2 ^ (8 * ws)) :
    ldN e ws (stWords e ws m a vs) (a + ws * i) = vs[i] := by
  induction vs generalizing m a i with
  | nil => cases hi
  | cons v vs ih =>
    show ldN e ws (stWords e ws (stN e ws m a v) (a + ws) vs) _ = _
    cases i with
    | zero =>
      have : ldN e ws (stWords e ws (stN e ws m a v) (a + ws) vs) (a + ws * 0)
          = ldN e ws (stN e ws m a v) a := by
        apply ldN_congr
        intro j hj
        rw [stWords_frame (by omega), Nat.mul_zero, Nat.add_zero]
      rw [this, ldN_stN_of_lt (by simpa using hv)]; rfl
    | succ i =>
      simp only [List.getElem_cons_succ] at hv ⊢
      have e2 : a + ws * (i + 1) = a + ws + ws * i := by rw [Nat.mul_add, Nat.mul_one]; omega
      rw [e2, ih (by simpa using hi) hv]

end Origin
