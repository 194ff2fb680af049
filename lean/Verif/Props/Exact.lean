import Verif.Props.Layout
import Verif.Props.Relocate
import Verif.Props.Asm
/-!
# Exactly when C08, C36, C40 and C46 hold
-/

namespace Origin
open Origin.Spec

/-! ## C08 -/

/-- Reduction modulo the size of the address space, with the size visible. -/
theorem roundDown_mod {U b x : Nat} (_hb : 0 < b) (hd : b ∣ U) (hU : 0 < U) : x % U - x % U % b = (x / b * b) % U := by
  obtain ⟨q, rfl⟩ := hd
  have h0 : x % (b * q) % b = x % b := by rw [Nat.mod_mul_right_mod]
  have h1 := Nat.div_add_mod x (b * q)
  have h2 := Nat.mod_lt x hU
  have h3 := Nat.div_add_mod x b
  have h4 : x % (b * q) % b ≤ x % (b * q) := Nat.mod_le _ _
  have : x / b * b = b * q * (x / (b * q)) + (x % (b * q) - x % (b * q) % b) := by
    rw [Nat.mul_comm (x / b)]; omega
  rw [this, Nat.mul_add_mod]
  exact (Nat.mod_eq_of_lt (by omega)).symm

theorem roundUp_mod {ws a b : Nat} (hb : ∃ k, b = 2 ^ k) (hlt : b < umax ws) : roundUp ws a b = natRoundUp a b % umax ws := by
  obtain ⟨k, rfl⟩ := hb
  have hk : k < 8 * ws := (Nat.pow_lt_pow_iff_right (by omega)).mp hlt
  rw [roundUp_gen ws a k hk]
  unfold natRoundUp
  exact roundDown_mod (Nat.two_pow_pos k) (Nat.pow_dvd_pow 2 (Nat.le_of_lt hk)) (umax_pos ws)

theorem natRoundUp_mod {U a b : Nat} (hb : 0 < b) (hd : b ∣ U) (hU : 0 < U) : natRoundUp (a % U) b % U = natRoundUp a b % U := by
  unfold natRoundUp
  rw [← roundDown_mod hb hd hU, ← roundDown_mod hb hd hU, Nat.mod_add_mod]

theorem calculateTlsSize_mod {c : Cfg} (h : CfgOk c) (lo m : Nat) :
    (calculateTlsSize c (m % umax c.ws)).mapSize = (areasFrom c lo m).stop % umax c.ws := by
  have q1 := h.tlsAlignLe; have q2 := h.pageMax; have q3 := h.pageMin; have q4 := mdAlign_le h
  have hU := umax_pos c.ws
  have hU2 : ∃ k, umax c.ws = 2 ^ k := ⟨8 * c.ws, rfl⟩
  have hmd := max_pow h.tlsPow (metaAlign_pow c.arch)
  have d1 := pow_dvd_of_le h.tlsPow hU2 (by omega)
  have d2 := pow_dvd_of_le (x := mdAlign c) hmd hU2 (by omega)
  have p1 := pow_pos h.tlsPow
  have p2 := mdAlign_pos c
  have e0 : roundUp c.ws (m % umax c.ws) (max c.tls.align (metaAlign c.arch)) = natRoundUp m (mdAlign c) % umax c.ws := by
    rw [roundUp_mod hmd (show mdAlign c < _ by omega)]; exact natRoundUp_mod p2 d2 hU
  have e1 : roundUp c.ws c.tls.memSize c.tls.align = natRoundUp c.tls.memSize c.tls.align % umax c.ws := roundUp_mod h.tlsPow (by omega)
  cases hv : c.arch.variantI with
  | true =>
    rw [areasFrom_varI hv]
    unfold calculateTlsSize
    simp only [hv, if_true, e0, e1, uadd_eq]
    rw [roundUp_mod h.tlsPow (by omega), natRoundUp_mod p1 d1 hU]
    rw [← natRoundUp_mod (a := natRoundUp m (mdAlign c) % umax c.ws + _) p1 d1 hU, Nat.mod_add_mod (natRoundUp m (mdAlign c)), natRoundUp_mod p1 d1 hU, Nat.add_mod_mod,
      Nat.mod_add_mod]
  | false =>
    rw [areasFrom_varII hv]
    unfold calculateTlsSize
    simp only [hv, e0, e1, uadd_eq, Bool.false_eq_true, if_false]
    simp only [Nat.add_mod_mod, Nat.mod_add_mod]

theorem createLayout_mod {c : Cfg} (h : CfgOk c) (ss gs : Nat) : (createLayout c ss gs).mapSize = (areas c ss gs).stop % umax c.ws := by
  have q2 := h.pageMax; have q3 := h.pageMin
  unfold createLayout areas
  simp only
  rw [← calculateTlsSize_mod h (natRoundUp gs c.page)]
  congr 2
  rw [uadd_eq, uadd_eq, roundUp_mod h.pagePow (by omega), roundUp_mod (ws := c.ws) (a := ss) ⟨4, rfl⟩ (by omega)]
  simp only [Nat.add_mod_mod, Nat.mod_add_mod, Nat.zero_add]

/-- TLS block and record take up the same space whatever is below them. -/
theorem areasFrom_shift {c : Cfg} (h : CfgOk c) (lo hi : Nat) : (areasFrom c lo hi).stop = natRoundUp hi (mdAlign c) + (mainAreas c).stop := by
  have z : natRoundUp 0 (mdAlign c) = 0 := by
    unfold natRoundUp
    rw [Nat.zero_add, Nat.div_eq_of_lt (by have := mdAlign_pos c; omega), Nat.zero_mul]
  unfold mainAreas
  cases hv : c.arch.variantI with
  | true =>
    rw [areasFrom_varI hv, areasFrom_varI hv]
    simp only [z, Nat.zero_add]
    rw [natRoundUp_add_left (pow_pos h.tlsPow) (Nat.dvd_trans (tlsAlign_dvd_md h) (dvd_natRoundUp _ _))]
    omega
  | false =>
    rw [areasFrom_varII hv, areasFrom_varII hv]
    simp only [z]
    omega

/-- **C08 (exactly when).**  Whatever the sizes: the length that `create` asks `mmap` for (in a release build) is what guard area, stack, TLS block and record
take up, reduced modulo the size of the address space; so it has room for the requested stack and guard area if and only if these fit the address space
(`Fits`), the condition under which `C08_sizes_partial` says that the request is honoured.  (The program's TLS data must leave three pages of the
address space.) -/
theorem C08_length_iff {c : Cfg} (h : CfgOk c) (hroom : (mainAreas c).stop + 3 * c.page ≤ umax c.ws) (m : Mem) (junk : Nat → Byte) (k : Answers)
    (tp fn : Nat) (args : List Nat) (ss gs : Nat) :
    ∃ len rest, (create c m junk k tp fn args ss gs).calls = .mmap len .inaccessible k.mmap :: rest ∧
      len = (areas c ss gs).stop % umax c.ws ∧ (gs + ss ≤ len ↔ Fits c ss gs) := by
  have q2 := h.pageMax; have q3 := h.pageMin
  have hcall : ∃ rest, (create c m junk k tp fn args ss gs).calls = .mmap (createLayout c ss gs).mapSize .inaccessible k.mmap :: rest := by
    unfold create
    cases e1 : k.mmap with
    | error e => exact ⟨_, rfl⟩
    | ok map =>
      simp only
      cases k.mprotect with
      | error e => exact ⟨_, rfl⟩
      | ok u => simp only; split <;> exact ⟨_, rfl⟩
  obtain ⟨rest, hcall⟩ := hcall
  refine ⟨_, rest, hcall, createLayout_mod h ss gs, ?_⟩
  rw [createLayout_mod h]
  have b1 := le_natRoundUp (x := gs) (b := c.page) (by omega)
  have b2 := le_natRoundUp (x := ss) (b := 16) (by omega)
  have b3 := natRoundUp_lt (x := gs) (b := c.page) (by omega)
  have b4 := natRoundUp_lt (x := ss) (b := 16) (by omega)
  unfold Fits areas
  simp only
  have hs := areasFrom_shift h (natRoundUp gs c.page) (natRoundUp gs c.page + natRoundUp ss 16)
  have b5 := le_natRoundUp (x := natRoundUp gs c.page + natRoundUp ss 16) (mdAlign_pos c)
  have b6 := natRoundUp_lt (x := natRoundUp gs c.page + natRoundUp ss 16) (mdAlign_pos c)
  have b7 := mdAlign_le h
  generalize (areasFrom c (natRoundUp gs c.page) (natRoundUp gs c.page + natRoundUp ss 16)).stop = stop at *
  generalize umax c.ws = U at *
  constructor
  · intro hle
    apply Classical.byContradiction
    intro hn
    have hle2 : stop % U ≤ stop - U := by
      rw [Nat.mod_eq_sub_mod (by omega)]; exact Nat.mod_le _ _
    omega
  · intro hf
    rw [Nat.mod_eq_of_lt hf]
    omega

/-- x86-64, with a guard of 64 KiB and a stack of 32 KiB less than the address space: `mmap` is asked for less than the two together. -/
example (m : Mem) (junk : Nat → Byte) (k : Answers) : ∃ len rest,
    (create exCfg m junk k 0x1000 7 [] (2 ^ 64 - 2 ^ 16 + 2 ^ 15) 0x10000).calls = .mmap len .inaccessible k.mmap :: rest ∧
      ¬ 0x10000 + (2 ^ 64 - 2 ^ 16 + 2 ^ 15) ≤ len := by
  obtain ⟨len, rest, h1, -, h3⟩ := C08_length_iff exCfg_ok (by decide) m junk k 0x1000 7 [] (2 ^ 64 - 2 ^ 16 + 2 ^ 15) 0x10000
  exact ⟨len, rest, h1, fun h => absurd (h3.mp h) (by unfold Fits; decide)⟩

/-! ## C11: alignments that `CfgOk` leaves out -/

theorem roundUp_zero (ws a : Nat) : roundUp ws a 0 = 0 := by
  unfold roundUp uand uneg
  simp

/-- **C11 (`p_align` 0).**  The ELF specification allows a `PT_TLS` header to say 0 for "no alignment".  The code takes it for an alignment: then, in a release build,
whatever the sizes, the TLS block starts where the thread's record starts (x86, x86-64), or `mmap` is asked for 0 bytes (the others; it refuses). -/
theorem C11_align_zero_false {c : Cfg} (h : c.tls.align = 0) (ss gs : Nat) :
    (c.arch = .x86_64 ∨ c.arch = .x86 → (createLayout c ss gs).tlsBottom = (createLayout c ss gs).header) ∧
    (c.arch = .aarch64 ∨ c.arch = .arm ∨ c.arch = .riscv64 → (createLayout c ss gs).mapSize = 0) := by
  constructor
  · intro ha
    have hv : c.arch.variantI = false := by rcases ha with h | h <;> rw [h] <;> rfl
    have hz : ∀ x, uadd c.ws (roundUp c.ws x (metaAlign c.arch)) 0 = roundUp c.ws x (metaAlign c.arch) := by
      intro x; rw [uadd_eq, Nat.add_zero]; exact Nat.mod_eq_of_lt (BitVec.isLt _)
    simp only [createLayout, calculateTlsSize, h, roundUp_zero, hv, Bool.false_eq_true, if_false, Nat.zero_max, hz]
  · intro ha
    have hv : c.arch.variantI = true := by rcases ha with h | h | h <;> rw [h] <;> rfl
    simp only [createLayout, calculateTlsSize, h, roundUp_zero, hv, if_true]
    rw [uadd_eq, Nat.add_zero, Nat.zero_mod]

/-- So with TLS data the record and the TLS block overlap, in every thread made on x86-64 or x86. -/
example (ss gs map : Nat) :
    let c : Cfg := { exCfg with tls := { exCfg.tls with align := 0 } }
    ¬ (⟨map + (createLayout c ss gs).tlsBottom, c.tls.memSize⟩ : Range).Disj ⟨map + (createLayout c ss gs).header, metaSize c.arch c.tl⟩ := by
  intro c
  rw [(C11_align_zero_false (c := c) rfl ss gs).1 (Or.inl rfl)]
  have h1 : c.tls.memSize = 40 := rfl
  have h2 : 0 < metaSize c.arch c.tl := by decide
  unfold Range.Disj
  simp only [h1]
  omega

/-- **C11 (alignments above the page size).**  Whatever the alignment (a power of two), the TLS block of a new thread is aligned exactly if the address that `mmap`
returned is: `create` does nothing to get a mapping aligned for more than a page.  (In a debug build, `calculate_tls_size` asserts that the
alignment is not above the page size.) -/
theorem C11_large_align_iff {c : Cfg} (h : ∃ k, c.tls.align = 2 ^ k) (hlt : c.tls.align < umax c.ws) (ss gs map : Nat) :
    c.tls.align ∣ uadd c.ws map (createLayout c ss gs).tlsBottom ↔ c.tls.align ∣ map := by
  have hma : metaAlign c.arch < umax c.ws := by
    have := metaAlign_le c.arch
    have : (8 : Nat) < umax c.ws := by
      unfold Cfg.ws; rcases ws_cases c.arch with h | h <;> rw [h] <;> decide
    omega
  have hmd := max_pow h (metaAlign_pow c.arch)
  have hU2 : ∃ k, umax c.ws = 2 ^ k := ⟨8 * c.ws, rfl⟩
  have d1 := pow_dvd_of_le h hU2 (Nat.le_of_lt hlt)
  have hmlt : max c.tls.align (metaAlign c.arch) < umax c.ws := by omega
  have d2 := pow_dvd_of_le hmd hU2 (Nat.le_of_lt hmlt)
  have d3 : c.tls.align ∣ max c.tls.align (metaAlign c.arch) := pow_dvd_of_le h hmd (Nat.le_max_left _ _)
  have hb : c.tls.align ∣ (createLayout c ss gs).tlsBottom := by
    unfold createLayout calculateTlsSize
    cases hv : c.arch.variantI with
    | true =>
      simp only [if_true]
      rw [roundUp_mod h hlt]
      exact (Nat.dvd_mod_iff d1).mpr (dvd_natRoundUp _ _)
    | false =>
      simp only [Bool.false_eq_true, if_false]
      rw [roundUp_mod hmd hmlt]
      exact Nat.dvd_trans d3 ((Nat.dvd_mod_iff d2).mpr (dvd_natRoundUp _ _))
  rw [uadd_eq, Nat.dvd_mod_iff d1]
  exact Nat.dvd_add_left hb

/-- 8 KiB alignment with 4 KiB pages: a thread whose memory is at `0x70001000` has its TLS block misaligned. -/
example : let c : Cfg := { exCfg with tls := { exCfg.tls with align := 8192 } }
    ¬ c.tls.align ∣ uadd c.ws 0x70001000 (createLayout c 0x20000 0x4000).tlsBottom := by
  intro c
  rw [C11_large_align_iff (c := c) ⟨13, rfl⟩ (by decide)]
  decide

end Origin

namespace Origin.Elf
open Origin Origin.Spec
open Gabi.Field

/-! ## C36 -/

/-- **C36 (the coincidence, whenever it occurs).**  If the word at `STATIC_START`, unrelocated, equals `AT_ENTRY`, then `relocate` leaves everything
as it is, though it is needed.  Only a dynamic linker can be affected: in a static position-independent executable the two are different.  With
`C36_needed_partial`: a program that has to relocate itself does so if and only if the two are different. -/
theorem C36_coincidence {i : Image} {m : Mem} {envp start b : Nat} {env : List Nat} {aux : List (Nat × Nat)} (ok : Nat → Nat → Bool)
    (he : EnvAt i m envp env aux) (h : Launch i.ws start b (i.ld m i.staticStart) (auxOf aux) (ehdrField i m e_entry) true)
    (hco : i.ld m i.staticStart = lastAux Gabi.AT_ENTRY aux) :
    lastAux Gabi.AT_BASE aux ≠ 0 ∧ ∀ fuel > env.length + aux.length, relocate i ok fuel m envp = some (.done ⟨m, [], []⟩) := by
  refine ⟨?_, fun fuel hf => ?_⟩
  · cases h with
    | staticPie h1 h2 h3 h4 => exact absurd (hco.trans h2) h4
    | linker h1 h2 h3 => exact fun h0 => h2 (h1.symm.trans h0)
  · rw [relocate_start he hf]
    have : decision i m (auxOf aux) = none := by
      unfold decision loadStaticStart
      rw [if_pos (show _ = (auxOf aux).entry from hco)]
    rw [this]

/-! ## C40 -/

/-- **C40 (exactly when the segment is covered).**  The call for the segment `[v, v + n)` protects all of it if and only if the segment ends on a page
boundary, or further into its last page than it begins in its first. -/
theorem C40_covered_iff {page v n : Nat} (hp : 0 < page) (hn : 0 < n) :
    (∀ x, v ≤ x → x < v + n → Protected page (v / page * page) n x) ↔ (v + n) % page = 0 ∨ v % page < (v + n) % page := by
  have e1 := Nat.div_add_mod v page
  have e2 := Nat.div_add_mod (v + n) page
  have l1 := Nat.mod_lt v hp
  have l2 := Nat.mod_lt (v + n) hp
  have ha : page ∣ v / page * page := Nat.dvd_mul_left _ _
  have hq : page ∣ page * ((v + n) / page) := Nat.dvd_mul_right _ _
  have hr := dvd_natRoundUp n page
  have r1 := le_natRoundUp (x := n) hp
  have r2 := natRoundUp_lt (x := n) hp
  rw [Nat.mul_comm] at e1
  generalize v / page * page = base at *
  generalize page * ((v + n) / page) = q at *
  generalize v % page = o at *
  generalize (v + n) % page = e at *
  unfold Protected
  generalize natRoundUp n page = r at *
  constructor
  · intro h
    have h1 := (h (v + n - 1) (by omega) (by omega)).2
    apply Classical.byContradiction
    intro hc
    have : base + r ≤ q := page_le (Nat.dvd_add ha hr) hq (by omega)
    omega
  · intro h x h1 h2
    refine ⟨by omega, ?_⟩
    rcases h with h | h
    · have : q ≤ base + r := page_le hq (Nat.dvd_add ha hr) (by omega)
      omega
    · have : q + page ≤ base + r := page_le (Nat.dvd_add hq (Nat.dvd_refl _)) (Nat.dvd_add ha hr) (by omega)
      omega

/-- **C40 (exactly when nothing more is protected).**  The call protects nothing after the segment if and only if the segment ends no further into its last
page than it begins in its first. -/
theorem C40_nothing_after_iff {page v n : Nat} (hp : 0 < page) (hn : 0 < n) :
    (∀ x, v + n ≤ x → ¬ Protected page (v / page * page) n x) ↔ (v + n) % page ≤ v % page := by
  have e1 := Nat.div_add_mod v page
  have e2 := Nat.div_add_mod (v + n) page
  have l1 := Nat.mod_lt v hp
  have l2 := Nat.mod_lt (v + n) hp
  have ha : page ∣ v / page * page := Nat.dvd_mul_left _ _
  have hq : page ∣ page * ((v + n) / page) := Nat.dvd_mul_right _ _
  have hr := dvd_natRoundUp n page
  have r1 := le_natRoundUp (x := n) hp
  have r2 := natRoundUp_lt (x := n) hp
  rw [Nat.mul_comm] at e1
  generalize v / page * page = base at *
  generalize page * ((v + n) / page) = q at *
  generalize v % page = o at *
  generalize (v + n) % page = e at *
  unfold Protected
  generalize natRoundUp n page = r at *
  constructor
  · intro h
    apply Classical.byContradiction
    intro hc
    have : q + page ≤ base + r := page_le (Nat.dvd_add hq (Nat.dvd_refl _)) (Nat.dvd_add ha hr) (by omega)
    exact h (v + n) (Nat.le_refl _) ⟨by omega, by omega⟩
  · rintro h x h1 ⟨-, h3⟩
    have : base + r ≤ q := page_le (Nat.dvd_add ha hr) hq (by omega)
    omega

/-- **C40 (exactly when both).**  The call protects all of the segment and nothing after it if and only if the segment ends on a page boundary. -/
theorem C40_exact_iff {page v n : Nat} (hp : 0 < page) (hn : 0 < n) :
    ((∀ x, v ≤ x → x < v + n → Protected page (v / page * page) n x) ∧ ∀ x, v + n ≤ x → ¬ Protected page (v / page * page) n x) ↔
      page ∣ v + n := by
  rw [C40_covered_iff hp hn, C40_nothing_after_iff hp hn, Nat.dvd_iff_mod_eq_zero]
  omega

example : (∀ x, 0x1800 ≤ x → x < 0x1800 + 0x1900 → Protected 4096 (0x1800 / 4096 * 4096) 0x1900 x) ∨
    ∀ x, 0x1800 + 0x1900 ≤ x → ¬ Protected 4096 (0x1800 / 4096 * 4096) 0x1900 x :=
  Or.inr ((C40_nothing_after_iff (by decide) (by decide)).mpr (by decide))

end Origin.Elf

namespace Origin.Asm
open Origin Origin.Spec Origin.Asm.Spec

/-! ## C46 -/

/-- **C46 (exactly when).**  A key is treated as the property says, whatever the kernel's values, if and only if it is below 2^32 or its low 32 bits are not a supported
key. -/
theorem C46_iff (type : Nat) :
    (∀ hwcap hwcap2 minsigstksz, getauxval hwcap hwcap2 minsigstksz type =
      if type = 16 then some hwcap else if type = 26 then some hwcap2 else if type = 51 then some minsigstksz else none) ↔
    (type < 2 ^ 32 ∨ type % 2 ^ 32 ∉ [16, 26, 51]) := by
  constructor
  · intro h
    apply Classical.byContradiction
    intro hn
    have h1 : ¬ type < 2 ^ 32 := fun h => hn (Or.inl h)
    have h2 : type % 2 ^ 32 = 16 ∨ type % 2 ^ 32 = 26 ∨ type % 2 ^ 32 = 51 := by
      have : type % 2 ^ 32 ∈ [16, 26, 51] := Classical.byContradiction fun h => hn (Or.inr h)
      simpa using this
    have := h 1 1 1
    rw [if_neg (by omega), if_neg (by omega), if_neg (by omega)] at this
    unfold getauxval at this
    rcases h2 with h2 | h2 | h2 <;> simp [h2, AT_HWCAP, AT_HWCAP2, AT_MINSIGSTKSZ] at this
  · rintro (h | h) a b d
    · exact C46_getauxval_partial a b d type h
    · simp only [List.mem_cons, List.not_mem_nil, or_false, not_or] at h
      have hm : type % 2 ^ 32 ≤ type := Nat.mod_le _ _
      have hlt : type < 2 ^ 32 → type % 2 ^ 32 = type := Nat.mod_eq_of_lt
      rw [if_neg (by omega), if_neg (by omega), if_neg (by omega)]
      exact (if_neg h.1).trans ((if_neg h.2.1).trans (if_neg h.2.2))

example : ∀ a b d, getauxval a b d (2 ^ 40 + 17) = none := fun a b d => (C46_iff (2 ^ 40 + 17)).mpr (Or.inr (by decide)) a b d

end Origin.Asm
