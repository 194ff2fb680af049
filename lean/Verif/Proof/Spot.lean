import Verif.Proof.Creation
/-!
# Where the TLS block and record are, for created threads and the main thread alike
-/

namespace Origin
open Spec

/-- The record and TLS block laid out by `calculate_tls_size` (from size `m0`) in a page-aligned region
at `map`. -/
structure Spot (c : Cfg) (map m0 : Nat) (t : TlsSize) : Prop where
  cfg : CfgOk c
  ok : TlsOk c m0 t
  page : c.page ∣ map
  fit : map + t.mapSize < umax c.ws

/-- Thread pointer of the thread at a spot. -/
def spotTp (c : Cfg) (map : Nat) (t : TlsSize) : Nat :=
  map + t.header + (metaOff c.arch c.tl .abi + abiOff c.arch .pointee)

theorem Spec.Creation.spot {c : Cfg} {s : Space} {k : Answers} {args : List Nat} {ss gs map tid : Nat}
    (H : Creation c s k args ss gs map tid) :
    Spot c map (createLayout c ss gs).stackTop
      ⟨(createLayout c ss gs).mapSize, (createLayout c ss gs).tlsBottom, (createLayout c ss gs).header⟩ :=
  ⟨H.cfg, H.placed.ok.tls, H.placed.page, H.placed.fit⟩

section
variable {c : Cfg} {map m0 : Nat} {t : TlsSize}

theorem spot_tls_aligned (H : Spot c map m0 t) : c.tls.align ∣ map + t.tlsBottom :=
  Nat.dvd_add (Nat.dvd_trans (pow_dvd_of_le H.cfg.tlsPow H.cfg.pagePow H.cfg.tlsAlignLe) H.page)
    (H.ok.bounds H.cfg).tlsAligned

theorem spot_record_aligned_iff (H : Spot c map m0 t) :
    metaAlign c.arch ∣ map + t.header ↔
      (c.arch.variantI = true ∨ metaAlign c.arch ∣ natRoundUp c.tls.memSize c.tls.align) := by
  have hmp : metaAlign c.arch ∣ map :=
    Nat.dvd_trans (Nat.dvd_trans (metaAlign_dvd_md H.cfg) (md_dvd_page H.cfg)) H.page
  rw [Nat.dvd_add_right hmp]
  cases hv : c.arch.variantI with
  | true =>
    refine ⟨fun _ => .inl rfl, fun _ => Nat.dvd_trans (metaAlign_dvd_md H.cfg) ((H.ok.bounds H.cfg).headerAligned hv)⟩
  | false =>
    obtain ⟨q1, q2, -⟩ := H.ok.varII hv
    have : metaAlign c.arch ∣ t.tlsBottom :=
      Nat.dvd_trans (metaAlign_dvd_md H.cfg) (q1 ▸ dvd_natRoundUp _ _)
    rw [q2, Nat.dvd_add_right this]
    simp

theorem spotTp_facts (H : Spot c map m0 t) :
    spotTp c map t < umax c.ws ∧
    (c.arch.variantI = true → spotTp c map t + (abiSize c.arch - abiOff c.arch .pointee)
      = map + t.header + metaSize c.arch c.tl) ∧
    (c.arch.variantI = false → spotTp c map t = map + t.header) := by
  have h1 : map + t.header + metaSize c.arch c.tl < umax c.ws := by
    have := H.fit; have := (H.ok.bounds H.cfg).header_in; omega
  have hp : abiOff c.arch .pointee ≤ abiSize c.arch := by
    rw [abiOff_pointee, abiSize_eq]; cases c.arch <;> decide
  have := metaSize_pos c.arch c.tl H.cfg.layout
  obtain ⟨l1, l2⟩ := meta_layout c.arch c.tl H.cfg.layout
  have p1 := (meta_parts c.arch c.tl H.cfg.layout).1
  refine ⟨by unfold spotTp; omega, fun hv => ?_, fun hv => ?_⟩
  · obtain ⟨-, q2, q3⟩ := l1 hv
    unfold spotTp; omega
  · obtain ⟨q1, -, -⟩ := l2 hv
    have : abiOff c.arch .pointee = 0 := by
      rw [abiOff_pointee]; revert hv; cases c.arch <;> simp [Arch.variantI]
    unfold spotTp; omega

theorem spot_tls_addr_iff (H : Spot c map m0 t) :
    (∀ offset, currentTlsAddr c (spotTp c map t) 1 offset
        = some ((map + t.tlsBottom + c.arch.tlsOffset + offset) % umax c.ws)) ↔
    (if c.arch.variantI then c.tls.align ∣ t.header + metaSize c.arch c.tl
     else c.tls.align ∣ c.tls.memSize) := by
  obtain ⟨t1, t2, t3⟩ := spotTp_facts H
  have hal := pow_pos H.cfg.tlsPow
  have hfit := H.fit
  have b1 := (H.ok.bounds H.cfg).m_le_tls; have b2 := (H.ok.bounds H.cfg).m_le_header; have b3 := (H.ok.bounds H.cfg).tls_in
  have b4 := (H.ok.bounds H.cfg).header_in
  have hU := umax_pos c.ws
  -- adding the same amount modulo `umax` is injective
  have inj : ∀ x y, x < umax c.ws → y < umax c.ws →
      ((∀ o : Nat, (x + c.arch.tlsOffset + o) % umax c.ws = (y + c.arch.tlsOffset + o) % umax c.ws) ↔ x = y) := by
    intro x y hx hy
    refine ⟨fun h => ?_, fun h o => by rw [h]⟩
    have h0 := h (umax c.ws * c.arch.tlsOffset - c.arch.tlsOffset)
    have hle : c.arch.tlsOffset ≤ umax c.ws * c.arch.tlsOffset := Nat.le_mul_of_pos_left _ hU
    have e : ∀ z, z + c.arch.tlsOffset + (umax c.ws * c.arch.tlsOffset - c.arch.tlsOffset)
        = z + umax c.ws * c.arch.tlsOffset := fun z => by omega
    rw [e, e, Nat.add_mul_mod_self_left, Nat.add_mul_mod_self_left, Nat.mod_eq_of_lt hx,
      Nat.mod_eq_of_lt hy] at h0
    exact h0
  have fold : ∀ x o, uadd c.ws (uadd c.ws x c.arch.tlsOffset) o = (x + c.arch.tlsOffset + o) % umax c.ws := by
    intro x o
    rw [uadd_eq, uadd_eq, Nat.mod_add_mod]
  cases hv : c.arch.variantI with
  | true =>
    have e := t2 hv
    have ea : uadd c.ws (spotTp c map t) (abiSize c.arch - abiOff c.arch .pointee)
        = map + t.header + metaSize c.arch c.tl := by
      rw [uadd_of_lt (by omega), e]
    have step : (∀ offset, currentTlsAddr c (spotTp c map t) 1 offset
        = some ((map + t.tlsBottom + c.arch.tlsOffset + offset) % umax c.ws)) ↔
        map + t.header + metaSize c.arch c.tl = map + t.tlsBottom := by
      rw [← inj _ _ (by omega) (by omega)]
      apply forall_congr'
      intro o
      unfold currentTlsAddr
      simp only [if_true, hv, ea, fold, Option.some.injEq]
    rw [step]
    obtain ⟨-, q2, -⟩ := H.ok.varI hv
    simp only [if_true]
    rw [q2, ← natRoundUp_eq_iff hal]
    omega
  | false =>
    have e := t3 hv
    obtain ⟨q1, q2, -⟩ := H.ok.varII hv
    have hmr := le_natRoundUp (x := c.tls.memSize) hal
    have ea : uwsub c.ws (spotTp c map t) c.tls.memSize
        = map + t.header - c.tls.memSize := by
      rw [e, uwsub_of_le (by omega) (by omega)]
    have step : (∀ offset, currentTlsAddr c (spotTp c map t) 1 offset
        = some ((map + t.tlsBottom + c.arch.tlsOffset + offset) % umax c.ws)) ↔
        map + t.header - c.tls.memSize = map + t.tlsBottom := by
      rw [← inj _ _ (by omega) (by omega)]
      apply forall_congr'
      intro o
      unfold currentTlsAddr
      simp only [if_true, hv, ea, fold, Option.some.injEq, Bool.false_eq_true, if_false]
    rw [step]
    simp only [Bool.false_eq_true, if_false]
    rw [← natRoundUp_eq_iff hal]
    omega

theorem spot_tls_addr (H : Spot c map m0 t)
    (h : if c.arch.variantI then c.tls.align ≤ metaAlign c.arch else c.tls.align ∣ c.tls.memSize) (offset : Nat) :
    currentTlsAddr c (spotTp c map t) 1 offset
        = some ((map + t.tlsBottom + c.arch.tlsOffset + offset) % umax c.ws) := by
  refine (spot_tls_addr_iff H).mpr ?_ offset
  cases hv : c.arch.variantI with
  | false => rw [hv] at h; simpa using h
  | true =>
    rw [hv] at h
    simp only [if_true] at h ⊢
    have hd : c.tls.align ∣ metaAlign c.arch := pow_dvd_of_le H.cfg.tlsPow (metaAlign_pow _) h
    exact Nat.dvd_add (Nat.dvd_trans (tlsAlign_dvd_md H.cfg) ((H.ok.bounds H.cfg).headerAligned hv))
      (Nat.dvd_trans hd (metaAlign_dvd_metaSize _ _))

theorem spot_tls_addr_iff' (H : Spot c map m0 t) :
    (∀ offset, currentTlsAddr c (spotTp c map t) 1 offset
        = some ((map + t.tlsBottom + c.arch.tlsOffset + offset) % umax c.ws)) ↔
    (if c.arch.variantI then c.tls.align ∣ metaSize c.arch c.tl else c.tls.align ∣ c.tls.memSize) := by
  rw [spot_tls_addr_iff H]
  cases hv : c.arch.variantI with
  | false => exact Iff.rfl
  | true => exact Nat.dvd_add_right (Nat.dvd_trans (tlsAlign_dvd_md H.cfg) ((H.ok.bounds H.cfg).headerAligned hv))

theorem natRoundUp_add_left {x y b : Nat} (hb : 0 < b) (h : b ∣ x) : natRoundUp (x + y) b = x + natRoundUp y b := by
  obtain ⟨q, rfl⟩ := h
  unfold natRoundUp
  rw [Nat.add_assoc, Nat.mul_add_div hb, Nat.add_mul, Nat.mul_comm q b]

theorem spot_abi_location_iff (H : Spot c map m0 t) :
    map + t.tlsBottom = abiTlsStart c.arch (spotTp c map t) c.tls.memSize c.tls.align ↔
    (match c.arch with
     | .x86_64 | .x86 => True
     | .aarch64 => c.tls.align ∣ spotTp c map t + natRoundUp 16 c.tls.align
     | .riscv64 => c.tls.align ∣ spotTp c map t
     | .arm => False) := by
  obtain ⟨t1, t2, t3⟩ := spotTp_facts H
  have hal := pow_pos H.cfg.tlsPow
  have htls := spot_tls_aligned H
  have hmap : c.tls.align ∣ map :=
    Nat.dvd_trans (pow_dvd_of_le H.cfg.tlsPow H.cfg.pagePow H.cfg.tlsAlignLe) H.page
  -- variant I: the block is the first aligned address at or after the end of the record
  have v1 : c.arch.variantI = true → map + t.tlsBottom
      = natRoundUp (spotTp c map t + (abiSize c.arch - abiOff c.arch .pointee)) c.tls.align := by
    intro hv
    obtain ⟨-, q2, -⟩ := H.ok.varI hv
    rw [t2 hv, q2, Nat.add_assoc, natRoundUp_add_left hal hmap]
  have hx86 : c.arch.variantI = false →
      map + t.tlsBottom = spotTp c map t - natRoundUp c.tls.memSize c.tls.align := by
    intro hv
    obtain ⟨-, q2, -⟩ := H.ok.varII hv
    rw [t3 hv, q2]; omega
  generalize hN : spotTp c map t = N at *
  generalize hT : map + t.tlsBottom = T at *
  have gen : ∀ w : Nat, (T = natRoundUp (N + w) c.tls.align) →
      (T = N + natRoundUp w c.tls.align ↔ c.tls.align ∣ N + natRoundUp w c.tls.align) := by
    intro w hw
    refine ⟨fun h => h ▸ htls, fun h => ?_⟩
    rw [hw]
    apply Nat.le_antisymm
    · exact natRoundUp_least hal h (by have := le_natRoundUp (x := w) hal; omega)
    · -- the aligned block start minus the aligned address is a multiple, less than `align` away
      have hd := dvd_natRoundUp (N + w) c.tls.align
      have h1 := le_natRoundUp (x := N + w) hal
      have h2 := natRoundUp_lt (x := w) hal
      by_cases hlt : N + natRoundUp w c.tls.align ≤ natRoundUp (N + w) c.tls.align
      · exact hlt
      · exfalso
        have hs := Nat.dvd_sub h hd
        have := Nat.le_of_dvd (by omega) hs
        omega
  cases ha : c.arch with
  | x86_64 =>
    simp only [abiTlsStart, iff_true]
    exact hx86 (by rw [ha]; rfl)
  | x86 =>
    simp only [abiTlsStart, iff_true]
    exact hx86 (by rw [ha]; rfl)
  | aarch64 =>
    simp only [abiTlsStart]
    have := v1 (by rw [ha]; rfl)
    rw [ha] at this
    rw [show abiSize .aarch64 - abiOff .aarch64 .pointee = 16 by decide] at this
    exact gen 16 this
  | riscv64 =>
    simp only [abiTlsStart]
    have := v1 (by rw [ha]; rfl)
    rw [ha] at this
    rw [show abiSize .riscv64 - abiOff .riscv64 .pointee = 0 by decide, Nat.add_zero] at this
    rw [this]
    exact natRoundUp_eq_iff hal
  | arm =>
    simp only [abiTlsStart, iff_false]
    have hT2 := v1 (by rw [ha]; rfl)
    rw [ha] at hT2
    rw [show abiSize .arm - abiOff .arm .pointee = 12 by decide] at hT2
    intro heq
    have hle := le_natRoundUp (x := N + 12) hal
    -- `N ≡ 4 (mod 8)`
    have hN8 : N % 8 = 4 := by
      have hv : c.arch.variantI = true := by rw [ha]; rfl
      have l := (meta_layout c.arch c.tl H.cfg.layout).1 hv
      have h8 : metaAlign c.arch = 8 := by rw [ha]; rfl
      have d1 : 8 ∣ t.header := by
        rw [← h8]
        exact Nat.dvd_trans (metaAlign_dvd_md H.cfg) ((H.ok.bounds H.cfg).headerAligned hv)
      have d2 : 8 ∣ map := by
        rw [← h8]
        exact Nat.dvd_trans (Nat.dvd_trans (metaAlign_dvd_md H.cfg) (md_dvd_page H.cfg)) H.page
      have d3 : 8 ∣ metaOff c.arch c.tl .abi := by
        rw [l.2.1, show abiAlign c.arch = 8 by rw [ha]; rfl]
        exact dvd_natRoundUp _ _
      have : abiOff c.arch .pointee = 4 := by rw [ha]; decide
      have hN' : N = map + t.header + (metaOff c.arch c.tl .abi + abiOff c.arch .pointee) := by
        rw [← hN]; rfl
      omega
    by_cases h8 : c.tls.align ≤ 8
    · have : natRoundUp 8 c.tls.align = 8 := by
        apply natRoundUp_of_dvd hal
        exact pow_dvd_of_le H.cfg.tlsPow ⟨3, rfl⟩ h8
      omega
    · have d8 : 8 ∣ c.tls.align := pow_dvd_of_le ⟨3, rfl⟩ H.cfg.tlsPow (by omega)
      have e8 : natRoundUp 8 c.tls.align = c.tls.align := by
        have h1 := le_natRoundUp (x := 8) hal
        have h2 := natRoundUp_least (x := 8) (y := c.tls.align) hal (Nat.dvd_refl _) (by omega)
        have h3 := Nat.le_of_dvd (by omega) (dvd_natRoundUp 8 c.tls.align)
        omega
      have : 8 ∣ T := Nat.dvd_trans d8 htls
      omega

theorem spot_abi_location (H : Spot c map m0 t)
    (h : c.arch = .x86_64 ∨ c.arch = .x86 ∨ ((c.arch = .aarch64 ∨ c.arch = .riscv64) ∧ c.tls.align ≤ 8)) :
    map + t.tlsBottom = abiTlsStart c.arch (spotTp c map t) c.tls.memSize c.tls.align := by
  rw [spot_abi_location_iff H]
  have key : c.arch = .aarch64 ∨ c.arch = .riscv64 → c.tls.align ≤ 8 → c.tls.align ∣ spotTp c map t := by
    intro ha h8
    have d8 : c.tls.align ∣ 8 := pow_dvd_of_le H.cfg.tlsPow ⟨3, rfl⟩ h8
    apply Nat.dvd_trans d8
    have hv : c.arch.variantI = true := by rcases ha with h | h <;> rw [h] <;> rfl
    have l := (meta_layout c.arch c.tl H.cfg.layout).1 hv
    have hm8 : metaAlign c.arch = 8 := by rcases ha with h | h <;> rw [h] <;> rfl
    have d1 : 8 ∣ t.header := by
      rw [← hm8]
      exact Nat.dvd_trans (metaAlign_dvd_md H.cfg) ((H.ok.bounds H.cfg).headerAligned hv)
    have d2 : 8 ∣ map := by
      rw [← hm8]
      exact Nat.dvd_trans (Nat.dvd_trans (metaAlign_dvd_md H.cfg) (md_dvd_page H.cfg)) H.page
    have d3 : 8 ∣ metaOff c.arch c.tl .abi := by
      rw [l.2.1, show abiAlign c.arch = 8 by rcases ha with h | h <;> rw [h] <;> rfl]
      exact dvd_natRoundUp _ _
    have d4 : 8 ∣ abiOff c.arch .pointee := by
      rcases ha with h | h <;> rw [h] <;> decide
    exact Nat.dvd_add (Nat.dvd_add d2 d1) (Nat.dvd_add d3 d4)
  rcases h with h | h | ⟨h | h, h8⟩
  · rw [h]; trivial
  · rw [h]; trivial
  · have := key (.inl h) h8
    rw [h]
    exact Nat.dvd_add this (dvd_natRoundUp _ _)
  · have := key (.inr h) h8
    rw [h]
    exact this

end

end Origin
