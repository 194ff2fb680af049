import Verif.Spec.Layout
import Verif.Proof.Fields
/-!
# The layout `create` computes, in unbounded arithmetic
-/

namespace Origin
open Spec

theorem metaAlign_pow (a : Arch) : ∃ k, metaAlign a = 2 ^ k := by
  rw [metaAlign_eq]; cases a
  all_goals first | exact ⟨3, rfl⟩ | exact ⟨2, rfl⟩

theorem max_pow {x y : Nat} (hx : ∃ k, x = 2 ^ k) (hy : ∃ k, y = 2 ^ k) : ∃ k, max x y = 2 ^ k := by
  rw [Nat.max_def]; split <;> assumption

theorem metaAlign_le (a : Arch) : metaAlign a ≤ 8 := by rw [metaAlign_eq]; cases a <;> decide

theorem metaAlign_pos (a : Arch) : 0 < metaAlign a := by rw [metaAlign_eq]; cases a <;> decide

/-- The alignment used for the record. -/
def mdAlign (c : Cfg) : Nat := max c.tls.align (metaAlign c.arch)

theorem mdAlign_le {c : Cfg} (h : CfgOk c) : mdAlign c ≤ c.page := by
  unfold mdAlign
  have := metaAlign_le c.arch
  have := h.pageMin
  have := h.tlsAlignLe
  omega

theorem mdAlign_pos (c : Cfg) : 0 < mdAlign c := by
  have := metaAlign_pos c.arch
  unfold mdAlign; omega

theorem pow_pos {x : Nat} (h : ∃ k, x = 2 ^ k) : 0 < x := by
  obtain ⟨k, rfl⟩ := h; exact Nat.two_pow_pos k

theorem pow_dvd_of_le {x y : Nat} (hx : ∃ k, x = 2 ^ k) (hy : ∃ k, y = 2 ^ k) (h : x ≤ y) : x ∣ y := by
  obtain ⟨k, rfl⟩ := hx
  obtain ⟨j, rfl⟩ := hy
  exact Nat.pow_dvd_pow 2 ((Nat.pow_le_pow_iff_right (by omega)).mp h)

theorem tlsAlign_dvd_md {c : Cfg} (h : CfgOk c) : c.tls.align ∣ mdAlign c :=
  pow_dvd_of_le h.tlsPow (max_pow h.tlsPow (metaAlign_pow _)) (Nat.le_max_left _ _)

theorem metaAlign_dvd_md {c : Cfg} (h : CfgOk c) : metaAlign c.arch ∣ mdAlign c :=
  pow_dvd_of_le (metaAlign_pow _) (max_pow h.tlsPow (metaAlign_pow _)) (Nat.le_max_right _ _)

theorem md_dvd_page {c : Cfg} (h : CfgOk c) : mdAlign c ∣ c.page :=
  pow_dvd_of_le (max_pow h.tlsPow (metaAlign_pow _)) h.pagePow (mdAlign_le h)

/-- What `calculate_tls_size` computes from an incoming size. -/
structure TlsOk (c : Cfg) (m : Nat) (t : TlsSize) : Prop where
  varI : c.arch.variantI = true →
    t.header = natRoundUp m (mdAlign c) ∧
    t.tlsBottom = natRoundUp (t.header + metaSize c.arch c.tl) c.tls.align ∧
    t.mapSize = t.tlsBottom + natRoundUp c.tls.memSize c.tls.align
  varII : c.arch.variantI = false →
    t.tlsBottom = natRoundUp m (mdAlign c) ∧
    t.header = t.tlsBottom + natRoundUp c.tls.memSize c.tls.align ∧
    t.mapSize = t.header + metaSize c.arch c.tl
  lt : t.mapSize < umax c.ws

/-- In a power-of-two address space, rounding up stays in it as soon as the result does. -/
theorem natRoundUp_room {ws x b : Nat} (hb : ∃ k, b = 2 ^ k) (hle : b ≤ umax ws) (h : natRoundUp x b < umax ws) : x + (b - 1) < umax ws := by
  have hd : b ∣ umax ws := pow_dvd_of_le hb ⟨8 * ws, rfl⟩ hle
  have hp := pow_pos hb
  obtain ⟨q, hq⟩ := hd
  obtain ⟨r, hr⟩ := dvd_natRoundUp x b
  have hx := le_natRoundUp (x := x) hp
  rw [hq] at h ⊢
  rw [hr] at h hx
  have hlt : r < q := Nat.lt_of_mul_lt_mul_left h
  have : b * (r + 1) ≤ b * q := Nat.mul_le_mul_left b hlt
  rw [Nat.mul_succ] at this
  omega

theorem areasFrom_varI {c : Cfg} (h : c.arch.variantI = true) (lo hi : Nat) :
    areasFrom c lo hi = ⟨lo, hi, natRoundUp (natRoundUp hi (mdAlign c) + metaSize c.arch c.tl) c.tls.align, natRoundUp hi (mdAlign c),
      natRoundUp (natRoundUp hi (mdAlign c) + metaSize c.arch c.tl) c.tls.align + natRoundUp c.tls.memSize c.tls.align⟩ := by
  unfold areasFrom mdAlign
  cases hv : c.arch <;> rw [hv] at h <;> first | rfl | cases h

theorem areasFrom_varII {c : Cfg} (h : c.arch.variantI = false) (lo hi : Nat) :
    areasFrom c lo hi = ⟨lo, hi, natRoundUp hi (mdAlign c), natRoundUp hi (mdAlign c) + natRoundUp c.tls.memSize c.tls.align,
      natRoundUp hi (mdAlign c) + natRoundUp c.tls.memSize c.tls.align + metaSize c.arch c.tl⟩ := by
  unfold areasFrom mdAlign
  cases hv : c.arch <;> rw [hv] at h <;> first | rfl | cases h

theorem areasFrom_lo (c : Cfg) (lo hi : Nat) : (areasFrom c lo hi).stackLo = lo ∧ (areasFrom c lo hi).stackHi = hi := by
  unfold areasFrom; cases c.arch <;> exact ⟨rfl, rfl⟩

theorem tlsAlign_le_umax {c : Cfg} (h : CfgOk c) : c.tls.align ≤ umax c.ws := by
  have := h.tlsAlignLe; have := h.pageMax; omega

theorem md_le_umax {c : Cfg} (h : CfgOk c) : mdAlign c ≤ umax c.ws := by
  have := mdAlign_le h; have := h.pageMax; omega

theorem calculateTlsSize_eq {c : Cfg} (h : CfgOk c) {lo m : Nat} (hm : (areasFrom c lo m).stop < umax c.ws) :
    calculateTlsSize c m = ⟨(areasFrom c lo m).stop, (areasFrom c lo m).tls, (areasFrom c lo m).record⟩ := by
  obtain ⟨kt, hkt⟩ := h.tlsPow
  obtain ⟨kd, hkd⟩ := max_pow h.tlsPow (metaAlign_pow c.arch)
  have q1 := tlsAlign_le_umax h
  have q2 := md_le_umax h
  have p3 := pow_pos h.tlsPow
  have p4 := mdAlign_pos c
  have b0 := le_natRoundUp (x := m) p4
  have b1 := le_natRoundUp (x := c.tls.memSize) p3
  cases hv : c.arch.variantI with
  | true =>
    rw [areasFrom_varI hv] at hm ⊢
    simp only at hm
    have b2 := le_natRoundUp (x := natRoundUp m (mdAlign c) + metaSize c.arch c.tl) p3
    have e0 : roundUp c.ws m (max c.tls.align (metaAlign c.arch)) = natRoundUp m (mdAlign c) :=
      roundUp_eq hkd (natRoundUp_room (b := mdAlign c) ⟨kd, hkd⟩ q2 (by omega))
    have e1 : roundUp c.ws c.tls.memSize c.tls.align = natRoundUp c.tls.memSize c.tls.align :=
      roundUp_eq hkt (natRoundUp_room ⟨kt, hkt⟩ q1 (by omega))
    have e2 : uadd c.ws (natRoundUp m (mdAlign c)) (metaSize c.arch c.tl)
        = natRoundUp m (mdAlign c) + metaSize c.arch c.tl := uadd_of_lt (by omega)
    have e3 : roundUp c.ws (natRoundUp m (mdAlign c) + metaSize c.arch c.tl) c.tls.align
        = natRoundUp (natRoundUp m (mdAlign c) + metaSize c.arch c.tl) c.tls.align :=
      roundUp_eq hkt (natRoundUp_room ⟨kt, hkt⟩ q1 (by omega))
    have e4 : uadd c.ws (natRoundUp (natRoundUp m (mdAlign c) + metaSize c.arch c.tl) c.tls.align)
        (natRoundUp c.tls.memSize c.tls.align)
        = natRoundUp (natRoundUp m (mdAlign c) + metaSize c.arch c.tl) c.tls.align
          + natRoundUp c.tls.memSize c.tls.align := uadd_of_lt (by omega)
    unfold calculateTlsSize
    simp only [hv, if_true, e0, e1, e2, e3, e4]
  | false =>
    rw [areasFrom_varII hv] at hm ⊢
    simp only at hm
    have e0 : roundUp c.ws m (max c.tls.align (metaAlign c.arch)) = natRoundUp m (mdAlign c) :=
      roundUp_eq hkd (natRoundUp_room (b := mdAlign c) ⟨kd, hkd⟩ q2 (by omega))
    have e1 : roundUp c.ws c.tls.memSize c.tls.align = natRoundUp c.tls.memSize c.tls.align :=
      roundUp_eq hkt (natRoundUp_room ⟨kt, hkt⟩ q1 (by omega))
    have e2 : uadd c.ws (natRoundUp m (mdAlign c)) (natRoundUp c.tls.memSize c.tls.align)
        = natRoundUp m (mdAlign c) + natRoundUp c.tls.memSize c.tls.align := uadd_of_lt (by omega)
    have e3 : uadd c.ws (natRoundUp m (mdAlign c) + natRoundUp c.tls.memSize c.tls.align)
        (metaSize c.arch c.tl)
        = natRoundUp m (mdAlign c) + natRoundUp c.tls.memSize c.tls.align + metaSize c.arch c.tl :=
      uadd_of_lt (by omega)
    unfold calculateTlsSize
    simp only [hv, e0, e1, e2, e3, Bool.false_eq_true, if_false]

theorem calculateTlsSize_ok {c : Cfg} (h : CfgOk c) {lo m : Nat} (hm : (areasFrom c lo m).stop < umax c.ws) :
    TlsOk c m (calculateTlsSize c m) := by
  rw [calculateTlsSize_eq h hm]
  refine ⟨fun hv => ?_, fun hv => ?_, hm⟩
  · rw [areasFrom_varI hv]; exact ⟨rfl, rfl, rfl⟩
  · rw [areasFrom_varII hv]; exact ⟨rfl, rfl, rfl⟩

/-- All the parts are below the end. -/
theorem areasFrom_le {c : Cfg} (h : CfgOk c) (lo hi : Nat) : hi ≤ (areasFrom c lo hi).stop := by
  have b0 := le_natRoundUp (x := hi) (mdAlign_pos c)
  cases hv : c.arch.variantI with
  | true =>
    rw [areasFrom_varI hv]
    have b2 := le_natRoundUp (x := natRoundUp hi (mdAlign c) + metaSize c.arch c.tl) (pow_pos h.tlsPow)
    show hi ≤ _ + _; omega
  | false => rw [areasFrom_varII hv]; show hi ≤ _ + _; omega

/-- Order, sizes and alignment of the pieces, for both variants. -/
structure TlsBounds (c : Cfg) (m : Nat) (t : TlsSize) : Prop where
  m_le_tls : m ≤ t.tlsBottom
  m_le_header : m ≤ t.header
  tls_in : t.tlsBottom + c.tls.memSize ≤ t.mapSize
  header_in : t.header + metaSize c.arch c.tl ≤ t.mapSize
  disj : t.tlsBottom + c.tls.memSize ≤ t.header ∨ t.header + metaSize c.arch c.tl ≤ t.tlsBottom
  tlsAligned : c.tls.align ∣ t.tlsBottom
  headerAligned : c.arch.variantI = true → mdAlign c ∣ t.header
  lt : t.mapSize < umax c.ws

theorem TlsOk.bounds {c : Cfg} (h : CfgOk c) {m : Nat} {t : TlsSize} (o : TlsOk c m t) : TlsBounds c m t := by
  have p3 := pow_pos h.tlsPow
  have p4 := mdAlign_pos c
  have b0 := le_natRoundUp (x := m) p4
  have b1 := le_natRoundUp (x := c.tls.memSize) p3
  cases hv : c.arch.variantI with
  | true =>
    obtain ⟨q1, q2, q3⟩ := o.varI hv
    have b2 := le_natRoundUp (x := t.header + metaSize c.arch c.tl) p3
    exact ⟨by omega, by omega, by omega, by omega, by omega,
      q2 ▸ dvd_natRoundUp _ _, fun _ => q1 ▸ dvd_natRoundUp _ _, o.lt⟩
  | false =>
    obtain ⟨q1, q2, q3⟩ := o.varII hv
    exact ⟨by omega, by omega, by omega, by omega, by omega,
      Nat.dvd_trans (tlsAlign_dvd_md h) (q1 ▸ dvd_natRoundUp _ _), fun h => (by rw [hv] at h; cases h), o.lt⟩

/-- What `create` computes before mapping. -/
structure LayoutOk (c : Cfg) (ss gs : Nat) (l : CreateLayout) : Prop where
  sb : l.stackBottom = natRoundUp gs c.page
  st : l.stackTop = natRoundUp gs c.page + natRoundUp ss 16
  tls : TlsOk c l.stackTop ⟨l.mapSize, l.tlsBottom, l.header⟩

theorem createLayout_eq {c : Cfg} (h : CfgOk c) {ss gs : Nat} (hf : Fits c ss gs) :
    createLayout c ss gs = ⟨(areas c ss gs).stop, (areas c ss gs).stackLo, (areas c ss gs).stackHi, (areas c ss gs).tls, (areas c ss gs).record⟩ := by
  have hle := areasFrom_le h (natRoundUp gs c.page) (natRoundUp gs c.page + natRoundUp ss 16)
  have hlo := areasFrom_lo c (natRoundUp gs c.page) (natRoundUp gs c.page + natRoundUp ss 16)
  unfold Fits areas at *
  simp only at *
  have hc := calculateTlsSize_eq h hf
  obtain ⟨kp, hkp⟩ := h.pagePow
  have p0 := h.pageMin
  have p1 := h.pageMax
  have e0 : roundUp c.ws gs c.page = natRoundUp gs c.page := roundUp_eq hkp (natRoundUp_room ⟨kp, hkp⟩ (by omega) (by omega))
  have e1 : roundUp c.ws ss 16 = natRoundUp ss 16 := roundUp_eq (k := 4) rfl (natRoundUp_room ⟨4, rfl⟩ (by omega) (by omega))
  have e2 : uadd c.ws 0 (natRoundUp gs c.page) = natRoundUp gs c.page := by
    rw [uadd_of_lt (by omega), Nat.zero_add]
  have e3 : uadd c.ws (natRoundUp gs c.page) (natRoundUp ss 16)
      = natRoundUp gs c.page + natRoundUp ss 16 := uadd_of_lt (by omega)
  unfold createLayout
  simp only [e0, e1, e2, e3, hc, hlo.1, hlo.2]

theorem createLayout_ok {c : Cfg} (h : CfgOk c) {ss gs : Nat} (hf : Fits c ss gs) :
    LayoutOk c ss gs (createLayout c ss gs) := by
  have e := createLayout_eq h hf
  have o := calculateTlsSize_ok h (lo := natRoundUp gs c.page) hf
  have hlo := areasFrom_lo c (natRoundUp gs c.page) (natRoundUp gs c.page + natRoundUp ss 16)
  have hc := calculateTlsSize_eq h (lo := natRoundUp gs c.page) hf
  rw [e]
  refine ⟨hlo.1, hlo.2, ?_⟩
  rw [hc] at o
  exact hlo.2 ▸ o

end Origin
