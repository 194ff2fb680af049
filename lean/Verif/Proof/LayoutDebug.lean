import Verif.Model.LayoutDebug
import Verif.Proof.Layout
/-!
# Debug and release arithmetic of thread creation
-/

namespace Origin
open Spec

theorem cadd_some {ws a b x : Nat} (h : cadd ws a b = some x) : x = a + b ∧ a + b < umax ws ∧ uadd ws a b = x := by
  unfold cadd at h
  split at h
  · next hl => injection h with h; exact ⟨h.symm, hl, by rw [uadd_of_lt hl]; exact h⟩
  · cases h

theorem cadd_lt {ws a b : Nat} (h : a + b < umax ws) : cadd ws a b = some (a + b) := if_pos h

theorem csub_some {a b x : Nat} (h : csub a b = some x) : b ≤ a ∧ x = a - b := by
  unfold csub at h
  split at h
  · next hl => injection h with h; exact ⟨hl, h.symm⟩
  · cases h

theorem csub_le {a b : Nat} (h : b ≤ a) : csub a b = some (a - b) := if_pos h

theorem roundUpD_some {ws a b x : Nat} (h : roundUpD ws a b = some x) : 0 < b ∧ a + (b - 1) < umax ws ∧ roundUp ws a b = x := by
  unfold roundUpD at h
  simp only [Option.bind_eq_some_iff] at h
  obtain ⟨y, h1, z, h2, h3⟩ := h
  obtain ⟨g1, rfl⟩ := csub_some h1
  obtain ⟨rfl, g2, g3⟩ := cadd_some h2
  refine ⟨g1, g2, ?_⟩
  injection h3 with h3
  have e : uwsub ws b 1 = b - 1 := by
    by_cases hb : b < umax ws
    · exact uwsub_of_le hb g1
    · have hp := umax_pos ws
      have hb' : b = umax ws := by omega
      unfold uwsub
      rw [hb']
      have : BitVec.ofNat (8 * ws) (umax ws) = BitVec.ofNat (8 * ws) 0 := by
        apply BitVec.eq_of_toNat_eq; simp [umax]
      rw [this]
      have := uwsub_of_gt (ws := ws) (a := 0) (b := 1)
      by_cases h1 : 1 < umax ws
      · have := this (by omega) h1
        unfold uwsub at this; omega
      · have hu : umax ws = 1 := by omega
        have hlt := (BitVec.ofNat (8 * ws) 0 - BitVec.ofNat (8 * ws) 1).isLt
        unfold umax at hu
        rw [hu] at hlt
        unfold umax; omega
  unfold roundUp
  rw [e, g3]; exact h3

theorem roundUpD_eq {ws a b : Nat} (hb : ∃ k, b = 2 ^ k) (h : a + (b - 1) < umax ws) : roundUpD ws a b = some (natRoundUp a b) := by
  have hp := pow_pos hb
  obtain ⟨k, hk⟩ := hb
  have e : roundUpD ws a b = some (uand ws (a + (b - 1)) (uneg ws b)) := by
    unfold roundUpD; rw [csub_le hp, Option.bind_some, cadd_lt h, Option.bind_some]
  have := (roundUpD_some e).2.2
  rw [e, ← this, roundUp_eq hk h]

/-- Rounding panics exactly when the result does not fit. -/
theorem roundUpD_none {ws a b : Nat} (hb : ∃ k, b = 2 ^ k) (hle : b ≤ umax ws) (h : ¬ natRoundUp a b < umax ws) : roundUpD ws a b = none := by
  cases e : roundUpD ws a b with
  | none => rfl
  | some x =>
    obtain ⟨-, h2, -⟩ := roundUpD_some e
    exfalso
    have h3 := roundUpD_eq hb h2
    rw [e] at h3
    injection h3 with h3
    have hd : b ∣ umax ws := pow_dvd_of_le hb ⟨8 * ws, rfl⟩ hle
    have := natRoundUp_least (x := a) (pow_pos hb) hd (by omega)
    have hne : natRoundUp a b = umax ws := by omega
    have hlt := natRoundUp_lt (x := a) (pow_pos hb)
    obtain ⟨r, hr⟩ := dvd_natRoundUp a b
    have h5 := Nat.div_mul_le_self (a + (b - 1)) b
    have h6 : natRoundUp a b ≤ a + (b - 1) := h5
    omega

/-- Rounding in a debug build, for a power of two. -/
theorem roundUpD_iff {ws a b : Nat} (hb : ∃ k, b = 2 ^ k) (hle : b ≤ umax ws) :
    roundUpD ws a b = if natRoundUp a b < umax ws then some (natRoundUp a b) else none := by
  split
  · next h => exact roundUpD_eq hb (natRoundUp_room hb hle h)
  · next h => exact roundUpD_none hb hle h

theorem calculateTlsSizeD_same {c : Cfg} {m : Nat} {t : TlsSize} (h : calculateTlsSizeD c m = some t) : calculateTlsSize c m = t := by
  unfold calculateTlsSizeD at h
  simp only [Option.bind_eq_some_iff] at h
  obtain ⟨-, -, m0, h0, h⟩ := h
  have e0 := (roundUpD_some h0).2.2
  unfold calculateTlsSize
  cases hv : c.arch.variantI with
  | true =>
    simp only [hv, if_true, Option.bind_eq_some_iff] at h
    obtain ⟨m1, h1, m2, h2, t', h3, m3, h4, h5⟩ := h
    simp only [if_true, e0, (cadd_some h1).2.2, (roundUpD_some h2).2.2, (roundUpD_some h3).2.2, (cadd_some h4).2.2]
    injection h5
  | false =>
    simp only [hv, Bool.false_eq_true, if_false, Option.bind_eq_some_iff] at h
    obtain ⟨t', h1, m1, h2, m2, h3, h5⟩ := h
    simp only [Bool.false_eq_true, if_false, e0, (roundUpD_some h1).2.2, (cadd_some h2).2.2, (cadd_some h3).2.2]
    injection h5

theorem createLayoutD_same {c : Cfg} {ss gs : Nat} {l : CreateLayout} (h : createLayoutD c ss gs = some l) :
    createLayout c ss gs = l := by
  unfold createLayoutD at h
  simp only [Option.bind_eq_some_iff] at h
  obtain ⟨g, h1, sb, h2, r, h3, st, h4, t, h5, h6⟩ := h
  unfold createLayout
  simp only [(roundUpD_some h1).2.2, (cadd_some h2).2.2, (roundUpD_some h3).2.2, (cadd_some h4).2.2, calculateTlsSizeD_same h5]
  injection h6

theorem initializeTlsD_same {c : Cfg} {m : Mem} {junk : Nat → Byte} {a b d e f g h : Nat} {r : Mem × Nat × Nat}
    (hr : initializeTlsD c m junk a b d e f g h = some r) : initializeTls c m junk a b d e f g h = r := by
  unfold initializeTlsD at hr
  simp only [Option.bind_eq_some_iff] at hr
  obtain ⟨n, h1, h2⟩ := hr
  obtain ⟨-, rfl⟩ := csub_some h1
  injection h2

theorem dassert_true {p : Prop} [Decidable p] (h : p) : dassert p = some () := if_pos h

theorem selfAssert_true {a : Arch} {p : Prop} [Decidable p] (h : a = .x86_64 ∨ a = .x86 → p) : selfAssert a p = some () := by
  cases a
  · exact dassert_true (h (.inl rfl))
  all_goals first | rfl | exact dassert_true (h (.inr rfl))

/-- `calculate_tls_size` in a debug build. -/
theorem calculateTlsSizeD_eq {c : Cfg} (h : CfgOk c) (lo m : Nat) :
    calculateTlsSizeD c m = if (areasFrom c lo m).stop < umax c.ws then
      some ⟨(areasFrom c lo m).stop, (areasFrom c lo m).tls, (areasFrom c lo m).record⟩ else none := by
  have q1 := tlsAlign_le_umax h
  have q2 := md_le_umax h
  have hmd : ∃ k, mdAlign c = 2 ^ k := max_pow h.tlsPow (metaAlign_pow _)
  have r0 := roundUpD_iff (a := m) hmd q2
  have r1 := roundUpD_iff (a := c.tls.memSize) h.tlsPow q1
  have p3 := pow_pos h.tlsPow
  unfold calculateTlsSizeD
  simp only [dassert_true (show max c.tls.align (metaAlign c.arch) ≤ c.page from mdAlign_le h), Option.bind_some]
  rw [show max c.tls.align (metaAlign c.arch) = mdAlign c from rfl, r0, r1]
  cases hv : c.arch.variantI with
  | true =>
    rw [areasFrom_varI hv]
    have b2 := le_natRoundUp (x := natRoundUp m (mdAlign c) + metaSize c.arch c.tl) p3
    by_cases g0 : natRoundUp m (mdAlign c) < umax c.ws
    · rw [if_pos g0]
      simp only [Option.bind_some, if_true]
      by_cases g1 : natRoundUp m (mdAlign c) + metaSize c.arch c.tl < umax c.ws
      · rw [cadd_lt g1, Option.bind_some, roundUpD_iff h.tlsPow q1]
        by_cases g2 : natRoundUp (natRoundUp m (mdAlign c) + metaSize c.arch c.tl) c.tls.align < umax c.ws
        · rw [if_pos g2, Option.bind_some]
          by_cases g3 : natRoundUp c.tls.memSize c.tls.align < umax c.ws
          · rw [if_pos g3, Option.bind_some]
            by_cases g4 : natRoundUp (natRoundUp m (mdAlign c) + metaSize c.arch c.tl) c.tls.align + natRoundUp c.tls.memSize c.tls.align < umax c.ws
            · rw [cadd_lt g4, if_pos g4]; rfl
            · rw [if_neg g4, cadd, if_neg g4]; rfl
          · rw [if_neg g3, Option.bind_none, if_neg (by omega)]
        · rw [if_neg g2, Option.bind_none, if_neg (by omega)]
      · rw [cadd, if_neg g1, Option.bind_none, if_neg (by omega)]
    · rw [if_neg g0, Option.bind_none, if_neg (by simp only; omega)]
  | false =>
    rw [areasFrom_varII hv]
    simp only [Bool.false_eq_true, if_false]
    by_cases g0 : natRoundUp m (mdAlign c) < umax c.ws
    · rw [if_pos g0, Option.bind_some]
      by_cases g3 : natRoundUp c.tls.memSize c.tls.align < umax c.ws
      · rw [if_pos g3, Option.bind_some]
        by_cases g1 : natRoundUp m (mdAlign c) + natRoundUp c.tls.memSize c.tls.align < umax c.ws
        · rw [cadd_lt g1, Option.bind_some]
          by_cases g4 : natRoundUp m (mdAlign c) + natRoundUp c.tls.memSize c.tls.align + metaSize c.arch c.tl < umax c.ws
          · rw [cadd_lt g4, if_pos g4]; rfl
          · rw [if_neg g4, cadd, if_neg g4]; rfl
        · rw [cadd, if_neg g1, Option.bind_none, if_neg (by omega)]
      · rw [if_neg g3, Option.bind_none, if_neg (by omega)]
    · rw [if_neg g0, Option.bind_none, if_neg (by omega)]

/-- The layout in a debug build: a panic exactly when the thread's memory is larger than the address space. -/
theorem createLayoutD_eq {c : Cfg} (h : CfgOk c) (ss gs : Nat) :
    (Fits c ss gs → createLayoutD c ss gs = some (createLayout c ss gs)) ∧ (¬ Fits c ss gs → createLayoutD c ss gs = none) := by
  have hle := areasFrom_le h (natRoundUp gs c.page) (natRoundUp gs c.page + natRoundUp ss 16)
  have hd : ∀ l, createLayoutD c ss gs = some l → createLayoutD c ss gs = some (createLayout c ss gs) :=
    fun l hl => by rw [createLayoutD_same hl]; exact hl
  have p0 := h.pageMin
  have p1 := h.pageMax
  have key : createLayoutD c ss gs = if (areas c ss gs).stop < umax c.ws then some (createLayout c ss gs) else none := by
    unfold areas
    simp only
    have r0 := roundUpD_iff (a := gs) h.pagePow (show c.page ≤ umax c.ws by omega)
    have r1 := roundUpD_iff (ws := c.ws) (a := ss) ⟨4, rfl⟩ (show 2 ^ 4 ≤ umax c.ws by omega)
    rw [show (2 : Nat) ^ 4 = 16 from rfl] at r1
    have ht := calculateTlsSizeD_eq h (natRoundUp gs c.page) (natRoundUp gs c.page + natRoundUp ss 16)
    by_cases g : (areasFrom c (natRoundUp gs c.page) (natRoundUp gs c.page + natRoundUp ss 16)).stop < umax c.ws
    · rw [if_pos g] at ht ⊢
      obtain ⟨l, hl⟩ : ∃ l, createLayoutD c ss gs = some l := by
        refine ⟨⟨(areasFrom c (natRoundUp gs c.page) (natRoundUp gs c.page + natRoundUp ss 16)).stop, natRoundUp gs c.page,
          natRoundUp gs c.page + natRoundUp ss 16, (areasFrom c (natRoundUp gs c.page) (natRoundUp gs c.page + natRoundUp ss 16)).tls,
          (areasFrom c (natRoundUp gs c.page) (natRoundUp gs c.page + natRoundUp ss 16)).record⟩, ?_⟩
        unfold createLayoutD
        rw [r0, if_pos (by omega), Option.bind_some, cadd_lt (by omega), Option.bind_some, r1, if_pos (by omega), Option.bind_some,
          cadd_lt (by omega), Option.bind_some, Nat.zero_add, ht]
        rfl
      exact hd l hl
    · rw [if_neg g] at ht ⊢
      unfold createLayoutD
      rw [r0]
      by_cases g0 : natRoundUp gs c.page < umax c.ws
      · rw [if_pos g0, Option.bind_some, cadd_lt (by omega), Option.bind_some, r1, Nat.zero_add]
        by_cases g1 : natRoundUp ss 16 < umax c.ws
        · rw [if_pos g1, Option.bind_some]
          by_cases g2 : natRoundUp gs c.page + natRoundUp ss 16 < umax c.ws
          · rw [cadd_lt g2, Option.bind_some, ht]; rfl
          · rw [cadd, if_neg g2]; rfl
        · rw [if_neg g1]; rfl
      · rw [if_neg g0]; rfl
  exact ⟨fun hf => key.trans (if_pos hf), fun hf => key.trans (if_neg hf)⟩

theorem calculateTlsSizeD_lt {c : Cfg} {m : Nat} {t : TlsSize} (h : calculateTlsSizeD c m = some t) : t.mapSize < umax c.ws := by
  unfold calculateTlsSizeD at h
  simp only [Option.bind_eq_some_iff] at h
  obtain ⟨-, -, m0, h0, h⟩ := h
  cases hv : c.arch.variantI with
  | true =>
    simp only [hv, if_true, Option.bind_eq_some_iff] at h
    obtain ⟨m1, h1, m2, h2, t', h3, m3, h4, h5⟩ := h
    injection h5 with h5
    obtain ⟨e, hl, -⟩ := cadd_some h4
    rw [← h5, e]; exact hl
  | false =>
    simp only [hv, Bool.false_eq_true, if_false, Option.bind_eq_some_iff] at h
    obtain ⟨t', h1, m1, h2, m2, h3, h5⟩ := h
    injection h5 with h5
    obtain ⟨e, hl, -⟩ := cadd_some h3
    rw [← h5, e]; exact hl

theorem createLayoutD_lt {c : Cfg} {ss gs : Nat} {l : CreateLayout} (h : createLayoutD c ss gs = some l) : l.mapSize < umax c.ws := by
  unfold createLayoutD at h
  simp only [Option.bind_eq_some_iff] at h
  obtain ⟨g, h1, sb, h2, r, h3, st, h4, t, h5, h6⟩ := h
  injection h6 with h6
  rw [← h6]; exact calculateTlsSizeD_lt h5

theorem orPanic_ok {α β : Type} {calls : List Sys} {x : Option α} {f : α → DbgRun β} {b : β} (h : DbgRun.orPanic calls x f = .ok b) :
    ∃ v, x = some v ∧ f v = .ok b := by
  cases x with
  | none => cases h
  | some v => exact ⟨v, rfl, h⟩

theorem createD_same {c : Cfg} {m : Mem} {junk : Nat → Byte} {k : Answers} {tp fn : Nat} {args : List Nat} {ss gs : Nat} {out : CreateOut}
    (h : createD c m junk k tp fn args ss gs = .ok out) : create c m junk k tp fn args ss gs = out := by
  unfold createD at h
  obtain ⟨l, h1, h⟩ := orPanic_ok h
  have hl := createLayoutD_same h1
  have hlt := createLayoutD_lt h1
  unfold create
  rw [hl]
  cases hk : k.mmap with
  | error e => rw [hk] at h; simp only at h ⊢; injection h
  | ok map =>
    rw [hk] at h
    simp only at h ⊢
    obtain ⟨len, h2, h⟩ := orPanic_ok h
    obtain ⟨hle, rfl⟩ := csub_some h2
    rw [uwsub_of_le hlt hle]
    cases hk2 : k.mprotect with
    | error e => rw [hk2] at h; simp only at h ⊢; injection h
    | ok u =>
      rw [hk2] at h
      simp only at h ⊢
      obtain ⟨⟨m', newtls, tidPtr⟩, h3, h⟩ := orPanic_ok h
      rw [initializeTlsD_same h3]
      simp only at h ⊢
      split
      · next hc => rw [if_pos hc] at h; injection h
      · next hc => rw [if_neg hc] at h; injection h

theorem initializeMainD_same {c : Cfg} {m : Mem} {junk : Nat → Byte} {i : MainIn} {out : MainOut}
    (h : initializeMainD c m junk i = .ok out) : initializeMain c m junk i = some out := by
  unfold initializeMainD at h
  obtain ⟨sb, h1, h⟩ := orPanic_ok h
  obtain ⟨lim, h2, h⟩ := orPanic_ok h
  obtain ⟨t, h3, h⟩ := orPanic_ok h
  obtain ⟨-, -, h⟩ := orPanic_ok h
  obtain ⟨⟨m', newtls, tidPtr⟩, h4, h⟩ := orPanic_ok h
  obtain ⟨-, -, h⟩ := orPanic_ok h
  unfold initializeMain
  simp only [h2, (roundUpD_some h1).2.2, calculateTlsSizeD_same h3, initializeTlsD_same h4]
  injection h with h
  rw [h]

end Origin
