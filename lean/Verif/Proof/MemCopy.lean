import Verif.Proof.MemBytes
import Verif.Model.MemFast
/-!
# Copying loops
-/

namespace Origin
open Spec

/-- `s'` is `s` with memory `m'` and some more accesses logged, all of which satisfy `P`. -/
structure Runs (P : Access → Prop) (s s' : St) (m' : Mem) : Prop where
  mem : s'.mem = m'
  log : ∃ l, s'.log = l ++ s.log ∧ ∀ x ∈ l, P x

namespace Runs

theorem refl (P : Access → Prop) (s : St) : Runs P s s s.mem := ⟨rfl, [], rfl, by simp⟩

theorem trans {P : Access → Prop} {s s1 s2 : St} {m1 m2 : Mem}
    (h1 : Runs P s s1 m1) (h2 : Runs P s1 s2 m2) : Runs P s s2 m2 := by
  obtain ⟨l1, e1, p1⟩ := h1.log
  obtain ⟨l2, e2, p2⟩ := h2.log
  refine ⟨h2.mem, l2 ++ l1, by rw [e2, e1, List.append_assoc], ?_⟩
  intro x hx
  rcases List.mem_append.mp hx with h | h
  · exact p2 x h
  · exact p1 x h

theorem congr {P : Access → Prop} {s s' : St} {m m' : Mem} (h : Runs P s s' m) (e : m = m') :
    Runs P s s' m' := e ▸ h

theorem mono {P Q : Access → Prop} {s s' : St} {m : Mem} (h : Runs P s s' m)
    (pq : ∀ x, P x → Q x) : Runs Q s s' m := by
  obtain ⟨l, e, p⟩ := h.log
  exact ⟨h.mem, l, e, fun x hx => pq x (p x hx)⟩

theorem ld {P : Access → Prop} (s : St) (a k : Nat) (h : P (.ld a k)) :
    Runs P s { s with log := .ld a k :: s.log } s.mem :=
  ⟨rfl, [.ld a k], rfl, by simpa using h⟩

theorem stW {P : Access → Prop} (e : Endian) (ws : Nat) (s : St) (a : Nat) (w : BitVec (8 * ws))
    (h : P (.st a ws)) :
    Runs P s (s.stW e ws a w)
      (fun x => if a ≤ x ∧ x < a + ws then byteOf e w (x - a) else s.mem x) :=
  ⟨rfl, [.st a ws], rfl, by simpa using h⟩

end Runs

theorem moved_zero (m : Mem) (d r : Nat) : moved m d r 0 = m := by
  funext a; unfold moved; split
  · omega
  · rfl

/-- Copying a prefix first and then the rest, going up. -/
theorem moved_fwd (m : Mem) (d r n1 n2 : Nat) (h : d ≤ r ∨ r + (n1 + n2) ≤ d) :
    moved (moved m d r n1) (d + n1) (r + n1) n2 = moved m d r (n1 + n2) := by
  funext a
  unfold moved
  by_cases h2 : d + n1 ≤ a ∧ a < d + n1 + n2
  · rw [if_pos h2, if_neg (by omega), if_pos (by omega)]
    congr 1; omega
  · rw [if_neg h2]
    by_cases h1 : d ≤ a ∧ a < d + n1
    · rw [if_pos h1, if_pos (by omega)]
    · rw [if_neg h1, if_neg (by omega)]

/-- Copying a suffix first and then the rest, going down. -/
theorem moved_bwd (m : Mem) (d r n1 n2 : Nat) (h : r ≤ d ∨ d + (n1 + n2) ≤ r) :
    moved (moved m (d + n1) (r + n1) n2) d r n1 = moved m d r (n1 + n2) := by
  funext a
  unfold moved
  by_cases h1 : d ≤ a ∧ a < d + n1
  · rw [if_pos h1, if_neg (by omega), if_pos (by omega)]
  · rw [if_neg h1]
    by_cases h2 : d + n1 ≤ a ∧ a < d + n1 + n2
    · rw [if_pos h2, if_pos (by omega)]
      congr 1; omega
    · rw [if_neg h2, if_neg (by omega)]

/-- One byte transferred. -/
theorem byte_step (P : Access → Prop) (s : St) (d r : Nat) (hl : P (.ld r 1)) (hs : P (.st d 1)) :
    Runs P s ((s.ld8 r).2.st8 d (s.ld8 r).1) (moved s.mem d r 1) := by
  refine ⟨?_, [.st d 1, .ld r 1], rfl, by simp [hl, hs]⟩
  funext a
  simp only [St.st8, St.ld8, moved]
  by_cases h : a = d
  · subst h; simp
  · rw [if_neg h, if_neg (by omega)]

/-- One word transferred. -/
theorem word_step (P : Access → Prop) (e : Endian) (ws : Nat) (s : St) (d r : Nat)
    (hl : P (.ld r ws)) (hs : P (.st d ws)) :
    Runs P s ((s.ldW e ws r).2.stW e ws d (s.ldW e ws r).1) (moved s.mem d r ws) := by
  refine ⟨?_, [.st d ws, .ld r ws], rfl, by simp [hl, hs]⟩
  funext a
  simp only [St.stW, St.ldW, moved]
  split
  · rw [byteOf_wordAt _ _ _ _ _ (by omega)]
  · rfl

/-! ### upward loops -/

theorem copyForwardBytesLoop_runs (P : Access → Prop) (n : Nat) : ∀ (s : St) (d r : Nat),
    (d ≤ r ∨ r + n ≤ d) → (∀ i, i < n → P (.ld (r + i) 1)) → (∀ i, i < n → P (.st (d + i) 1)) →
    Runs P s (Impls.copyForwardBytesLoop s d r (d + n)) (moved s.mem d r n) := by
  induction n with
  | zero =>
    intro s d r _ _ _
    rw [Impls.copyForwardBytesLoop]
    simp only [Nat.add_zero, Nat.lt_irrefl, if_false, moved_zero]
    exact Runs.refl _ _
  | succ n ih =>
    intro s d r h hl hs
    rw [Impls.copyForwardBytesLoop, if_pos (by omega)]
    have h1 := byte_step P s d r (hl 0 (by omega)) (hs 0 (by omega))
    have h2 := ih ((s.ld8 r).2.st8 d (s.ld8 r).1) (d + 1) (r + 1) (by omega)
      (fun i hi => by have := hl (i + 1) (by omega); rwa [Nat.add_comm i 1, ← Nat.add_assoc] at this)
      (fun i hi => by have := hs (i + 1) (by omega); rwa [Nat.add_comm i 1, ← Nat.add_assoc] at this)
    rw [h1.mem, moved_fwd _ _ _ _ _ (by omega), Nat.add_assoc, Nat.add_comm 1 n] at h2
    exact h1.trans h2

theorem copyUp_eq (s : St) (d r e : Nat) : Small.copyUp s d r e = Impls.copyForwardBytesLoop s d r e := by
  induction hk : e - d using Nat.strongRecOn generalizing s d r with
  | ind k ih =>
    rw [Small.copyUp, Impls.copyForwardBytesLoop]
    split
    · exact ih (e - (d + 1)) (by omega) _ _ _ rfl
    · rfl

theorem copyForwardWordsLoop_runs (P : Access → Prop) (e : Endian) (ws : Nat) (hws : 0 < ws)
    (q : Nat) : ∀ (s : St) (d r : Nat),
    (d ≤ r ∨ r + ws * q ≤ d) → (∀ i, i < q → P (.ld (r + ws * i) ws)) →
    (∀ i, i < q → P (.st (d + ws * i) ws)) →
    Runs P s (Impls.copyForwardWordsLoop e ws s d r (d + ws * q)) (moved s.mem d r (ws * q)) := by
  induction q with
  | zero =>
    intro s d r _ _ _
    rw [Impls.copyForwardWordsLoop, dif_neg (by simp), Nat.mul_zero, moved_zero]
    exact Runs.refl _ _
  | succ q ih =>
    intro s d r h hl hs
    rw [Nat.mul_succ] at h
    rw [Impls.copyForwardWordsLoop, dif_pos (by rw [Nat.mul_succ]; omega)]
    have h1 := word_step P e ws s d r (hl 0 (by omega)) (hs 0 (by omega))
    have h2 := ih ((s.ldW e ws r).2.stW e ws d (s.ldW e ws r).1) (d + ws) (r + ws) (by omega)
      (fun i hi => by
        have := hl (i + 1) (by omega); rwa [Nat.mul_succ, Nat.add_comm _ ws, ← Nat.add_assoc] at this)
      (fun i hi => by
        have := hs (i + 1) (by omega); rwa [Nat.mul_succ, Nat.add_comm _ ws, ← Nat.add_assoc] at this)
    rw [h1.mem, moved_fwd _ _ _ _ _ (by omega)] at h2
    have e1 : d + ws + ws * q = d + ws * (q + 1) := by rw [Nat.mul_succ]; omega
    have e2 : ws + ws * q = ws * (q + 1) := by rw [Nat.mul_succ]; omega
    rw [e1, e2] at h2
    exact h1.trans h2

/-! ### downward loops -/

theorem copyBackwardBytesLoop_runs (P : Access → Prop) (n : Nat) : ∀ (s : St) (d r : Nat),
    (r ≤ d ∨ d + n ≤ r) → (∀ i, i < n → P (.ld (r + i) 1)) → (∀ i, i < n → P (.st (d + i) 1)) →
    Runs P s (Impls.copyBackwardBytesLoop s (d + n) (r + n) d) (moved s.mem d r n) := by
  induction n with
  | zero =>
    intro s d r _ _ _
    rw [Impls.copyBackwardBytesLoop]
    simp only [Nat.add_zero, Nat.lt_irrefl, if_false, moved_zero]
    exact Runs.refl _ _
  | succ n ih =>
    intro s d r h hl hs
    rw [Impls.copyBackwardBytesLoop, if_pos (by omega)]
    have ed : d + (n + 1) - 1 = d + n := by omega
    have er : r + (n + 1) - 1 = r + n := by omega
    simp only [ed, er]
    have h1 := byte_step P s (d + n) (r + n) (hl n (by omega)) (hs n (by omega))
    have h2 := ih ((s.ld8 (r + n)).2.st8 (d + n) (s.ld8 (r + n)).1) d r (by omega)
      (fun i hi => hl i (by omega)) (fun i hi => hs i (by omega))
    rw [h1.mem, moved_bwd _ _ _ _ _ (by omega)] at h2
    exact h1.trans h2

theorem copyDown_eq (s : St) (d r e : Nat) : Small.copyDown s d r e = Impls.copyBackwardBytesLoop s d r e := by
  induction hk : d - e using Nat.strongRecOn generalizing s d r with
  | ind k ih =>
    rw [Small.copyDown, Impls.copyBackwardBytesLoop]
    split
    · exact ih (d - 1 - e) (by omega) _ _ _ rfl
    · rfl

theorem copyBackwardWordsLoop_runs (P : Access → Prop) (e : Endian) (ws : Nat) (hws : 0 < ws)
    (q : Nat) : ∀ (s : St) (d r : Nat),
    (r ≤ d ∨ d + ws * q ≤ r) → (∀ i, i < q → P (.ld (r + ws * i) ws)) →
    (∀ i, i < q → P (.st (d + ws * i) ws)) →
    Runs P s (Impls.copyBackwardWordsLoop e ws s (d + ws * q) (r + ws * q) d)
      (moved s.mem d r (ws * q)) := by
  induction q with
  | zero =>
    intro s d r _ _ _
    rw [Impls.copyBackwardWordsLoop, dif_neg (by simp), Nat.mul_zero, moved_zero]
    exact Runs.refl _ _
  | succ q ih =>
    intro s d r h hl hs
    rw [Nat.mul_succ] at h
    rw [Impls.copyBackwardWordsLoop, dif_pos (by rw [Nat.mul_succ]; omega)]
    have ed : d + ws * (q + 1) - ws = d + ws * q := by rw [Nat.mul_succ]; omega
    have er : r + ws * (q + 1) - ws = r + ws * q := by rw [Nat.mul_succ]; omega
    simp only [ed, er]
    have h1 := word_step P e ws s (d + ws * q) (r + ws * q) (hl q (by omega)) (hs q (by omega))
    have h2 := ih ((s.ldW e ws (r + ws * q)).2.stW e ws (d + ws * q) (s.ldW e ws (r + ws * q)).1) d r
      (by omega) (fun i hi => hl i (by omega)) (fun i hi => hs i (by omega))
    rw [h1.mem, moved_bwd _ _ _ _ _ (by omega)] at h2
    exact h1.trans h2

/-! ### the shift-and-merge path -/

theorem byteOf_resemble (e : Endian) (ws : Nat) (prev cur : BitVec (8 * ws)) (off i : Nat)
    (_h0 : 0 < off) (h1 : off < ws) (hi : i < ws) :
    byteOf e (Impls.resemble e ws prev cur (off * 8)) i =
      if i < ws - off then byteOf e prev (off + i) else byteOf e cur (i - (ws - off)) := by
  apply BitVec.eq_of_getLsbD_eq
  intro j hj
  cases e with
  | little =>
    rw [getLsbD_byteOf_little _ _ _ hj]
    simp only [Impls.resemble, BitVec.getLsbD_or, BitVec.getLsbD_ushiftRight, BitVec.getLsbD_shiftLeft]
    split
    · rw [getLsbD_byteOf_little _ _ _ hj]
      have a1 : 8 * i + j < ws * 8 - off * 8 := by omega
      have a2 : off * 8 + (8 * i + j) = 8 * (off + i) + j := by omega
      simp [a1, a2]
    · rw [getLsbD_byteOf_little _ _ _ hj]
      have a1 : ¬ 8 * i + j < ws * 8 - off * 8 := by omega
      have a3 : 8 * i + j < 8 * ws := by omega
      have a2 : 8 * i + j - (ws * 8 - off * 8) = 8 * (i - (ws - off)) + j := by omega
      have a4 : prev.getLsbD (off * 8 + (8 * i + j)) = false := BitVec.getLsbD_of_ge _ _ (by omega)
      simp [a1, a2, a3, a4]
  | big =>
    rw [getLsbD_byteOf_big _ _ _ hj]
    simp only [Impls.resemble, BitVec.getLsbD_or, BitVec.getLsbD_ushiftRight, BitVec.getLsbD_shiftLeft]
    split
    · rw [getLsbD_byteOf_big _ _ _ hj]
      have a1 : ¬ 8 * (ws - 1 - i) + j < off * 8 := by omega
      have a3 : 8 * (ws - 1 - i) + j < 8 * ws := by omega
      have a2 : 8 * (ws - 1 - i) + j - off * 8 = 8 * (ws - 1 - (off + i)) + j := by omega
      have a4 : cur.getLsbD (ws * 8 - off * 8 + (8 * (ws - 1 - i) + j)) = false :=
        BitVec.getLsbD_of_ge _ _ (by omega)
      simp [a1, a2, a3, a4]
    · rw [getLsbD_byteOf_big _ _ _ hj]
      have a1 : 8 * (ws - 1 - i) + j < off * 8 := by omega
      have a2 : ws * 8 - off * 8 + (8 * (ws - 1 - i) + j) = 8 * (ws - 1 - (i - (ws - off))) + j := by omega
      simp [a1, a2]

theorem resembleDown_eq (e : Endian) (ws : Nat) (prev cur : BitVec (8 * ws)) (sh : Nat) :
    Impls.resembleDown e ws prev cur sh = Impls.resemble e ws cur prev sh := by
  cases e <;> simp only [Impls.resembleDown, Impls.resemble] <;> exact BitVec.or_comm _ _

/-- The upward shifting loop.  `g j` is the source byte of index `j`; the words up to `srcAligned`
have been read already. -/
theorem shiftUp_runs (P : Access → Prop) (e : Endian) (ws off : Nat) (h0 : 0 < off) (h1 : off < ws)
    (q : Nat) : ∀ (s : St) (d sa : Nat) (prev : BitVec (8 * ws)) (g : Nat → Byte),
    (d ≤ sa + off ∨ sa + off + ws * q ≤ d) →
    (∀ i, i < q → P (.ld (sa + ws * (i + 1)) ws)) →
    (∀ i, i < q → P (.st (d + ws * i) ws)) →
    (∀ i, i < ws - off → i < ws * q → byteOf e prev (off + i) = g i) →
    (∀ j, ws - off ≤ j → j < ws * q → s.mem (sa + off + j) = g j) →
    Runs P s (Impls.copyForwardShiftLoop e ws s d sa (d + ws * q) (off * 8) prev)
      (fun a => if d ≤ a ∧ a < d + ws * q then g (a - d) else s.mem a) := by
  induction q with
  | zero =>
    intro s d sa prev g _ _ _ _ _
    rw [Impls.copyForwardShiftLoop, dif_neg (by simp)]
    refine (Runs.refl P s).congr ?_
    funext a; rw [if_neg (by omega)]
  | succ q ih =>
    intro s d sa prev g h hl hs hp hm
    rw [Impls.copyForwardShiftLoop, dif_pos (by rw [Nat.mul_succ]; omega)]
    rw [Nat.mul_succ] at h hp hm
    simp only [St.ldW]
    have r1 := Runs.ld (P := P) s (sa + ws) ws (by simpa using hl 0 (by omega))
    generalize hs1 : ({ s with log := .ld (sa + ws) ws :: s.log } : St) = s1 at *
    have hm1 : s1.mem = s.mem := by rw [← hs1]
    have r2 := Runs.stW (P := P) e ws s1 d
      (Impls.resemble e ws prev (wordAt e ws s.mem (sa + ws)) (off * 8)) (by simpa using hs 0 (by omega))
    generalize hs2 : s1.stW e ws d
      (Impls.resemble e ws prev (wordAt e ws s.mem (sa + ws)) (off * 8)) = s2 at *
    have hbyte : ∀ i, i < ws →
        byteOf e (Impls.resemble e ws prev (wordAt e ws s.mem (sa + ws)) (off * 8)) i = g i := by
      intro i hi
      rw [byteOf_resemble _ _ _ _ _ _ h0 h1 hi]
      split
      · exact hp i (by omega) (by omega)
      · rw [byteOf_wordAt _ _ _ _ _ (by omega), ← hm i (by omega) (by omega)]
        congr 1; omega
    have hm2 : s2.mem = fun a => if d ≤ a ∧ a < d + ws then g (a - d) else s.mem a := by
      rw [r2.mem, hm1]
      funext a
      split
      · exact hbyte _ (by omega)
      · rfl
    have r3 := ih s2 (d + ws) (sa + ws) (wordAt e ws s.mem (sa + ws)) (fun j => g (j + ws))
      (by omega)
      (fun i hi => by
        have := hl (i + 1) (by omega)
        have e1 : sa + ws + ws * (i + 1) = sa + ws * (i + 1 + 1) := by
          rw [Nat.mul_succ ws (i + 1)]; omega
        rwa [e1])
      (fun i hi => by
        have := hs (i + 1) (by omega)
        have e1 : d + ws + ws * i = d + ws * (i + 1) := by rw [Nat.mul_succ]; omega
        rwa [e1])
      (fun i hi hq => by
        rw [byteOf_wordAt _ _ _ _ _ (by omega), ← hm (i + ws) (by omega) (by omega)]
        congr 1; omega)
      (fun j hj hq => by
        rw [hm2]
        simp only
        rw [if_neg (by omega), ← hm (j + ws) (by omega) (by omega)]
        congr 1; omega)
    have e1 : d + ws + ws * q = d + ws * (q + 1) := by rw [Nat.mul_succ]; omega
    rw [e1] at r3
    refine (r1.trans (r2.trans r3)).congr ?_
    funext a
    rw [hm2]
    simp only [Nat.mul_succ]
    by_cases c1 : d + ws ≤ a ∧ a < d + (ws * q + ws)
    · rw [if_pos c1, if_pos (by omega)]; congr 1; omega
    · rw [if_neg c1]
      by_cases c2 : d ≤ a ∧ a < d + ws
      · rw [if_pos c2, if_pos (by omega)]
      · rw [if_neg c2, if_neg (by omega)]

/-- The downward shifting loop.  `d`, `r` are the start addresses; `sa + off` is the current source end. -/
theorem shiftDown_runs (P : Access → Prop) (e : Endian) (ws off : Nat) (h0 : 0 < off) (h1 : off < ws)
    (q : Nat) : ∀ (s : St) (d r sa : Nat) (prev : BitVec (8 * ws)) (g : Nat → Byte),
    sa + off = r + ws * q →
    (r ≤ d ∨ d + ws * q ≤ r) →
    (∀ i, i < q → P (.ld (sa - ws * (i + 1)) ws)) →
    (∀ i, i < q → P (.st (d + ws * i) ws)) →
    (0 < q → ∀ i, i < off → byteOf e prev i = g (ws * q - off + i)) →
    (∀ j, j < ws * q - off → s.mem (r + j) = g j) →
    (ws ≤ r ∨ off ≤ r) →
    Runs P s (Impls.copyBackwardShiftLoop e ws s (d + ws * q) sa d (off * 8) prev)
      (fun a => if d ≤ a ∧ a < d + ws * q then g (a - d) else s.mem a) := by
  induction q with
  | zero =>
    intro s d r sa prev g _ _ _ _ _ _ _
    rw [Impls.copyBackwardShiftLoop, dif_neg (by simp)]
    refine (Runs.refl P s).congr ?_
    funext a; rw [if_neg (by omega)]
  | succ q ih =>
    intro s d r sa prev g hsa h hl hs hp hm hr
    have ed : d + ws * (q + 1) - ws = d + ws * q := by rw [Nat.mul_succ]; omega
    rw [Impls.copyBackwardShiftLoop, dif_pos (by rw [Nat.mul_succ]; omega)]
    simp only [ed]
    rw [Nat.mul_succ] at hsa h hp hm
    have hp := hp (by omega)
    simp only [St.ldW]
    have r1 := Runs.ld (P := P) s (sa - ws) ws (by simpa using hl 0 (by omega))
    generalize hs1 : ({ s with log := .ld (sa - ws) ws :: s.log } : St) = s1 at *
    have hm1 : s1.mem = s.mem := by rw [← hs1]
    rw [resembleDown_eq]
    have r2 := Runs.stW (P := P) e ws s1 (d + ws * q)
      (Impls.resemble e ws (wordAt e ws s.mem (sa - ws)) prev (off * 8)) (hs q (by omega))
    generalize hs2 : s1.stW e ws (d + ws * q)
      (Impls.resemble e ws (wordAt e ws s.mem (sa - ws)) prev (off * 8)) = s2 at *
    have hbyte : ∀ i, i < ws →
        byteOf e (Impls.resemble e ws (wordAt e ws s.mem (sa - ws)) prev (off * 8)) i
          = g (ws * q + i) := by
      intro i hi
      rw [byteOf_resemble _ _ _ _ _ _ h0 h1 hi]
      split
      · rw [byteOf_wordAt _ _ _ _ _ (by omega), ← hm (ws * q + i) (by omega)]
        congr 1; omega
      · rw [hp _ (by omega)]; congr 1; omega
    have hm2 : s2.mem = fun a =>
        if d + ws * q ≤ a ∧ a < d + ws * q + ws then g (a - d) else s.mem a := by
      rw [r2.mem, hm1]
      funext a
      split
      · rw [hbyte _ (by omega)]; congr 1; omega
      · rfl
    have r3 := ih s2 d r (sa - ws) (wordAt e ws s.mem (sa - ws)) g
      (by omega) (by omega)
      (fun i hi => by
        have := hl (i + 1) (by omega)
        have e1 : sa - ws - ws * (i + 1) = sa - ws * (i + 1 + 1) := by
          rw [Nat.mul_succ ws (i + 1)]; omega
        rwa [e1])
      (fun i hi => hs i (by omega))
      (fun hq i hi => by
        have : ws * 1 ≤ ws * q := Nat.mul_le_mul_left _ hq
        rw [byteOf_wordAt _ _ _ _ _ (by omega), ← hm (ws * q - off + i) (by omega)]
        congr 1; omega)
      (fun j hj => by
        rw [hm2]
        simp only
        rw [if_neg (by omega), ← hm j (by omega)])
      hr
    refine (r1.trans (r2.trans r3)).congr ?_
    funext a
    rw [hm2]
    simp only [Nat.mul_succ]
    by_cases c1 : d ≤ a ∧ a < d + ws * q
    · rw [if_pos c1, if_pos (by omega)]
    · rw [if_neg c1]
      by_cases c2 : d + ws * q ≤ a ∧ a < d + ws * q + ws
      · rw [if_pos c2, if_pos (by omega)]
      · rw [if_neg c2, if_neg (by omega)]

end Origin
