import Verif.Model.Programs2
import Verif.Proof.Programs2
set_option linter.unusedSimpArgs false
/-! # `tiny-hello` on the abstract machine -/

namespace Origin.Programs
open User

/-- How many bytes the first `k` calls of `write` have written. -/
def sent (w : Nat → WRes) : Nat → Nat
  | 0 => 0
  | k + 1 => sent w k + match w k with | .ok n => n | _ => 0

/-- What they have written. -/
def outs (w : Nat → WRes) : Nat → List Char
  | 0 => []
  | k + 1 => outs w k ++ match w k with | .ok n => helloMsg.take n | _ => []

variable {w : Nat → WRes}

theorem outs_length (hk : ∀ i n, w i = .ok n → n ≤ helloMsg.length) (k : Nat) : (outs w k).length = sent w k := by
  induction k with
  | zero => rfl
  | succ k ih =>
    simp only [outs, sent, List.length_append, ih]
    cases hw : w k with
    | ok n => simp only [List.length_take]; rw [Nat.min_eq_left (hk k n hw)]
    | intr => rfl
    | err => rfl

theorem sent_mono (w : Nat → WRes) {i k : Nat} (h : i ≤ k) : sent w i ≤ sent w k := by
  induction h with
  | refl => exact Nat.le_refl _
  | step _ ih => exact Nat.le_trans ih (Nat.le_add_right _ _)

/-- Why `tiny-hello` traps: the last call of `write` failed, or has made it write more than the message has. -/
def Trapped (w : Nat → WRes) (k : Nat) : Prop :=
  ∃ j, k = j + 1 ∧ sent w j < helloMsg.length ∧ (w j = .err ∨ helloMsg.length < sent w k)

/-- Where the main thread of `tiny-hello` is, and what that means. -/
inductive HPos (w : Nat → WRes) (s : Hello) : Pos Th → Prop
  | ctors : s.rem + sent w s.calls = helloMsg.length → s.calls = 0 → HPos w s (.next (.ctors []))
  | top : s.rem + sent w s.calls = helloMsg.length → (∀ j, j < s.calls → w j ≠ .err) → HPos w s (.run .top .main)
  | write : s.rem + sent w s.calls = helloMsg.length → (∀ j, j < s.calls → w j ≠ .err) → s.rem ≠ 0 → HPos w s (.run .write .main)
  | done : sent w s.calls = helloMsg.length → (∀ j, j < s.calls → w j ≠ .err) → HPos w s (.run .done .main)
  | imm : sent w s.calls = helloMsg.length → (∀ j, j < s.calls → w j ≠ .err) → HPos w s (.next (.imm 0))
  | trap : Trapped w s.calls → HPos w s (.run .trap .main)
  | imm' : Trapped w s.calls → HPos w s (.next (.imm 132))

structure HInv (w : Nat → WRes) (a : Abs Hello Th) : Prop where
  out : a.mem.out = outs w a.mem.calls
  thr : ∃ p tid, a.thr = [⟨p, [], tid⟩] ∧ HPos w a.mem p
  status : ∀ v, a.status = some v → (v = 0 ∧ sent w a.mem.calls = helloMsg.length ∧ ∀ j, j < a.mem.calls → w j ≠ .err) ∨ (v = 132 ∧ Trapped w a.mem.calls)

theorem hinv_init (tid : Nat) : HInv w (ainit (tinyHello w) hello0 tid) :=
  ⟨rfl, ⟨_, _, rfl, .ctors (by simp [hello0, sent, ainit]) rfl⟩, by simp [ainit]⟩

theorem hinv_step {lk : Bool} {a a' : Abs Hello Th} {t x : Nat} {r : Option Nat} (I : HInv w a) (h : astep (tinyHello w) lk a t r x = some a') : HInv w a' := by
  obtain ⟨ho, ⟨p, tid, ht, hp⟩, hs⟩ := I
  unfold astep at h
  split at h
  · cases h
  next hst =>
  have h0 : a.status = none := by simpa using hst
  cases t with
  | succ t => simp [ht] at h
  | zero =>
    simp only [ht, List.getElem?_cons_zero] at h
    cases hp with
    | ctors h1 h2 =>
      simp only [nextStep, tinyHello, Option.some.injEq] at h; subst h
      exact ⟨ho, ⟨_, tid, by simp [Abs.setThr, ht] <;> rfl, .top h1 (by simp [Abs.setThr, h2])⟩, by simp [Abs.setThr, h0]⟩
    | top h1 h2 =>
      simp only [opStep, tinyHello, check, Option.some.injEq] at h; subst h
      refine ⟨ho, ⟨_, tid, by simp [Abs.setThr, ht] <;> rfl, ?_⟩, by simp [Abs.setThr, h0]⟩
      by_cases hr : a.mem.rem = 0
      · simp only [Abs.setThr, hr]; exact .done (by rw [hr] at h1; simpa [Abs.setThr] using h1) h2
      · rw [if_neg hr]; exact .write h1 h2 hr
    | write h1 h2 h3 =>
      simp only [opStep, tinyHello, Option.some.injEq] at h
      cases hw : w a.mem.calls with
      | ok n =>
        simp only [hw] at h
        split at h
        · next hn =>
          subst h
          refine ⟨by simp [Abs.setThr, outs, hw, ho], ⟨_, tid, by simp [Abs.setThr, ht] <;> rfl, .top ?_ ?_⟩, by simp [Abs.setThr, h0]⟩
          · simp only [Abs.setThr, sent, hw]; omega
          · intro j hj
            simp only [Abs.setThr] at hj
            rcases Nat.lt_succ_iff_lt_or_eq.mp hj with hj | rfl
            · exact h2 j hj
            · simp [hw]
        · next hn =>
          subst h
          refine ⟨by simp [Abs.setThr, outs, hw, ho], ⟨_, tid, by simp [Abs.setThr, ht] <;> rfl, .trap ⟨_, rfl, by omega, .inr ?_⟩⟩, by simp [Abs.setThr, h0]⟩
          simp only [Abs.setThr, sent, hw]; omega
      | intr =>
        simp only [hw] at h
        subst h
        refine ⟨by simp [Abs.setThr, outs, hw, ho], ⟨_, tid, by simp [Abs.setThr, ht] <;> rfl, .top ?_ ?_⟩, by simp [Abs.setThr, h0]⟩
        · simp only [Abs.setThr, sent, hw]; omega
        · intro j hj
          simp only [Abs.setThr] at hj
          rcases Nat.lt_succ_iff_lt_or_eq.mp hj with hj | rfl
          · exact h2 j hj
          · simp [hw]
      | err =>
        simp only [hw] at h
        subst h
        refine ⟨by simp [Abs.setThr, outs, hw, ho], ⟨_, tid, by simp [Abs.setThr, ht] <;> rfl, .trap ⟨_, rfl, by omega, .inl hw⟩⟩, by simp [Abs.setThr, h0]⟩
    | done h1 h2 =>
      simp only [opStep, tinyHello, Option.some.injEq] at h; subst h
      exact ⟨ho, ⟨_, tid, by simp [Abs.setThr, ht] <;> rfl, .imm h1 h2⟩, by simp [Abs.setThr, h0]⟩
    | imm h1 h2 =>
      simp only [nextStep, Option.some.injEq] at h; subst h
      exact ⟨ho, ⟨_, tid, ht, .imm h1 h2⟩, fun v hv => by cases hv; exact .inl ⟨rfl, h1, h2⟩⟩
    | trap h1 =>
      simp only [opStep, tinyHello, Option.some.injEq] at h; subst h
      exact ⟨ho, ⟨_, tid, by simp [Abs.setThr, ht] <;> rfl, .imm' h1⟩, by simp [Abs.setThr, h0]⟩
    | imm' h1 =>
      simp only [nextStep, Option.some.injEq] at h; subst h
      exact ⟨ho, ⟨_, tid, ht, .imm' h1⟩, fun v hv => by cases hv; exact .inr ⟨rfl, h1⟩⟩

theorem hinv {lk : Bool} {a : Abs Hello Th} (A : AReach (tinyHello w) lk hello0 a) : HInv w a := by
  induction A with
  | init tid => exact hinv_init tid
  | step _ h ih => exact hinv_step ih h

/-! ## What is written -/

/-- After the first nonempty write, of `n` bytes: the output begins with the beginning of the message, and what follows begins like the message. -/
theorem outs_shape (hk : ∀ i n, w i = .ok n → n ≤ helloMsg.length) : ∀ k, 0 < sent w k → ∃ i n, i < k ∧ w i = .ok n ∧ n ≠ 0 ∧ (∀ j, j < i → sent w (j + 1) = 0) ∧
    ∃ l, outs w k = helloMsg.take n ++ l ∧ (l = [] ∨ l.head? = some 'H')
  | 0, h => by simp [sent] at h
  | k + 1, h => by
    have hlen := outs_length hk k
    have head : ∀ m, m ≠ 0 → (helloMsg.take m).head? = some 'H' := by
      intro m hm; cases m with
      | zero => exact absurd rfl hm
      | succ m => rfl
    by_cases h0 : sent w k = 0
    · have ho : outs w k = [] := List.length_eq_zero_iff.mp (by omega)
      cases hw : w k with
      | ok n =>
        simp only [sent, hw, h0] at h
        refine ⟨k, n, by omega, hw, by omega, fun j hj => ?_, [], by simp [outs, hw, ho], .inl rfl⟩
        have := sent_mono w (show j + 1 ≤ k by omega)
        omega
      | intr => simp [sent, hw, h0] at h
      | err => simp [sent, hw, h0] at h
    · obtain ⟨i, n, h1, h2, h3, h4, l, h5, h6⟩ := outs_shape hk k (by omega)
      refine ⟨i, n, by omega, h2, h3, h4, l ++ (match w k with | .ok n => helloMsg.take n | _ => []), by simp [outs, h5], ?_⟩
      rcases h6 with rfl | h6
      · cases hw : w k with
        | ok m =>
          cases m with
          | zero => exact .inl rfl
          | succ m => exact .inr rfl
        | intr => exact .inl rfl
        | err => exact .inl rfl
      · right
        cases l with
        | nil => cases h6
        | cons x l => exact h6

/-- The message has no second 'H': it is not a proper beginning of itself followed by something that begins like it. -/
theorem msg_split {n : Nat} {l : List Char} (h0 : n ≠ 0) (h : helloMsg.take n ++ l = helloMsg) (hl : l = [] ∨ l.head? = some 'H') : helloMsg.length ≤ n := by
  refine Classical.byContradiction fun hn => ?_
  have hn' : n < helloMsg.length := by omega
  have hd : l = helloMsg.drop n := by
    have := congrArg (List.drop n) h
    rw [List.drop_append_of_le_length (by simp; omega)] at this
    simpa using this
  have all : ∀ n, n < helloMsg.length → n ≠ 0 → (helloMsg.drop n) ≠ [] ∧ (helloMsg.drop n).head? ≠ some 'H' := by decide
  have := all n hn' h0
  rw [← hd] at this
  rcases hl with h | h
  · exact this.1 h
  · exact this.2 h

/-! ## That it ends -/

theorem sent_zero {k : Nat} (h : ∀ j, j < k → w j = .intr ∨ w j = .ok 0) : ∀ j, j ≤ k → sent w j = 0
  | 0, _ => rfl
  | j + 1, hj => by
    simp only [sent, sent_zero h j (by omega)]
    rcases h j (by omega) with h | h <;> simp [h]

/-- How far `tiny-hello` is from its end, when call `k` of `write` writes all. -/
def hRank (k : Nat) (a : Abs Hello Th) : Nat :=
  match a.thr with
  | [⟨.next (.ctors _), _, _⟩] => 2 * (k + 1 - a.mem.calls) + 4
  | [⟨.run .top _, _, _⟩] => 2 * (k + 1 - a.mem.calls) + 3
  | [⟨.run .write _, _, _⟩] => 2 * (k + 1 - a.mem.calls) + 2
  | [⟨.run _ _, _, _⟩] => 1
  | _ => 0

/-- Until then there is something to write. -/
theorem calls_le {k : Nat} (hw : w k = .ok helloMsg.length) {s : Hello}
    (h : s.rem + sent w s.calls = helloMsg.length) (hr : s.rem ≠ 0) : s.calls ≤ k := by
  refine Classical.byContradiction fun hn => ?_
  have h1 := sent_mono w (show k + 1 ≤ s.calls by omega)
  simp only [sent, hw] at h1
  omega

theorem hrank_step {k : Nat} (hw : w k = .ok helloMsg.length) (hj : ∀ j, j < k → w j = .intr ∨ w j = .ok 0) {lk : Bool} {a a' : Abs Hello Th} {t x : Nat}
    {r : Option Nat} (I : HInv w a) (h : astep (tinyHello w) lk a t r x = some a') : a'.status.isSome = true ∨ hRank k a' < hRank k a := by
  obtain ⟨ho, ⟨p, tid, ht, hp⟩, hs⟩ := I
  unfold astep at h
  split at h
  · cases h
  next hst =>
  cases t with
  | succ t => simp [ht] at h
  | zero =>
    simp only [ht, List.getElem?_cons_zero] at h
    cases hp with
    | ctors h1 h2 =>
      simp only [nextStep, tinyHello, Option.some.injEq] at h; subst h
      right; simp [hRank, Abs.setThr, ht]
    | top h1 h2 =>
      simp only [opStep, tinyHello, check, Option.some.injEq] at h; subst h
      right
      by_cases hr : a.mem.rem = 0
      · simp [hRank, Abs.setThr, ht, hr]
      · simp [hRank, Abs.setThr, ht, hr]
    | write h1 h2 h3 =>
      have hc := calls_le hw h1 h3
      simp only [opStep, tinyHello, Option.some.injEq] at h
      right
      rcases Nat.lt_or_eq_of_le hc with hlt | heq
      · rcases hj _ hlt with h' | h'
        · simp only [h'] at h
          subst h
          simp [hRank, Abs.setThr, ht]; omega
        · simp only [h', Nat.zero_le, if_true] at h
          subst h
          simp [hRank, Abs.setThr, ht]; omega
      · rw [heq] at h1 h
        simp only [hw] at h
        split at h
        · subst h; simp [hRank, Abs.setThr, ht]; omega
        · subst h; simp [hRank, Abs.setThr, ht]
    | done h1 h2 =>
      simp only [opStep, tinyHello, Option.some.injEq] at h; subst h
      right; simp [hRank, Abs.setThr, ht]
    | imm h1 h2 => simp only [nextStep, Option.some.injEq] at h; subst h; exact .inl rfl
    | trap h1 =>
      simp only [opStep, tinyHello, Option.some.injEq] at h; subst h
      right; simp [hRank, Abs.setThr, ht]
    | imm' h1 => simp only [nextStep, Option.some.injEq] at h; subst h; exact .inl rfl

theorem hello_goes {lk : Bool} {a : Abs Hello Th} (I : HInv w a) (h0 : a.status = none) : ∃ t r x, astep (tinyHello w) lk a t r x ≠ none := by
  obtain ⟨-, ⟨p, tid, ht, hp⟩, -⟩ := I
  refine ⟨0, none, 0, ?_⟩
  unfold astep
  cases hp <;> simp [h0, ht, nextStep, opStep, tinyHello, check]

end Origin.Programs
