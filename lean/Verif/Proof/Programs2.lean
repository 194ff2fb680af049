import Verif.Proof.User17
import Verif.Proof.User12
import Verif.Proof.Programs
set_option linter.unusedSimpArgs false
/-! # The `detach` test ends in every schedule -/

namespace Origin.Programs
open User

/-- The threads that may have been detached when the main thread is here. -/
def dAllow : Pos De → List Nat
  | .next (.ctors _) | .run .m15 _ | .run (.m23 _) _ | .run (.m30 _ _) _ => []
  | .run (.m32 _) _ => [2]
  | .run (.m43 _) _ => [2, 3]
  | _ => [1, 2, 3]

/-- What has been detached; and nobody but an `exit` has closed the list. -/
structure DUsed (l : List Nat) (a : Abs Unit De) : Prop where
  main : ∀ T, a.thr[0]? = some T → (∀ u ∈ l, u ∈ dAllow T.pos) ∧ (a.closed = true → T.pos = .next (.fini 202 []) ∨ T.pos = .next (.imm 202))
  three : ∀ T k, a.thr[3]? = some T → T.pos = .run .g k → 3 ∉ l

/-- How many steps are left, those of threads to be created included. -/
def dRank : Pos De → Nat
  | .next (.ctors _) => 18
  | .run .m15 _ => 17
  | .run (.m23 _) _ => 14
  | .run (.m30 _ _) _ => 11
  | .run (.m32 _) _ => 10
  | .run (.m43 _) _ => 6
  | .run .m45 _ => 5
  | .next (.exitT _) => 4
  | .next (.exitP _) => 3
  | .next (.fini _ _) => 2
  | .next (.imm _) => 1
  | .run .g _ => 3
  | .run .f _ | .run .g1 _ => 2
  | .next (.ending _) => 1
  | _ => 0

def dSum (l : List (AThr De)) : Nat := (l.map fun T => dRank T.pos).sum

theorem dSum_set {l : List (AThr De)} {t : Nat} {T U : AThr De} (h : l[t]? = some T) : dSum (l.set t U) + dRank T.pos = dSum l + dRank U.pos := by
  induction l generalizing t with
  | nil => simp at h
  | cons x l ih =>
    cases t with
    | zero => simp at h; subst h; simp [dSum]; omega
    | succ t =>
      have := ih (t := t) (by simpa using h)
      simp [dSum] at this ⊢; omega

theorem dSum_append (l : List (AThr De)) (T : AThr De) : dSum (l ++ [T]) = dSum l + dRank T.pos := by simp [dSum]

theorem DUsed.set {l l' : List Nat} {a b : Abs Unit De} (D : DUsed l a) {T : AThr De} (hb : b.thr = a.thr.set 0 T)
    (h1 : ∀ u ∈ l', u ∈ dAllow T.pos) (h2 : b.closed = true → T.pos = .next (.fini 202 []) ∨ T.pos = .next (.imm 202)) (h3 : 3 ∈ l' → 3 ∈ l) : DUsed l' b := by
  refine ⟨fun U hU => ?_, fun U k hU hg hm => D.three U k ?_ hg (h3 hm)⟩
  · rw [hb, List.getElem?_set] at hU
    simp only [if_true] at hU
    split at hU <;> cases hU
    exact ⟨h1, h2⟩
  · rwa [hb, List.getElem?_set_ne (by omega)] at hU

/-- A step of the test: the invariant stays, and fewer steps are left. -/
theorem DUsed.step {lk : Bool} {w : Option Nat} {l : List Nat} {a a' : Abs Unit De} {t x : Nat} {r : Option Nat} (I : DInv w a) (D : DUsed l a)
    (hs : astep detachPrg lk a t r x = some a') :
    DUsed ((a.uses detachPrg t).toList ++ l) a' ∧ ((a'.status.isSome = true) ∨ dSum a'.thr < dSum a.thr) := by
  unfold astep at hs
  split at hs
  · cases hs
  next hst =>
  split at hs
  · cases hs
  next T hT =>
  have hlt := (List.getElem?_eq_some_iff.mp hT).1
  obtain ⟨T0, hT0, hf0, hp0⟩ := I.main
  obtain ⟨D1, D2⟩ := D.main T0 hT0
  have sum : ∀ (U : AThr De), dRank U.pos < dRank T.pos → dSum (a.thr.set t U) < dSum a.thr := by
    intro U h
    have := dSum_set (U := U) hT
    omega
  by_cases h0 : t = 0
  · subst h0
    rw [hT0] at hT
    cases hT
    obtain ⟨pos, fns, tid⟩ := T
    simp only at hf0 hp0 hs
    subst hf0
    have fin : ∀ {b : Abs Unit De} {p : Pos De}, b.thr = a.thr.set 0 ⟨p, [], tid⟩ → dRank p < dRank pos → b.closed = a.closed →
        (∀ u ∈ dAllow pos, u ∈ dAllow p) → (a.closed = true → p = .next (.fini 202 []) ∨ p = .next (.imm 202)) → DUsed ([] ++ l) b ∧ (b.status.isSome = true ∨ dSum b.thr < dSum a.thr) := by
      intro b p h1 h2 h3 h4 h5
      refine ⟨D.set h1 (fun u hu => h4 u (D1 u hu)) (by rw [h3]; exact h5) (fun h => h), .inr ?_⟩
      rw [h1]; exact sum _ h2
    have add : ∀ {b : Abs Unit De} {p : Pos De} {q : AThr De}, b.thr = a.thr.set 0 ⟨p, [], tid⟩ ++ [q] → dRank p + dRank q.pos < dRank pos →
        b.closed = a.closed → a.closed ≠ true → (∀ u ∈ dAllow pos, u ∈ dAllow p) → 3 ∉ dAllow pos →
        DUsed ([] ++ l) b ∧ (b.status.isSome = true ∨ dSum b.thr < dSum a.thr) := by
      intro b p q h1 h2 h3 h4 h5 h6
      refine ⟨⟨fun U hU => ?_, fun U k hU hg hm => h6 (D1 3 hm)⟩, .inr ?_⟩
      · rw [h1, List.getElem?_append_left (by simpa using hlt)] at hU
        rw [List.getElem?_set] at hU
        simp only [if_true, hlt] at hU
        cases hU
        exact ⟨fun u hu => h5 u (D1 u hu), by rw [h3]; intro h; exact absurd h h4⟩
      · rw [h1, dSum_append]
        have := dSum_set (U := ⟨p, [], tid⟩) hT0
        simp only at this
        omega
    have hcl : (pos ≠ .next (.fini 202 []) ∧ pos ≠ .next (.imm 202)) → a.closed ≠ true := by
      rintro ⟨h1, h2⟩ h
      rcases D2 h with h | h
      · exact h1 h
      · exact h2 h
    simp only [Abs.uses, hT0]
    generalize hlen : a.thr.length = n at hp0
    cases hp0 <;> simp only [opStep, nextStep, detachPrg, List.reverse_nil, I.fns, Option.toList_none, Option.toList_some] at hs ⊢
    case ctors => cases hs; exact fin rfl (by decide) rfl (by simp [dAllow]) (fun h => absurd h (hcl (by simp)))
    case m15 =>
      split at hs <;> cases hs
      exact add rfl (by simp [dRank]) rfl (hcl (by simp)) (by simp [dAllow]) (by simp [dAllow])
    case m23 =>
      split at hs <;> cases hs
      exact add rfl (by simp [dRank]) rfl (hcl (by simp)) (by simp [dAllow]) (by simp [dAllow])
    case m30 =>
      cases hs
      refine ⟨D.set rfl ?_ (fun h => absurd h (hcl (by simp))) (by simp), .inr (sum _ (by simp [dRank]))⟩
      intro u hu
      simp only [List.cons_append, List.nil_append, List.mem_cons] at hu
      rcases hu with rfl | hu
      · simp [dAllow]
      · have := D1 u hu; simp [dAllow] at this
    case m32 =>
      split at hs <;> cases hs
      exact add rfl (by simp [dRank]) rfl (hcl (by simp)) (by simp [dAllow]) (by simp [dAllow])
    case m43 =>
      cases hs
      refine ⟨D.set rfl ?_ (fun h => absurd h (hcl (by simp))) (by simp), .inr (sum _ (by simp [dRank]))⟩
      intro u hu
      simp only [List.cons_append, List.nil_append, List.mem_cons] at hu
      rcases hu with rfl | hu
      · simp [dAllow]
      · have := D1 u hu; simp [dAllow] at this ⊢; omega
    case m45 => cases hs; exact fin rfl (by simp [dRank]) rfl (by simp [dAllow]) (fun h => absurd h (hcl (by simp)))
    case exitT => cases hs; exact fin rfl (by simp [dRank]) rfl (by simp [dAllow]) (fun h => absurd h (hcl (by simp)))
    case exitP =>
      split at hs <;> cases hs
      exact ⟨D.set rfl (by simpa [dAllow] using D1) (fun _ => .inl rfl) (fun h => h), .inr (sum _ (by simp [dRank]))⟩
    case fini => cases hs; exact fin rfl (by simp [dRank]) rfl (by simp [dAllow]) (fun h => .inr rfl)
    case imm => cases hs; exact ⟨⟨fun U hU => D.main U hU, fun U k => D.three U k⟩, .inl rfl⟩
  · obtain ⟨hf, hp⟩ := I.child t T hT h0
    obtain ⟨pos, fns, tid⟩ := T
    simp only at hf hp hs
    subst hf
    have fin : ∀ {b : Abs Unit De} {p : Pos De} {l' : List Nat}, b.thr = a.thr.set t ⟨p, [], tid⟩ → dRank p < dRank pos → b.closed = a.closed →
        (∀ k, p ≠ .run .g k) → (∀ u ∈ l', u ∈ dAllow T0.pos) → (3 ∈ l' → 3 ∈ l ∨ t = 3) → DUsed l' b ∧ (b.status.isSome = true ∨ dSum b.thr < dSum a.thr) := by
      intro b p l' h1 h2 h3 h4 h5 h6
      refine ⟨⟨fun U hU => ?_, fun U k hU hg hm => ?_⟩, .inr (by rw [h1]; exact sum _ h2)⟩
      · rw [h1, List.getElem?_set_ne h0, hT0] at hU
        cases hU
        exact ⟨h5, by rw [h3]; exact D2⟩
      · rw [h1, List.getElem?_set] at hU
        split at hU
        · cases hU
          exact h4 _ hg
        · next hne =>
          rcases h6 hm with h | h
          · exact D.three U k hU hg h
          · exact hne h
    simp only [Abs.uses, hT]
    cases hp <;> simp only [opStep, nextStep, detachPrg, Option.toList_none, Option.toList_some] at hs ⊢
    case f => cases hs; exact fin rfl (by simp [dRank]) rfl (by simp) D1 (fun h => .inl h)
    case g h3 =>
      cases hs
      subst h3
      refine fin rfl (by simp [dRank]) rfl (by simp) (fun u hu => ?_) (fun _ => .inr rfl)
      simp only [List.cons_append, List.nil_append, List.mem_cons] at hu
      rcases hu with rfl | hu
      · generalize a.thr.length = n at *
        generalize T0.pos = p0 at *
        cases hp0 <;> first | omega | simp [dAllow]
      · exact D1 u hu
    case g1 => cases hs; exact fin rfl (by simp [dRank]) rfl (by simp) D1 (fun h => .inl h)
    case ending v => cases hs; exact fin rfl (by simp [dRank]) rfl (by simp) D1 (fun h => .inl h)
    case done => cases hs

theorem _root_.Origin.User.AReachU.plain {σ C : Type} {pr : Prg σ C} {lk : Bool} {m : σ} {l : List Nat} {a : Abs σ C} (A : AReachU pr lk m l a) : AReach pr lk m a := by
  induction A with
  | init tid => exact .init tid
  | step A hs ih => exact ih.step hs

theorem dused {lk : Bool} {l : List Nat} {a : Abs Unit De} (A : AReachU detachPrg lk () l a) : (∃ w, DInv w a) ∧ DUsed l a := by
  induction A with
  | init tid =>
    exact ⟨⟨_, dinv (lk := lk) (.init tid)⟩, fun T h => by simp [ainit] at h; subst h; simp [ainit], by simp [ainit]⟩
  | step A hs ih =>
    obtain ⟨⟨w, I⟩, D⟩ := ih
    obtain ⟨w', A'⟩ := (A.plain.step hs).noting
    exact ⟨⟨w', dinv A'⟩, (D.step I hs).1⟩

theorem detach_proper {c : Proc.Cfg} (h1 : c.thread = true) : Proper detachPrg c () := by
  intro l a t A hst
  obtain ⟨⟨w, I⟩, D⟩ := dused A
  obtain ⟨T0, hT0, hf0, hp0⟩ := I.main
  obtain ⟨D1, D2⟩ := D.main T0 hT0
  -- what the others detach
  have huse : ∀ t', t' ≠ 0 → ∀ u, a.uses detachPrg t' = some u → u = 3 ∧ t' = 3 := by
    intro t' h0 u hu
    unfold Abs.uses at hu
    split at hu
    · next cd k fns tid hT =>
      obtain ⟨-, hp⟩ := I.child t' _ hT h0
      cases hp <;> simp [detachPrg] at hu
      subst hu; exact ⟨rfl, by assumption⟩
    · cases hu
  unfold Abs.keeps
  split
  · next cd k fns tid hT =>
    by_cases h0 : t = 0
    · subst h0
      rw [hT] at hT0
      cases hT0
      simp only at hf0 hp0 D1
      generalize hlen : a.thr.length = n at hp0
      have nu : ∀ v, v ≠ 3 → ∀ t', t' ≠ 0 → a.uses detachPrg t' ≠ some v := by
        intro v hv t' ht' hu
        exact hv (huse t' ht' v hu).1
      cases hp0 <;> simp only [detachPrg, h1]
      case m30 => exact ⟨by omega, fun h => by simpa [dAllow] using D1 2 h, nu 2 (by decide)⟩
      case m43 => exact ⟨by omega, fun h => by simpa [dAllow] using D1 1 h, nu 1 (by decide)⟩
    · obtain ⟨-, hp⟩ := I.child t _ hT h0
      cases hp <;> simp only [detachPrg]
      case g h3 =>
        subst h3
        refine ⟨(List.getElem?_eq_some_iff.mp hT).1, D.three _ _ hT rfl, fun t' ht' hu => ?_⟩
        by_cases h0' : t' = 0
        · subst h0'
          unfold Abs.uses at hu
          rw [hT0] at hu
          obtain ⟨p0, f0, i0⟩ := T0
          simp only at hp0 hu
          generalize a.thr.length = n at hp0
          cases hp0 <;> simp [detachPrg] at hu
        · exact ht' (huse t' h0' 3 hu).2
  · trivial

/-- No thread registers anything. -/
theorem detach_settles (lk : Bool) : Settles detachPrg lk () := by
  intro ab who X
  refine ⟨0, fun n t _ _ => ?_⟩
  unfold Abs.registers
  split
  · next cd k f i h => cases cd <;> rfl
  · rfl

/-- The main thread can always go on. -/
theorem detach_goes {lk : Bool} {l : List Nat} {a : Abs Unit De} (A : AReachU detachPrg lk () l a) (hst : a.status = none) :
    ∃ r x, astep detachPrg lk a 0 r x ≠ none := by
  obtain ⟨⟨w, I⟩, D⟩ := dused A
  obtain ⟨⟨pos, fns, tid⟩, hT0, hf0, hp0⟩ := I.main
  obtain ⟨D1, D2⟩ := D.main _ hT0
  obtain ⟨x, hx⟩ := free_id a
  refine ⟨none, x, ?_⟩
  simp only at hf0 hp0 D2
  subst hf0
  simp only [astep, hst, hT0, Option.isSome_none, Bool.false_eq_true, if_false]
  generalize a.thr.length = n at hp0
  cases hp0 <;> simp only [opStep, nextStep, detachPrg, I.fns, if_pos hx] <;> try simp
  cases h : a.closed with
  | false => rfl
  | true => have := D2 h; simp at this

end Origin.Programs

namespace Origin.User
variable {σ C : Type} {pr : Prg σ C} {m : σ} {lk : Bool} {ab : Nat → Abs σ C} {who : Nat → Option Nat}

theorem ARun.reachU (X : ARun pr lk m ab who) (n : Nat) : ∃ l, AReachU pr lk m l (ab n) := by
  induction n with
  | zero => obtain ⟨tid, h⟩ := X.start; exact ⟨[], h ▸ .init tid⟩
  | succ n ih =>
    obtain ⟨l, ih⟩ := ih
    cases hw : who n with
    | none => exact ⟨l, by rw [X.idle n hw]; exact ih⟩
    | some t => obtain ⟨r, x, hs⟩ := X.next n t hw; exact ⟨_, ih.step hs⟩

theorem ARun.next_step (X : ARun pr lk m ab who) {i : Nat} (hq : ¬ ∀ j, i ≤ j → who j = none) :
    ∃ j, i ≤ j ∧ ab j = ab i ∧ ∃ t, who j = some t := by
  have hex : ∃ d, who (i + d) ≠ none := by
    refine Classical.byContradiction fun hno => hq fun j hj => ?_
    have := Classical.byContradiction fun hh => hno ⟨j - i, hh⟩
    rwa [show i + (j - i) = j by omega] at this
  obtain ⟨d, hd⟩ := hex
  induction d using Nat.strongRecOn with
  | ind d ih =>
    by_cases hx : ∃ d', d' < d ∧ who (i + d') ≠ none
    · obtain ⟨d', h1, h2⟩ := hx; exact ih d' h1 h2
    · have hm : ∀ d', d' < d → who (i + d') = none := fun d' h1 => Classical.byContradiction fun h2 => hx ⟨d', h1, h2⟩
      refine ⟨i + d, by omega, ?_, Option.ne_none_iff_exists'.mp hd⟩
      have : ∀ d', d' ≤ d → ab (i + d') = ab i := by
        intro d' h1
        induction d' with
        | zero => rfl
        | succ d' ih' => rw [← Nat.add_assoc, X.idle (i + d') (hm d' (by omega)), ih' (by omega)]
      exact this d (Nat.le_refl _)

/-- Every run of a program in which fewer steps are left after each step, and in which some thread can always go on, ends if it is fair. -/
theorem ARun.ranked (X : ARun pr lk m ab who) (F : AFair pr lk ab who) (rk : Abs σ C → Nat)
    (dec : ∀ l a a' t r x, AReachU pr lk m l a → astep pr lk a t r x = some a' → a'.status.isSome = true ∨ rk a' < rk a)
    (go : ∀ l a, AReachU pr lk m l a → a.status = none → ∃ t r x, astep pr lk a t r x ≠ none) : ∃ n v, (ab n).status = some v := by
  refine Classical.byContradiction fun hno => ?_
  have hst : ∀ n, (ab n).status = none := fun n => by
    cases h : (ab n).status with
    | none => rfl
    | some v => exact absurd ⟨n, v, h⟩ hno
  have key : ∀ k i, rk (ab i) = k → False := by
    intro k
    induction k using Nat.strongRecOn with
    | ind k ih =>
      intro i hk
      by_cases hq : ∀ j, i ≤ j → who j = none
      · obtain ⟨l, A⟩ := X.reachU i
        obtain ⟨t, r, x, hg⟩ := go l _ A (hst i)
        obtain ⟨j, hj, h | h⟩ := F t i
        · rw [hq j hj] at h; cases h
        · rw [X.rest hq j hj] at h; exact hg (h r x)
      · obtain ⟨j, hj, he, t, hwj⟩ := X.next_step hq
        obtain ⟨r, x, hs⟩ := X.next j t hwj
        obtain ⟨l, A⟩ := X.reachU j
        rcases dec l _ _ t r x A hs with h | h
        · rw [hst] at h; cases h
        · rw [he, hk] at h; exact ih _ h (j + 1) rfl
  exact key _ 0 rfl

end Origin.User
