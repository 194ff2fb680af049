import Verif.Spec.FairUser
import Verif.Proof.User11
set_option linter.unusedSimpArgs false
/-! # Exploring the abstract machine: contracts are kept, and the program ends -/

namespace Origin.User

variable {σ C : Type} {pr : Prg σ C} {c : Proc.Cfg} {a : Abs σ C} {m : σ} {lk : Bool} {ft : Bool × Bool × Bool}

/-- The features the calls of the API need. -/
def feats (c : Proc.Cfg) : Bool × Bool × Bool := (c.thread, c.threadAtExit, c.programAtExit)

/-- `Abs.keeps`, as a computation, for a program that does not ask for ids. -/
def Abs.keepsB (pr : Prg σ C) (ft : Bool × Bool × Bool) (l : List Nat) (a : Abs σ C) (t : Nat) : Bool :=
  match a.thr[t]? with
  | some ⟨.run cd _, _, _⟩ =>
    match pr.op cd with
    | .join u _ | .detach u _ =>
      decide (u < a.thr.length) && !l.contains u && (List.range a.thr.length).all fun t' => t' == t || a.uses pr t' != some u
    | .id .. => false
    | .create .. => ft.1
    | .atExitT .. => ft.2.1
    | .atExitP .. => ft.2.2
    | _ => true
  | _ => true

theorem uses_lt {t u : Nat} (h : a.uses pr t = some u) : t < a.thr.length := by
  unfold Abs.uses at h
  split at h
  · next hT => exact (List.getElem?_eq_some_iff.mp hT).1
  · cases h

theorem keeps_of {l : List Nat} {t : Nat} (h : a.keepsB pr (feats c) l t = true) : a.keeps pr c l t := by
  unfold Abs.keepsB at h
  unfold Abs.keeps
  split at h
  · next cd _ _ _ hT =>
    have jd : ∀ u, (decide (u < a.thr.length) && !l.contains u && (List.range a.thr.length).all fun t' => t' == t || a.uses pr t' != some u) = true →
        u < a.thr.length ∧ u ∉ l ∧ ∀ t', t' ≠ t → a.uses pr t' ≠ some u := by
      intro u h
      simp only [Bool.and_eq_true, decide_eq_true_eq, Bool.not_eq_true', List.all_eq_true, List.mem_range, Bool.or_eq_true, beq_iff_eq, bne_iff_ne] at h
      obtain ⟨⟨h1, h2⟩, h3⟩ := h
      refine ⟨h1, by simpa using h2, fun t' ht' hu => ?_⟩
      rcases h3 t' (uses_lt hu) with h | h
      · exact ht' h
      · exact h hu
    simp only [hT]
    cases hop : pr.op cd <;> simp only [hop] at h ⊢ <;> first | exact jd _ h | exact h | (cases h; done) | trivial
  · next hne =>
    split
    · next cd k f i hT => exact absurd hT (hne cd k f i)
    · trivial

theorem uses_erase (a : Abs σ C) (t : Nat) : a.erase.uses pr t = a.uses pr t := by
  unfold Abs.uses
  rw [erase_get]
  cases a.thr[t]? with
  | none => rfl
  | some T => obtain ⟨p, f, i⟩ := T; cases p <;> rfl

theorem keepsB_erase (a : Abs σ C) (l : List Nat) (t : Nat) : a.erase.keepsB pr ft l t = a.keepsB pr ft l t := by
  unfold Abs.keepsB
  rw [erase_get]
  simp only [uses_erase]
  cases a.thr[t]? with
  | none => rfl
  | some T => obtain ⟨p, f, i⟩ := T; cases p <;> simp [Abs.erase]

/-- `P` holds of `a` and all states reachable from it, of which no path is longer than `n`; on the way contracts are kept, and some thread can go on
until the process ends. -/
def exploreU (pr : Prg σ C) (lk : Bool) (ft : Bool × Bool × Bool) (P : Abs σ C → Bool) : Nat → List Nat → Abs σ C → Bool
  | 0, _, _ => false
  | n + 1, l, a =>
    P a && (a.status.isSome ||
      ((List.range a.thr.length).all (a.keepsB pr ft l) && (List.range a.thr.length).any fun t => (astep pr lk a t none 1).isSome)) &&
    (List.range a.thr.length).all fun t =>
      match astep pr lk a t none 1 with
      | none => true
      | some a' => exploreU pr lk ft P n ((a.uses pr t).toList ++ l) a'.erase

theorem astep_lt {t x : Nat} {r : Option Nat} {a' : Abs σ C} (h : astep pr lk a t r x = some a') : t < a.thr.length := by
  unfold astep at h
  split at h
  · cases h
  · split at h
    · cases h
    · next T hT => exact (List.getElem?_eq_some_iff.mp hT).1

/-- One step. -/
theorem exploreU_step (hn : NoId pr) {P : Abs σ C → Bool} {n : Nat} {l : List Nat} (h : exploreU pr lk ft P n l a.erase = true) {t x : Nat}
    {r : Option Nat} {a' : Abs σ C} (hs : astep pr lk a t r x = some a') :
    ∃ k, n = k + 1 ∧ exploreU pr lk ft P k ((a.uses pr t).toList ++ l) a'.erase = true := by
  cases n with
  | zero => cases h
  | succ n =>
    refine ⟨n, rfl, ?_⟩
    simp only [exploreU, Bool.and_eq_true, List.all_eq_true] at h
    have := h.2 t (by simp [Abs.erase]; exact astep_lt hs)
    have he := astep_erase hn hs
    rw [Option.map_eq_some_iff] at he
    obtain ⟨b, h1, h2⟩ := he
    simp only [h1, uses_erase, h2] at this
    exact this

theorem exploreU_sound (hn : NoId pr) {P : Abs σ C → Bool} {n : Nat} (h : exploreU pr lk ft P n [] (ainit pr m 0) = true) {l : List Nat}
    (A : AReachU pr lk m l a) : ∃ k, exploreU pr lk ft P k l a.erase = true := by
  induction A with
  | init tid => exact ⟨n, h⟩
  | step A hs ih =>
    obtain ⟨k, hk⟩ := ih
    obtain ⟨k', -, h'⟩ := exploreU_step hn hk hs
    exact ⟨k', h'⟩

theorem AReach.used (A : AReach pr lk m a) : ∃ l, AReachU pr lk m l a := by
  induction A with
  | init tid => exact ⟨[], .init tid⟩
  | step A hs ih => obtain ⟨l, ih⟩ := ih; exact ⟨_, ih.step hs⟩

theorem exploreU_P {P : Abs σ C → Bool} {n : Nat} {l : List Nat} (h : exploreU pr lk ft P n l a = true) : P a = true := by
  cases n with
  | zero => cases h
  | succ n => simp only [exploreU, Bool.and_eq_true] at h; exact h.1.1

/-- A program found to keep contracts keeps them. -/
theorem exploreU_proper (hn : NoId pr) {P : Abs σ C → Bool} {n : Nat}
    (h : exploreU pr (c.thread && c.programAtExit) (feats c) P n [] (ainit pr m 0) = true) : Proper pr c m := by
  intro l a t A hst
  obtain ⟨k, hk⟩ := exploreU_sound hn h A
  by_cases ht : t < a.thr.length
  · cases k with
    | zero => cases hk
    | succ k =>
      simp only [exploreU, Bool.and_eq_true, List.all_eq_true, List.mem_range, Bool.or_eq_true] at hk
      rcases hk.1.2 with h | h
      · rw [show a.erase.status = a.status from rfl, hst] at h; cases h
      · have := h.1 t (by simpa [Abs.erase] using ht)
        rw [keepsB_erase] at this
        exact keeps_of this
  · unfold Abs.keeps
    rw [List.getElem?_eq_none (by omega)]
    trivial

/-- A number that is no thread's id. -/
theorem free_id (a : Abs σ C) : ∃ x, x ≠ 0 ∧ a.tidFree x = true := by
  have key : ∀ l : List (AThr C), ∃ b, ∀ T ∈ l, T.tid < b := by
    intro l
    induction l with
    | nil => exact ⟨0, by simp⟩
    | cons T l ih =>
      obtain ⟨b, hb⟩ := ih
      refine ⟨max b (T.tid + 1), fun U hU => ?_⟩
      rcases List.mem_cons.mp hU with rfl | hU
      · omega
      · have := hb U hU; omega
  obtain ⟨b, hb⟩ := key a.thr
  refine ⟨b + 1, by simp, ?_⟩
  simp only [Abs.tidFree, List.all_eq_true]
  intro T hT
  have := hb T hT
  split
  · rfl
  · simp; omega

theorem astep_unerase (hn : NoId pr) {t : Nat} (h : (astep pr lk a.erase t none 1).isSome = true) : ∃ r x, astep pr lk a t r x ≠ none := by
  obtain ⟨x, hx⟩ := free_id a
  refine ⟨none, x, fun hno => ?_⟩
  revert h
  unfold astep at hno ⊢
  split at hno
  · next hst => simp [show a.erase.status = a.status from rfl, hst]
  next hst =>
  rw [if_neg (show ¬ a.erase.status.isSome = true from hst), erase_get]
  split at hno
  · next hT => simp [hT]
  next T hT =>
  rw [hT]
  simp only [Option.map_some]
  split at hno
  · next cd k hp =>
    simp only [hp]
    cases hop : pr.op cd <;> simp only [hop, opStep] at hno ⊢
    case id u k => exact absurd hop (hn _ _ _)
    case create g cc => rw [if_pos hx] at hno; cases hno
    case join u cc =>
      rw [erase_get]
      cases hu : a.thr[u]? with
      | none => simp
      | some U =>
        obtain ⟨p, f, i⟩ := U
        cases p <;> simp [hu] at hno ⊢
    case atExitP g cc =>
      split at hno
      · next hc => simp [show a.erase.closed = a.closed from rfl, hc]
      · cases hno
    all_goals cases hno
  · next k hp =>
    simp only [hp]
    unfold nextStep at hno ⊢
    split at hno
    all_goals
      first
      | (cases hno; done)
      | (simp; done)
      | (split at hno <;> cases hno; done)
      | (split at hno
         · next hc => simp [show a.erase.closed = a.closed from rfl, hc]
         · split at hno <;> cases hno)
  · next hp => simp [hp]

/-! ## Runs -/

variable {ab : Nat → Abs σ C} {who : Nat → Option Nat}

theorem ARun.rest (X : ARun pr lk m ab who) {N : Nat} (h : ∀ i, N ≤ i → who i = none) : ∀ i, N ≤ i → ab i = ab N := by
  intro i hi
  induction i with
  | zero => rw [show N = 0 by omega]
  | succ i ih =>
    by_cases hN : N = i + 1
    · rw [hN]
    · rw [X.idle i (h i (by omega)), ih (by omega)]

/-- A run of a program that has been explored stops. -/
theorem ARun.stops (X : ARun pr lk m ab who) (hn : NoId pr) {P : Abs σ C → Bool} {n : Nat} (h : exploreU pr lk ft P n [] (ainit pr m 0) = true) :
    ∃ N l k, (∀ i, N ≤ i → who i = none) ∧ exploreU pr lk ft P k l (ab N).erase = true := by
  have key : ∀ k i l, exploreU pr lk ft P k l (ab i).erase = true → ∃ N l k, (∀ i, N ≤ i → who i = none) ∧ exploreU pr lk ft P k l (ab N).erase = true := by
    intro k
    induction k with
    | zero => intro i l h; cases h
    | succ k ih =>
      intro i l h
      by_cases hq : ∀ j, i ≤ j → who j = none
      · exact ⟨i, l, _, hq, h⟩
      · -- the next step
        have : ∃ d, who (i + d) ≠ none ∧ ∀ d', d' < d → who (i + d') = none := by
          have hex : ∃ d, who (i + d) ≠ none := by
            refine Classical.byContradiction fun hno => hq fun j hj => ?_
            have := Classical.byContradiction fun hh => hno ⟨j - i, hh⟩
            rwa [show i + (j - i) = j by omega] at this
          obtain ⟨d, hd⟩ := hex
          induction d using Nat.strongRecOn with
          | ind d ihd =>
            by_cases hx : ∃ d', d' < d ∧ who (i + d') ≠ none
            · obtain ⟨d', h1, h2⟩ := hx; exact ihd d' h1 h2
            · exact ⟨d, hd, fun d' h1 => Classical.byContradiction fun h2 => hx ⟨d', h1, h2⟩⟩
        obtain ⟨d, hd, hm⟩ := this
        have hsame : ∀ d', d' ≤ d → ab (i + d') = ab i := by
          intro d' h1
          induction d' with
          | zero => rfl
          | succ d' ih' => rw [← Nat.add_assoc, X.idle (i + d') (hm d' (by omega)), ih' (by omega)]
        cases hw : who (i + d) with
        | none => exact absurd hw hd
        | some t =>
          obtain ⟨r, x, hs⟩ := X.next _ _ hw
          rw [← hsame d (Nat.le_refl _)] at h
          obtain ⟨k', hk', h'⟩ := exploreU_step hn h hs
          obtain rfl : k' = k := by omega
          exact ih _ _ h'
  obtain ⟨tid, h0⟩ := X.start
  exact key n 0 [] (by rw [h0]; exact h)

/-- A fair run of such a program ends. -/
theorem ARun.ends (X : ARun pr lk m ab who) (F : AFair pr lk ab who) (hn : NoId pr) {P : Abs σ C → Bool} {n : Nat}
    (h : exploreU pr lk ft P n [] (ainit pr m 0) = true) : ∃ N v, ∀ i, N ≤ i → (ab i).status = some v ∧ P (ab i).erase = true := by
  obtain ⟨N, l, k, hN, hk⟩ := X.stops hn h
  have hP := exploreU_P hk
  cases k with
  | zero => cases hk
  | succ k =>
    simp only [exploreU, Bool.and_eq_true, Bool.or_eq_true, List.any_eq_true] at hk
    have hst : (ab N).status.isSome = true := by
      rcases hk.1.2 with h | ⟨-, t, -, ht⟩
      · exact h
      · obtain ⟨r, x, hne⟩ := astep_unerase hn ht
        obtain ⟨i, hi, h | h⟩ := F t N
        · rw [hN i hi] at h; cases h
        · rw [X.rest hN i hi] at h; exact absurd (h r x) hne
    obtain ⟨v, hv⟩ := Option.isSome_iff_exists.mp hst
    exact ⟨N, v, fun i hi => by rw [X.rest hN i hi]; exact ⟨hv, hP⟩⟩

theorem exploreU_settles (hn : NoId pr) {P : Abs σ C → Bool} {n : Nat} (h : exploreU pr lk ft P n [] (ainit pr m 0) = true) : Settles pr lk m := by
  intro ab who X
  obtain ⟨N, -, -, hN, -⟩ := X.stops hn h
  exact ⟨N, fun i t hi hw => by rw [hN i hi] at hw; cases hw⟩

end Origin.User
