import Verif.Proof.Unwind2
/-!
# Progress in the presence of panics
-/

namespace Origin.Proc

set_option linter.unusedSimpArgs false

variable {c : Cfg} {s s' : State} {u u' : UState} {st : Nat → UState} {act : Nat → Option UAct}

/-- The thread is on its way to the end. -/
def Way (c : Cfg) (k : Kind) (t : Tid) (u : UState) : Prop := (∃ w, Busy c k (u.s.stk t) w) ∨ ∃ w, FiniStk c (u.s.stk t) w

theorem Way.ne {k : Kind} {t : Tid} (h : Way c k t u) : u.s.stk t ≠ [] := by
  rcases h with ⟨w, h⟩ | ⟨w, h⟩
  · exact h.ne
  · intro h0; rw [h0] at h; cases h

/-- What `UQuietFini` says of one moment. -/
def Quiet (u : UState) (x : UAct) : Prop :=
  ∀ t p, Running u.s t (.fini p) → (∀ v, x ≠ .act (.exit t v)) ∧ x ≠ .act (.regProg t)

theorem UQuietFini.at (Q : UQuietFini st act) {n : Nat} {x : UAct} (h : act n = some x) : Quiet (st n) x := fun t p hr => by
  obtain ⟨q1, q2⟩ := Q n t p hr
  exact ⟨fun v hv => q1 v (by rw [h, hv]), fun hv => q2 (by rw [h, hv])⟩

theorem way_step {n m : Nat} (hok : c.Ok n m) (R : UReach c u) {x : UAct} (h : ustep c u x = some u') (ha : u'.aborted = false) (Q : Quiet u x)
    {k : Kind} {t : Tid} (W : Way c k t u) (hn : ¬ k.done c t u'.s.log)
    (hm : (∃ fn rest, u'.s.stk t = .user fn :: rest) → k.mid c (u'.s.stk t)) : Way c k t u' := by
  have R' : UReach c u' := .step R h
  have S := R.inv.S
  cases (ustep_tr h).2 with
  | abort t' fn rest hs => cases ha
  | act y s' hs =>
    have hq : ∀ p, Running u.s y.tid (.fini p) → (∀ v, y ≠ .exit y.tid v) ∧ y ≠ .regProg y.tid := fun p hr => by
      obtain ⟨q1, q2⟩ := Q _ p hr
      exact ⟨fun v hv => q1 v (congrArg _ hv), fun hv => q2 (congrArg _ hv)⟩
    by_cases hy : y.tid = t
    · subst hy
      rcases W with ⟨w, W⟩ | ⟨w, W⟩
      · rcases busy_step hok S W rfl hs with ⟨-, -, h1⟩ | ⟨w', h1, -⟩ | h1 | h1
        · exact .inl ⟨w, by simp only [h1]; exact W⟩
        · exact .inl ⟨w', h1⟩
        · exact .inr h1
        · exact absurd h1 hn
      · rcases fini_step S W hs hq with h1 | ⟨w', -, h1⟩
        · exact .inr ⟨w, by simp only [h1]; exact W⟩
        · exact .inr ⟨w', h1⟩
    · unfold Way
      simp only [(stk_other S hs hy W.ne).1]
      exact W
  | leave t' e fn g below hl =>
    by_cases ht : t' = t
    · subst ht
      have hu : ∃ fn rest, (u.s.setStk t' (.user g :: below)).stk t' = .user fn :: rest := ⟨g, below, by simp [State.setStk]⟩
      exact busy_of_user (R'.einv hok) (R'.inv.N t') (R'.inv.S.shape t') k (hm hu) hu
    · have : (u.s.setStk t' (.user g :: below)).stk t = u.s.stk t := by simp only [State.setStk]; rw [if_neg (Ne.symm ht)]
      unfold Way
      simp only [this]
      exact W

/-- Once the program's functions are finished, the thread that finished them is in the last part of `exit`. -/
theorem ufini_stack {n m : Nat} (hok : c.Ok n m) (X : UExec c st act) (Q : UQuietFini st act) :
    ∀ k t e, Ev.pDone t e ∈ (st k).s.log → ∃ w, FiniStk c ((st k).s.stk t) w := by
  intro k
  induction k with
  | zero => intro t e h; rw [X.start] at h; cases h
  | succ k ih =>
    cases ha : act k with
    | none => rw [X.idle k ha]; exact ih
    | some x =>
      have q := Q.at ha
      have h := X.next k x ha
      generalize st (k + 1) = u' at *
      have S := (X.reach k).inv.S
      cases (ustep_tr h).2 with
      | act y s' hs =>
        exact fini_done_step hok S hs (fun p hr => by
          obtain ⟨q1, q2⟩ := q _ p hr
          exact ⟨fun v hv => q1 v (congrArg _ hv), fun hv => q2 (congrArg _ hv)⟩) ih
      | abort => exact ih
      | leave t' e' fn g below hl =>
        intro t e he
        obtain ⟨w, hw⟩ := ih t e he
        have ht : t ≠ t' := by
          rintro rfl
          cases hl with
          | thr f v h1 h2 => rw [h2, h1] at hw; cases hw
          | prog f v h1 h2 => rw [h2, h1] at hw; cases hw
        exact ⟨w, by simp only [State.setStk]; rw [if_neg ht]; exact hw⟩

/-- The actions of the part of an execution after the last panic. -/
def UAct.plain : Option UAct → Option Action
  | some (.act x) => some x
  | _ => none

/-- A thread that is on its way to the end gets there, or the process ends, or it is stopped. -/
theorem way_ends {n m : Nat} (hok : c.Ok n m) (X : UExec c st act) (F : UFair c st act) (H : UFinite Fn.handler st act) (Q : UQuietFini st act)
    (M : UFinitelyMany st) {i : Nat} {k : Kind} {t : Tid} (W : Way c k t (st i)) (G : Nat → Prop)
    (mid : ∀ j, i ≤ j → ¬ (st j).Over → ¬ k.done c t (st j).s.log → ¬ G j → (∃ fn rest, (st j).s.stk t = .user fn :: rest) →
      k.mid c ((st j).s.stk t)) :
    ∃ j, i ≤ j ∧ ((st j).Over ∨ k.done c t (st j).s.log ∨ G j) := by
  apply Classical.byContradiction
  intro hno
  have no : ∀ j, i ≤ j → ¬ (st j).Over ∧ ¬ k.done c t (st j).s.log ∧ ¬ G j := fun j hj =>
    ⟨fun h => hno ⟨j, hj, .inl h⟩, fun h => hno ⟨j, hj, .inr (.inl h)⟩, fun h => hno ⟨j, hj, .inr (.inr h)⟩⟩
  have nover : ∀ j, ¬ (st j).Over := fun j h => (no (max i j) (Nat.le_max_left _ _)).1 (X.over_stays (Nat.le_max_right _ _) h)
  have nab : ∀ j, (st j).aborted = false := fun j => by
    cases h : (st j).aborted with
    | false => rfl
    | true => exact absurd (.inl h) (nover j)
  have ndead : ∀ j, (st j).s.dead = false := fun j => by
    cases h : (st j).s.dead with
    | false => rfl
    | true => exact absurd (.inr ((X.reach j).ended.mp h)) (nover j)
  obtain ⟨N, hN⟩ := left_settles X M
  -- no panics after that
  have nop : ∀ j, N ≤ j → ∀ t', act j ≠ some (.panic t') := by
    intro j hj t' ha
    have h := X.next j _ ha
    have h1 := hN j hj
    have h2 := hN (j + 1) (Nat.le_succ_of_le hj)
    have h3 := nab (j + 1)
    generalize st (j + 1) = u' at *
    cases (ustep_tr h).2 with
    | leave => simp at h2; omega
    | abort => cases h3
  have way : ∀ j, i ≤ j → Way c k t (st j) := by
    intro j hj
    induction hj with
    | refl => exact W
    | @step j hj ih =>
      cases ha : act j with
      | none => rw [X.idle j ha]; exact ih
      | some x =>
        have h4 := no (j + 1) (Nat.le_succ_of_le hj)
        exact way_step hok (X.reach j) (X.next j x ha) (nab _) (Q.at ha) ih h4.2.1
          (mid (j + 1) (Nat.le_succ_of_le hj) h4.1 h4.2.1 h4.2.2)
  obtain ⟨B, hB1, hB2⟩ : ∃ B, i ≤ B ∧ N ≤ B := ⟨max i N, Nat.le_max_left _ _, Nat.le_max_right _ _⟩
  have ust : ∀ j x, ustep c (st j) (.act x) = (step c (st j).s x).map fun s => { st j with s := s } := by
    intro j x; simp [ustep, nab j]
  have nxt : ∀ j x, act (B + j) = some (.act x) → step c (st (B + j)).s x = some (st (B + j + 1)).s := by
    intro j x ha
    have h := X.next _ _ ha
    rw [ust] at h
    cases hs : step c (st (B + j)).s x with
    | none => rw [hs] at h; cases h
    | some s1 => rw [hs] at h; simp only [Option.map] at h; injection h with h; rw [← h]
  have pl : ∀ j x, UAct.plain (act (B + j)) = some x → act (B + j) = some (.act x) := by
    intro j x h
    generalize act (B + j) = a at h
    cases a with
    | none => cases h
    | some a => cases a with
      | panic t' => cases h
      | act y => simp only [UAct.plain] at h; injection h with h; rw [h]
  have R : Run c (fun j => (st (B + j)).s) (fun j => UAct.plain (act (B + j))) := by
    refine { idle := fun j h => ?_, next := fun j x h => nxt j x (pl j x h), sinv0 := (X.reach _).inv.S, linv0 := (X.reach _).inv.L,
             done0 := fun _ _ => ufini_stack hok X Q _ }
    have : act (B + j) = none := by
      have hp := nop (B + j) (by omega)
      revert h hp
      generalize act (B + j) = a
      intro h hp
      cases a with
      | none => rfl
      | some a => cases a with
        | panic t' => exact absurd rfl (hp t')
        | act y => cases h
    show (st (B + j + 1)).s = _
    rw [X.idle _ this]
  have F' : Fair c (fun j => (st (B + j)).s) (fun j => UAct.plain (act (B + j))) := by
    intro t' j
    obtain ⟨l, hl, h⟩ := F t' (B + j)
    refine ⟨l - B, by omega, ?_⟩
    simp only [show B + (l - B) = l by omega]
    rcases h with h | h
    · left; rw [h]; rfl
    · right
      rw [ust] at h
      simpa using h
  have H' : Finite Fn.handler (fun j => (st (B + j)).s) (fun j => UAct.plain (act (B + j))) := by
    intro j t' fn hr hp
    obtain ⟨l, hl, h⟩ := H (B + j) t' fn hr hp
    refine ⟨l - B, by omega, ?_⟩
    simp only [show B + (l - B) = l by omega]
    rcases h with h | h | h | ⟨x, h, hx⟩
    · rw [nab] at h; cases h
    · exact .inl h
    · exact absurd h (nop l (by omega) t')
    · exact .inr ⟨x, by rw [h]; rfl, hx⟩
  have Q' : QuietFini (fun j => (st (B + j)).s) (fun j => UAct.plain (act (B + j))) := by
    intro j t' p hr
    obtain ⟨q1, q2⟩ := Q (B + j) t' p hr
    exact ⟨fun v h => q1 v (pl _ _ h), fun h => q2 (pl _ _ h)⟩
  have M' : FinitelyMany (fun j => (st (B + j)).s) := by
    obtain ⟨b, hb⟩ := M
    exact ⟨b, fun n f h => hb _ f h⟩
  rcases way B hB1 with ⟨w, hw⟩ | ⟨w, hw⟩
  · obtain ⟨j, -, h | h⟩ := busy_ends hok R F' H' Q' M' (i := 0) (k := k) (t := t) (w := w) hw
    · rw [ndead] at h; cases h
    · exact (no (B + j) (by omega)).2.1 h
  · obtain ⟨j, -, h⟩ := fini_ends R F' H' Q' (n := 0) (t := t) (w := w) hw
    rw [ndead] at h; cases h

end Origin.Proc
