import Verif.Proof.Programs3
set_option linter.unusedSimpArgs false
/-! # The `thread-id` test ends in every fair schedule (continued) -/

namespace Origin.User
variable {σ C : Type} {pr : Prg σ C} {m : σ} {lk : Bool} {ab : Nat → Abs σ C} {who : Nat → Option Nat}

/-- While `P` does not hold, a thread that can go on is waited for: its steps leave fewer steps; others' do not make them more, and leave it the one waited
for.  Then `P` holds some day. -/
theorem ARun.gets (X : ARun pr lk m ab who) (F : AFair pr lk ab who) (rk help : Abs σ C → Nat) {P : Abs σ C → Prop} {i : Nat}
    (dec : ∀ n t, i ≤ n → ¬ P (ab n) → who n = some t →
      P (ab (n + 1)) ∨ rk (ab (n + 1)) < rk (ab n) ∨ (rk (ab (n + 1)) = rk (ab n) ∧ help (ab (n + 1)) = help (ab n) ∧ t ≠ help (ab n)))
    (go : ∀ n, i ≤ n → ¬ P (ab n) → ∃ r x, astep pr lk (ab n) (help (ab n)) r x ≠ none) : ∃ n, i ≤ n ∧ P (ab n) := by
  refine Classical.byContradiction fun hno => ?_
  have hP : ∀ n, i ≤ n → ¬ P (ab n) := fun n hn h => hno ⟨n, hn, h⟩
  have key : ∀ k j, i ≤ j → rk (ab j) = k → False := by
    intro k
    induction k using Nat.strongRecOn with
    | ind k ih =>
      intro j hj hk
      -- the thread waited for stays the same, until the rank goes down
      have stay : ∀ d, (rk (ab (j + d)) = k ∧ help (ab (j + d)) = help (ab j)) := by
        intro d
        induction d with
        | zero => exact ⟨hk, rfl⟩
        | succ d ihd =>
          cases hw : who (j + d) with
          | none => rw [← Nat.add_assoc, X.idle _ hw]; exact ihd
          | some t =>
            rcases dec (j + d) t (by omega) (hP _ (by omega)) hw with h | h | ⟨h1, h2, -⟩
            · exact absurd h (hP _ (by omega))
            · exact absurd (ih _ (by rw [ihd.1] at h; exact h) (j + d + 1) (by omega) rfl) id
            · exact ⟨h1.trans ihd.1, h2.trans ihd.2⟩
      obtain ⟨n, hn, h | h⟩ := F (help (ab j)) j
      · obtain ⟨d, rfl⟩ : ∃ d, n = j + d := ⟨n - j, by omega⟩
        rcases dec (j + d) _ (by omega) (hP _ (by omega)) h with h | h | ⟨-, -, h⟩
        · exact absurd h (hP _ (by omega))
        · rw [(stay d).1] at h; exact ih _ h _ (by omega) rfl
        · exact h (stay d).2.symm
      · obtain ⟨d, rfl⟩ : ∃ d, n = j + d := ⟨n - j, by omega⟩
        obtain ⟨r, x, hg⟩ := go (j + d) (by omega) (hP _ (by omega))
        rw [(stay d).2] at hg
        exact hg (h r x)
  exact key _ i (Nat.le_refl _) rfl

end Origin.User

namespace Origin.Programs
open User

theorem idU {lk : Bool} {l : List Nat} {a : Abs (Option Id) Ti} (A : AReachU idPrg lk none l a) : IdInv a ∧ IdU l a := by
  induction A with
  | init tid => exact ⟨idInv_init tid, ⟨fun M h => by simp [ainit] at h; subst h; simp [ainit]⟩⟩
  | step A hs ih => exact ⟨idInv (A.plain.step hs), (idFacts ih.1 ih.2 hs).used⟩

/-- The child joins and detaches nobody. -/
theorem child_uses {p q : Nat} {mem : Option Id} {y z : Pos Ti} (h : Two p q mem y z) : ∀ cd k, z = .run cd k → ∀ u f, idPrg.op cd ≠ .join u f ∧
    (∀ f, idPrg.op cd ≠ .detach u f) ∧ ∀ f, idPrg.op cd = .id u f → u = 1 := by
  have as : ∀ {k c}, As 1 q k c → ∀ u f, idPrg.op c ≠ .join u f ∧ (∀ f, idPrg.op c ≠ .detach u f) ∧ ∀ f, idPrg.op c = .id u f → u = 1 := by
    intro k c h u f
    cases h <;> simp [idPrg, check] <;> intros <;> simp_all
  have hk : KA q z ∨ (KB p q z) ∨ KC q z := by
    cases h with
    | told1 hK => exact .inl hK
    | told2 hK => exact .inr (.inl hK)
    | heard1 hK => exact .inr (.inr hK)
    | none hM hK => exact .inl hK
    | heard2 hM hK => exact .inr (.inr hK)
  intro cd k hz u f
  rcases hk with h | h | h <;> cases h <;> cases hz <;> first | exact as ‹_› u f | (simp [idPrg, check] <;> intros <;> simp_all)

theorem id_proper {c : Proc.Cfg} (h1 : c.thread = true) (h2 : c.threadAtExit = true) (h3 : c.programAtExit = true) : Proper idPrg c none := by
  intro l a t A hst
  obtain ⟨I, U⟩ := idU A
  obtain ⟨mem, thr, fns, closed, status⟩ := a
  rcases I.thr with ⟨p, y, l1, ht, h2', h3', h4⟩ | ⟨p, q, y, z, l1, l', hpq, ht, hy, h3', h4⟩
  · simp only at ht
    subst ht
    match t with
    | n + 1 => simp [Abs.keeps]
    | 0 =>
      have asK : ∀ {k c'}, As 0 p k c' → ∀ A, Abs.keeps idPrg c l { mem, thr := [⟨.run c' A, l1, p⟩], fns, closed, status } 0 := by
        intro k c' h A
        cases h <;> simp [Abs.keeps, idPrg, check]
      cases h3' with
      | as h => exact asK h _
      | _ => simp [Abs.keeps, idPrg, check, h1, h2, h3]
  · simp only at ht hy
    subst ht
    have hcu := child_uses hy
    have hch : ({ mem, thr := [⟨y, l1, p⟩, ⟨z, l', q⟩], fns, closed, status } : Abs (Option Id) Ti).uses idPrg 1 = none := by
      cases z with
      | run cd k =>
        have h := hcu cd k rfl
        simp only [Abs.uses, List.getElem?_cons_succ, List.getElem?_cons_zero]
        cases hop : idPrg.op cd <;> simp only
        · exact absurd hop (h _ _).1
        · exact absurd hop ((h _ (fun _ => .ret)).2.1 _)
      | _ => rfl
    have hoth : ∀ n, ({ mem, thr := [⟨y, l1, p⟩, ⟨z, l', q⟩], fns, closed, status } : Abs (Option Id) Ti).uses idPrg (n + 2) = none := by
      intro n; simp [Abs.uses]
    match t with
    | n + 2 => simp [Abs.keeps]
    | 1 =>
      simp only [Abs.keeps, List.getElem?_cons_succ, List.getElem?_cons_zero]
      cases z with
      | run cd k =>
        simp only
        have := hcu cd k rfl
        cases hop : idPrg.op cd <;> simp only [h1, h2, h3]
        · exact absurd hop (this _ _).1
        · exact absurd hop ((this _ (fun _ => .ret)).2.1 _)
        · exact .inl ((this _ (fun _ => .ret)).2.2 _ hop)
      | _ => trivial
    | 0 =>
      obtain ⟨us0, -⟩ := U.used _ rfl
      simp only at us0
      have noone : ∀ v, (∀ t', t' ≠ 0 → ({ mem, thr := [⟨y, l1, p⟩, ⟨z, l', q⟩], fns, closed, status } : Abs (Option Id) Ti).uses idPrg t' ≠ some v) := by
        intro v t' ht'
        match t' with
        | 0 => exact absurd rfl ht'
        | 1 => simp [hch]
        | n + 2 => simp [hoth]
      have ask1 : ∀ cd A, y = .run cd A → past y = false → ({ mem, thr := [⟨y, l1, p⟩, ⟨z, l', q⟩], fns, closed, status } : Abs (Option Id) Ti).uses idPrg 0 = none →
          1 ∉ l ∧ ∀ t', ({ mem, thr := [⟨y, l1, p⟩, ⟨z, l', q⟩], fns, closed, status } : Abs (Option Id) Ti).uses idPrg t' ≠ some 1 := by
        intro cd A hyy hp hu
        refine ⟨?_, fun t' => ?_⟩
        · rcases us0 with rfl | h
          · simp
          · rw [hp] at h; cases h
        · by_cases h : t' = 0
          · subst h; simp [hu]
          · exact noone 1 t' h
      have asK : ∀ {k c' A}, As 0 p k c' → y = .run c' A → Abs.keeps idPrg c l { mem, thr := [⟨y, l1, p⟩, ⟨z, l', q⟩], fns, closed, status } 0 := by
        intro k c' A h he
        subst he
        cases h <;> simp [Abs.keeps, idPrg, check]
      have mC : MC p y → Abs.keeps idPrg c l { mem, thr := [⟨y, l1, p⟩, ⟨z, l', q⟩], fns, closed, status } 0 := by
        intro h
        cases h with
        | as h => exact asK h rfl
        | hT h => exact asK h rfl
        | hP h => exact asK h rfl
        | m101 => exact .inr (ask1 _ _ rfl rfl rfl)
        | m108 =>
          refine ⟨by simp, ?_, noone 1⟩
          rcases us0 with rfl | h
          · simp
          · cases h
        | _ => simp [Abs.keeps, idPrg, check]
      cases hy with
      | none hM hK =>
        cases hM with
        | m77 => exact .inr (ask1 _ _ rfl rfl rfl)
        | _ => simp [Abs.keeps, idPrg, check]
      | told1 hK => simp [Abs.keeps, idPrg, check]
      | told2 hK => simp [Abs.keeps, idPrg, check]
      | heard1 hK => simp [Abs.keeps, idPrg, check]
      | heard2 hM hK => exact mC hM

theorem id_settles (lk : Bool) : Settles idPrg lk none := by
  intro ab who X
  have hstep : ∀ n t, who n = some t → idG (ab (n + 1)) + (if (ab n).registers idPrg t then 1 else 0) ≤ idG (ab n) := by
    intro n t hw
    obtain ⟨r, x, hs⟩ := X.next n t hw
    obtain ⟨l, A⟩ := X.reachU n
    exact (idFacts (idU A).1 (idU A).2 hs).regs
  have key : ∀ k n, idG (ab n) ≤ k → ∃ N, ∀ n t, N ≤ n → who n = some t → (ab n).registers idPrg t = false := by
    intro k
    induction k with
    | zero =>
      intro n hn
      have h0 : ∀ d, idG (ab (n + d)) ≤ 0 := by
        intro d
        induction d with
        | zero => exact hn
        | succ d ih =>
          cases hw : who (n + d) with
          | none => rw [← Nat.add_assoc, X.idle _ hw]; exact ih
          | some t => have := hstep _ t hw; rw [← Nat.add_assoc]; omega
      refine ⟨n, fun j t hj hw => ?_⟩
      have h1 := hstep j t hw
      have h2 := h0 (j - n)
      rw [show n + (j - n) = j by omega] at h2
      cases hr : (ab j).registers idPrg t with
      | false => rfl
      | true => rw [hr] at h1; simp only [if_true] at h1; omega
    | succ k ih =>
      intro n hn
      by_cases hex : ∃ j t, n ≤ j ∧ who j = some t ∧ (ab j).registers idPrg t = true
      · obtain ⟨j, t, hj, hw, hr⟩ := hex
        have hd : ∀ d, idG (ab (n + d)) ≤ k + 1 := by
          intro d
          induction d with
          | zero => exact hn
          | succ d ih =>
            cases hw : who (n + d) with
            | none => rw [← Nat.add_assoc, X.idle _ hw]; exact ih
            | some t => have := hstep _ t hw; rw [← Nat.add_assoc]; omega
        have h1 := hd (j - n)
        rw [show n + (j - n) = j by omega] at h1
        have h2 := hstep j t hw
        rw [hr] at h2
        simp only [if_true] at h2
        exact ih (j + 1) (by omega)
      · refine ⟨n, fun j t hj hw => ?_⟩
        cases hr : (ab j).registers idPrg t with
        | false => rfl
        | true => exact absurd ⟨j, t, hj, hw, hr⟩ hex
  exact key _ 0 (Nat.le_refl _)

/-- A finished thread stays finished. -/
theorem _root_.Origin.User.astep_done {σ C : Type} {pr : Prg σ C} {lk : Bool} {a a' : Abs σ C} {t x u v i : Nat} {r : Option Nat} {l : List C}
    (hs : astep pr lk a t r x = some a') (hu : a.thr[u]? = some ⟨.done v, l, i⟩) : a'.thr[u]? = some ⟨.done v, l, i⟩ := by
  unfold astep at hs
  split at hs
  · cases hs
  split at hs
  · cases hs
  next T hT =>
  have hne : (∀ v, T.pos ≠ .done v) → t ≠ u := by
    intro h e; subst e; rw [hu] at hT; cases hT; exact h v rfl
  have set : ∀ U, t ≠ u → (a.thr.set t U)[u]? = some ⟨.done v, l, i⟩ := fun U h => by rw [List.getElem?_set_ne h]; exact hu
  split at hs
  · next cd k hp =>
    have hne := hne (by simp [hp])
    cases hop : pr.op cd <;> simp only [hop, opStep] at hs
    case create g cc =>
      split at hs <;> cases hs
      simp only
      rw [List.getElem?_append_left (by have := (List.getElem?_eq_some_iff.mp hu).1; simpa using this)]
      exact set _ hne
    case atExitP g cc => split at hs <;> cases hs; exact set _ hne
    case join w cc => split at hs <;> cases hs; exact set _ hne
    case id w cc =>
      split at hs
      · split at hs
        · split at hs <;> cases hs; exact set _ hne
        · cases hs; exact set _ hne
        · cases hs
      · cases hs
    all_goals (cases hs; exact set _ hne)
  · next k hp =>
    have hne := hne (by simp [hp])
    unfold nextStep at hs
    split at hs
    all_goals
      first
      | (cases hs; exact set _ hne)
      | (cases hs; done)
      | (split at hs <;> cases hs <;> exact set _ hne)
      | (split at hs
         · cases hs
         · split at hs <;> cases hs <;> exact set _ hne)
      | (cases hs; exact hu)
  · cases hs

theorem kDone_iff {a : Abs (Option Id) Ti} (I : IdInv a) : kDone a = true ↔ ∃ v l i, a.thr[1]? = some ⟨.done v, l, i⟩ := by
  obtain ⟨mem, thr, fns, closed, status⟩ := a
  rcases I.thr with ⟨p, y, l1, ht, h2', h3', h4⟩ | ⟨p, q, y, z, l1, l', hpq, ht, hy, h3', h4⟩
  · simp only at ht; subst ht; simp [kDone]
  · simp only at ht; subst ht
    rw [kDone_eq]
    cases z <;> simp

/-- The thread waited for can go on. -/
theorem id_goes {lk : Bool} {l : List Nat} {a : Abs (Option Id) Ti} (A : AReachU idPrg lk none l a) (hst : a.status = none) :
    ∃ r x, astep idPrg lk a (if kDone a then 0 else idHelp a) r x ≠ none := by
  obtain ⟨I, U⟩ := idU A
  obtain ⟨x, hx⟩ := free_id a
  obtain ⟨mem, thr, fns, closed, status⟩ := a
  simp only at hst
  subst hst
  rcases I.thr with ⟨p, y, l1, ht, h2', h3', h4⟩ | ⟨p, q, y, z, l1, l', hpq, ht, hy, h3', h4⟩
  · simp only at ht; subst ht
    have hc := (U.used _ rfl).2
    simp only at hc
    refine ⟨some p, x, ?_⟩
    simp only [kDone, idHelp, Bool.false_eq_true, if_false, astep, Option.isSome_none, List.getElem?_cons_zero]
    cases h3' with
    | as h => cases h <;> simp [opStep, idPrg, check]
    | m27 => simp at hc; simp [opStep, idPrg, check, hc]
    | m37 => simp only [opStep, idPrg, if_pos hx]; simp
    | _ => simp [opStep, nextStep, idPrg, check]
  · simp only at ht hy; subst ht
    have hc := (U.used _ rfl).2
    simp only at hc
    have asM : ∀ {k c' A}, As 0 p k c' → y = .run c' A →
        astep idPrg lk { mem, thr := [⟨y, l1, p⟩, ⟨z, l', q⟩], fns, closed, status := none } 0 (some p) x ≠ none := by
      intro k c' A h he
      subst he
      cases h <;> simp [astep, opStep, idPrg, check]
    have asK : ∀ {k c' A}, As 1 q k c' → z = .run c' A →
        astep idPrg lk { mem, thr := [⟨y, l1, p⟩, ⟨z, l', q⟩], fns, closed, status := none } 1 (some q) x ≠ none := by
      intro k c' A h he
      subst he
      cases h <;> simp [astep, opStep, idPrg, check]
    by_cases hd : ∃ v, z = .done v
    · obtain ⟨v, rfl⟩ := hd
      simp only [kDone, if_true]
      cases hy with
      | none hM hK => exact absurd rfl (hK.not_done v)
      | told1 hK => exact absurd rfl (hK.not_done v)
      | told2 hK => cases hK
      | heard1 hK => exact ⟨none, x, by simp [astep, opStep, idPrg]⟩
      | heard2 hM hK =>
        cases hM with
        | as h => exact ⟨_, _, asM h rfl⟩
        | hT h => exact ⟨_, _, asM h rfl⟩
        | hP h => exact ⟨_, _, asM h rfl⟩
        | exitP =>
          simp at hc
          refine ⟨none, x, ?_⟩
          cases fns <;> simp [astep, nextStep, hc]
        | exitT => refine ⟨none, x, ?_⟩; cases l1 <;> simp [astep, nextStep]
        | _ => exact ⟨none, x, by simp [astep, opStep, nextStep, idPrg]⟩
    · have hk : kDone { mem, thr := [⟨y, l1, p⟩, ⟨z, l', q⟩], fns, closed, status := none } = false := by
        rw [kDone_eq]
        cases z <;> simp
        exact hd ⟨_, rfl⟩
      rw [hk]
      simp only [Bool.false_eq_true, if_false]
      by_cases hn : z = .run .c53 .start ∧ mem = none
      · obtain ⟨rfl, rfl⟩ := hn
        simp only [idHelp, if_true]
        cases hy with
        | none hM hK =>
          cases hM with
          | m77 => exact ⟨some q, x, by simp [astep, opStep, idPrg]⟩
          | m83 => exact ⟨some p, x, by simp [astep, opStep, idPrg]⟩
          | _ => exact ⟨some p, x, by simp [astep, opStep, idPrg]⟩
      · have h1 : idHelp { mem, thr := [⟨y, l1, p⟩, ⟨z, l', q⟩], fns, closed, status := none } = 1 ∨ ∃ A, z = .run .c53 A := by
          unfold idHelp
          simp only
          split
          · next he => simp only [List.cons.injEq, AThr.mk.injEq] at he; exact .inr ⟨_, he.2.1.1⟩
          · exact .inl rfl
          · next h => exact absurd rfl (h _ _)
        have hk : KA q z ∨ (KB p q z) ∨ KC q z := by
          cases hy with
          | told1 hK => exact .inl hK
          | told2 hK => exact .inr (.inl hK)
          | heard1 hK => exact .inr (.inr hK)
          | none hM hK => exact .inl hK
          | heard2 hM hK => exact .inr (.inr hK)
        have h1 : idHelp { mem, thr := [⟨y, l1, p⟩, ⟨z, l', q⟩], fns, closed, status := none } = 1 := by
          rcases h1 with h1 | ⟨A0, rfl⟩
          · exact h1
          · have hA : A0 = After.start := by
              rcases hk with h | h | h
              · cases h with
                | as h => cases h
                | c53 => rfl
              · cases h
              · cases h with
                | as h => cases h
                | hE _ h => cases h
            subst hA
            cases mem with
            | none => exact absurd ⟨rfl, rfl⟩ hn
            | some i => exact idHelp_some
        rw [h1]
        refine ⟨some q, x, ?_⟩
        rcases hk with h | h | h
        · cases h with
          | as h => exact asK h rfl
          | _ => simp [astep, opStep, idPrg]
        · cases h <;> simp [astep, opStep, idPrg, check]
        · cases h with
          | as h => exact asK h rfl
          | hE _ h => exact asK h rfl
          | done v => exact absurd ⟨v, rfl⟩ hd
          | ending v => cases l' <;> simp [astep, nextStep]
          | _ => simp [astep, opStep, idPrg]

/-- On a fair run the test ends. -/
theorem id_ends {lk : Bool} {ab : Nat → Abs (Option Id) Ti} {who : Nat → Option Nat} (X : ARun idPrg lk none ab who) (F : AFair idPrg lk ab who)
    (H : AIds idPrg lk ab who) : ∃ n, (ab n).status = some 201 := by
  have inv : ∀ n, ∃ l, IdInv (ab n) ∧ IdU l (ab n) ∧ AReachU idPrg lk none l (ab n) := by
    intro n; obtain ⟨l, A⟩ := X.reachU n; exact ⟨l, (idU A).1, (idU A).2, A⟩
  have fin : (∃ n, (ab n).status.isSome = true) → ∃ n, (ab n).status = some 201 := by
    rintro ⟨n, h⟩
    obtain ⟨v, hv⟩ := Option.isSome_iff_exists.mp h
    obtain ⟨l, I, -⟩ := inv n
    rw [I.status v hv] at hv
    exact ⟨n, hv⟩
  obtain ⟨n, -, hn⟩ := X.gets F (idW 0) idHelp (P := fun a => kDone a = true ∨ a.status.isSome = true) (i := 0)
    (fun n t _ hP hw => by
      obtain ⟨l, I, U, -⟩ := inv n
      obtain ⟨r, x, hs⟩ := X.next n t hw
      rcases (idFacts I U hs).rank (by simpa using fun h => hP (.inl h)) with h | h
      · exact .inl (.inr h)
      · exact .inr h)
    (fun n _ hP => by
      obtain ⟨l, I, U, A⟩ := inv n
      have h := id_goes A (by cases h : (ab n).status with | none => rfl | some v => exact absurd (.inr (by simp [h])) hP)
      rwa [if_neg (fun h => hP (.inl h))] at h)
  rcases hn with hd | hst
  · obtain ⟨l, I, -⟩ := inv n
    obtain ⟨v, k, i, hu⟩ := (kDone_iff I).mp hd
    obtain ⟨ls, rs, xs, hA, H⟩ := H
    obtain ⟨N, hN⟩ := H 1 n v k i hu
    have stay : ∀ d, kDone (ab (n + d)) = true := by
      intro d
      obtain ⟨l, I, -⟩ := inv (n + d)
      refine (kDone_iff I).mpr ⟨v, k, i, ?_⟩
      clear I
      induction d with
      | zero => exact hu
      | succ d ih =>
        cases hw : who (n + d) with
        | none => rw [← Nat.add_assoc, X.idle _ hw]; exact ih
        | some t => obtain ⟨r, x, hs⟩ := X.next _ t hw; exact astep_done hs ih
    obtain ⟨j, -, hj⟩ := X.gets F (idW 1) (fun _ => 0) (P := fun a => a.status.isSome = true) (i := max n N)
      (fun j t hj hP hw => by
        obtain ⟨l, I, U, -⟩ := inv j
        have hd := stay (j - n)
        rw [show n + (j - n) = j by omega] at hd
        have : ∃ r x, astep idPrg lk (ab j) t r x = some (ab (j + 1)) ∧ ((ab j).asks idPrg t = some 1 → r = none) := by
          by_cases ha : (ab j).asks idPrg t = some 1
          · exact ⟨_, _, (hA.next j t hw).1, fun _ => hN j t (by omega) hw ha⟩
          · obtain ⟨r, x, hs⟩ := X.next j t hw
            exact ⟨r, x, hs, fun h => absurd h ha⟩
        obtain ⟨r, x, hs, hr⟩ := this
        rcases (idFacts I U hs).rank' hd hr with h | h
        · exact .inl h
        · exact .inr (.inl h))
      (fun j hj hP => by
        obtain ⟨l, I, U, A⟩ := inv j
        have hd := stay (j - n)
        rw [show n + (j - n) = j by omega] at hd
        have h := id_goes A (by cases h : (ab j).status with | none => rfl | some v => exact absurd (by simp [h]) hP)
        rwa [if_pos hd] at h)
    exact fin ⟨j, hj⟩
  · exact fin ⟨n, hst⟩

end Origin.Programs
