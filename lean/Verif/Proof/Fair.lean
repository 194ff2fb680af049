import Verif.Spec.Fair
import Verif.Proof.Lifecycle6
/-!
# Progress under fair scheduling
-/

namespace Origin.Life

variable {w : Inst → Bool} {b sig : Bool} {s s' : State}

/-- A measure that never grows and, as long as the goal is not reached, shrinks again and again: the goal is reached. -/
theorem progress {Goal : Nat → Prop} (f : Nat → Nat) : ∀ (b n : Nat), f n ≤ b →
    (∀ m, n ≤ m → Goal m ∨ Goal (m + 1) ∨ f (m + 1) ≤ f m) →
    (∀ m, n ≤ m → ∃ k, m ≤ k ∧ (Goal k ∨ Goal (k + 1) ∨ f (k + 1) < f k)) → ∃ m, n ≤ m ∧ Goal m := by
  intro b
  induction b with
  | zero =>
    intro n hb hm hd
    obtain ⟨k, hk, h⟩ := hd n (Nat.le_refl _)
    have mono : ∀ i, (∃ m, n ≤ m ∧ Goal m) ∨ f (n + i) ≤ f n := by
      intro i
      induction i with
      | zero => exact .inr (Nat.le_refl _)
      | succ i ih =>
        rcases ih with h | h
        · exact .inl h
        · rcases hm (n + i) (by omega) with g | g | g
          · exact .inl ⟨_, by omega, g⟩
          · exact .inl ⟨n + i + 1, by omega, g⟩
          · exact .inr (Nat.le_trans g h)
    rcases h with h | h | h
    · exact ⟨k, hk, h⟩
    · exact ⟨k + 1, by omega, h⟩
    · rcases mono (k - n) with g | g
      · exact g
      · rw [show n + (k - n) = k by omega] at g; omega
  | succ b ih =>
    intro n hb hm hd
    have mono : ∀ i, (∃ m, n ≤ m ∧ Goal m) ∨ f (n + i) ≤ f n := by
      intro i
      induction i with
      | zero => exact .inr (Nat.le_refl _)
      | succ i ih =>
        rcases ih with h | h
        · exact .inl h
        · rcases hm (n + i) (by omega) with g | g | g
          · exact .inl ⟨_, by omega, g⟩
          · exact .inl ⟨n + i + 1, by omega, g⟩
          · exact .inr (Nat.le_trans g h)
    obtain ⟨k, hk, h⟩ := hd n (Nat.le_refl _)
    rcases h with h | h | h
    · exact ⟨k, hk, h⟩
    · exact ⟨k + 1, by omega, h⟩
    · rcases mono (k - n) with g | g
      · exact g
      · rw [show n + (k - n) = k by omega] at g
        obtain ⟨m, q1, q2⟩ := ih (k + 1) (by omega) (fun m h => hm m (by omega)) (fun m h => hd m (by omega))
        exact ⟨m, by omega, q2⟩

/-- An execution's states are reachable. -/
theorem IsExec.reach {P : State → Action → Prop} {st : Nat → State} {act : Nat → Option Action} (X : IsExec sig P st act) :
    ∀ n, Reach sig P (st n)
  | 0 => by obtain ⟨a, tid, h1, h2⟩ := X.start; rw [h2]; exact .init a tid h1
  | n + 1 => by
    cases h : act n with
    | none => rw [X.idle n h]; exact X.reach n
    | some x => exact .step (X.reach n) (X.next n x h).1 (X.next n x h).2

/-! ### what a step does to a thread's stage -/

/-- How far a thread is from the end, once it has started to exit. -/
def Stage.rank : Stage → Nat
  | .born | .body | .dtors _ => 20
  | .cas _ => 10
  | .dRead => 9
  | .dDrop _ => 8
  | .dSetTid => 7
  | .dMask => 6
  | .dUnmap => 5
  | .storeRet _ => 5
  | .dExit => 4
  | .exitCall => 4
  | .kClear => 3
  | .kWake => 2
  | .dead => 0

/-- The thread's own memory, which its next step needs, is there. -/
def CanStep (s : State) (h : Inst) (T : Thr) : Prop :=
  s.view T.addr h ≠ none ∨ T.stage = .dExit ∨ (T.stage = .kClear ∧ T.clear = false)

/-- Only a thread's own actions change it. -/
def Action.own (h : Inst) : Action → Prop
  | .step t | .ret t _ | .dtorsDone t | .wake t _ => t = h
  | _ => False

theorem modThr_other {t h : Inst} {f : Thr → Thr} (hne : h ≠ t) : (s.modThr t f).thr h = s.thr h := by
  simp [State.modThr, hne]

theorem thr_frame (I : Inv w sig s) {x : Action} {h : Inst} {T : Thr} (hT : s.thr h = some T) (hx : ¬ x.own h)
    (hs : step sig s x = some s') : s'.thr h = some T := by
  have hlt := I.lt h T hT
  cases x with
  | create t a tid =>
    simp only [step] at hs
    split at hs
    · split at hs
      · split at hs
        · injection hs with hs; subst hs; exact hT
        · injection hs with hs; subst hs
          simp only [State.ev]
          rw [if_neg (Nat.ne_of_lt hlt)]; exact hT
      · cases hs
    · cases hs
  | ret t v =>
    have hne : h ≠ t := fun e => hx (by simp [Action.own, e])
    simp only [step] at hs
    split at hs
    · split at hs
      · split at hs
        · injection hs with hs; subst hs; exact hT
        · injection hs with hs; subst hs
          exact (modThr_other hne).trans hT
      · cases hs
    · cases hs
  | dtorsDone t =>
    have hne : h ≠ t := fun e => hx (by simp [Action.own, e])
    simp only [step] at hs
    split at hs
    · split at hs
      · split at hs
        · injection hs with hs; subst hs; exact hT
        · injection hs with hs; subst hs
          exact (modThr_other hne).trans hT
      · cases hs
    · cases hs
  | join t y =>
    simp only [step] at hs
    split at hs
    · split at hs
      · split at hs <;> (injection hs with hs; subst hs; exact hT)
      · cases hs
    · cases hs
  | detach t y =>
    simp only [step] at hs
    split at hs
    · split at hs
      · split at hs <;> (injection hs with hs; subst hs; exact hT)
      · cases hs
    · cases hs
  | id t y =>
    simp only [step] at hs
    split at hs
    · split at hs
      · split at hs
        · injection hs with hs; subst hs; exact hT
        · split at hs <;> (injection hs with hs; subst hs; exact hT)
      · cases hs
    · cases hs
  | step t =>
    have hne : h ≠ t := fun e => hx (by simp [Action.own, e])
    simp only [step] at hs
    split at hs
    · next X hX =>
      split at hs
      · injection hs with hs; subst hs; exact (modThr_other hne).trans hT
      · split at hs
        · split at hs
          · injection hs with hs; subst hs; exact (modThr_other hne).trans hT
          · injection hs with hs; subst hs; exact hT
        · injection hs with hs; subst hs; exact (modThr_other hne).trans hT
      · cases hs
      · cases hs
      · split at hs
        · injection hs with hs; subst hs; exact hT
        · split at hs
          · split at hs
            · cases hs
            · split at hs
              · injection hs with hs; subst hs; exact hT
              · rw [callStep_thr hs]; exact hT
          · cases hX' : X.stage <;> simp only [ownStep, hX'] at hs <;> (try split at hs) <;> (try cases hs) <;>
              simp [State.setStage, State.modThr, State.setRec, State.ev, hne, hT]
    · cases hs
  | intr t =>
    simp only [step] at hs
    split at hs
    · injection hs with hs; subst hs; exact hT
    · cases hs
  | wake t j =>
    have hne : h ≠ t := fun e => hx (by simp [Action.own, e])
    simp only [step] at hs
    split at hs
    · split at hs
      · split at hs
        · split at hs
          · injection hs with hs; subst hs; exact (modThr_other hne).trans hT
          · cases hs
        · split at hs
          · split at hs
            · injection hs with hs; subst hs; exact (modThr_other hne).trans hT
            · cases hs
          · cases hs
      · cases hs
    · cases hs
  | signal t =>
    simp only [step] at hs
    split at hs
    · split at hs
      · cases hs
      · split at hs
        · cases hs
        · cases hs
        · cases hs
        · split at hs <;> (injection hs with hs; subst hs; exact hT)
    · cases hs

/-- A step of an exiting thread itself. -/
theorem own_step (I : Inv w sig s) {h : Inst} {T : Thr} (hT : s.thr h = some T) (hr : T.stage.rank ≤ 10)
    (hs : step sig s (.step h) = some s') :
    ∃ T', s'.thr h = some T' ∧ T'.stage.rank ≤ T.stage.rank ∧ (CanStep s h T → T'.stage.rank < T.stage.rank) := by
  have hnu : ¬ T.stage.user := by
    intro hu; cases hst : T.stage <;> simp [hst, Stage.user, Stage.rank] at hu hr
  have hcall := I.idle_of_not_user hT hnu
  have stuck : s' = s.faulted h h → s.view T.addr h = none → T.stage ≠ .dExit → (T.stage = .kClear → T.clear = true) →
      ∃ T', s'.thr h = some T' ∧ T'.stage.rank ≤ T.stage.rank ∧ (CanStep s h T → T'.stage.rank < T.stage.rank) := by
    rintro rfl hv h1 h2
    refine ⟨T, hT, Nat.le_refl _, ?_⟩
    rintro (q | q | ⟨q, q'⟩)
    · exact absurd hv q
    · exact absurd q h1
    · rw [h2 q] at q'; cases q'
  simp only [step, hT] at hs
  split at hs
  · next hst =>
    injection hs with hs; subst hs
    refine ⟨_, modThr_same (by exact hT), ?_, fun _ => ?_⟩ <;> simp [hst, Stage.rank]
  · next hst =>
    split at hs
    · next hcl =>
      split at hs
      · injection hs with hs; subst hs
        refine ⟨_, modThr_same (by exact hT), ?_, fun _ => ?_⟩ <;> simp [hst, Stage.rank]
      · next hv =>
        injection hs with hs
        exact stuck hs.symm hv (by simp [hst]) fun _ => hcl
    · injection hs with hs; subst hs
      refine ⟨_, modThr_same (by exact hT), ?_, fun _ => ?_⟩ <;> simp [hst, Stage.rank]
  · cases hs
  · cases hs
  · next n1 n2 _ _ =>
    split at hs
    · next hv =>
      injection hs with hs
      exact stuck hs.symm hv n1 fun h => absurd h n2
    · next r hv =>
      rw [hcall] at hs
      simp only at hs
      cases hst : T.stage <;> simp only [ownStep, hst] at hs <;> (try split at hs) <;> (try cases hs) <;>
        simp [hst, Stage.rank] at hr <;>
        refine ⟨_, by simp [State.setStage, State.modThr, State.setRec, State.ev, hT]; rfl, ?_, fun _ => ?_⟩ <;>
        simp [Stage.rank] <;> (try split) <;> simp

/-- Exiting threads go on exiting. -/
theorem rank_step (I : Inv w sig s) {x : Action} {h : Inst} {T : Thr} (hT : s.thr h = some T) (hr : T.stage.rank ≤ 10)
    (hs : step sig s x = some s') : ∃ T', s'.thr h = some T' ∧ T'.stage.rank ≤ T.stage.rank := by
  by_cases hx : x.own h
  · cases x with
    | step t =>
      cases hx
      obtain ⟨T', q1, q2, -⟩ := own_step I hT hr hs
      exact ⟨T', q1, q2⟩
    | ret t v =>
      cases hx
      simp only [step, hT] at hs
      split at hs
      · next hc => rw [hc.2.1] at hr; simp [Stage.rank] at hr
      · cases hs
    | dtorsDone t =>
      cases hx
      simp only [step, hT] at hs
      split at hs
      · next hc _ => rw [hc] at hr; simp [Stage.rank] at hr
      · cases hs
    | wake t j =>
      cases hx
      simp only [step, hT] at hs
      split at hs
      · split at hs
        · split at hs
          · injection hs with hs; subst hs
            exact ⟨_, modThr_same (by exact hT), by simp [Stage.rank]⟩
          · cases hs
        · split at hs
          · split at hs
            · injection hs with hs; subst hs
              exact ⟨_, modThr_same (by exact hT), by simp [Stage.rank]⟩
            · cases hs
          · cases hs
      · cases hs
    | _ => exact absurd hx (by simp [Action.own])
  · exact ⟨T, thr_frame I hT hx hs, Nat.le_refl _⟩

/-- An exiting thread not yet in the kernel's wake-up can always take a step. -/
theorem own_enabled (I : Inv w sig s) {h : Inst} {T : Thr} (hT : s.thr h = some T) (hr : T.stage.rank ≤ 10)
    (h1 : T.stage ≠ .kWake) (h2 : T.stage ≠ .dead) : step sig s (.step h) ≠ none := by
  have hnu : ¬ T.stage.user := by
    intro hu; cases hst : T.stage <;> simp [hst, Stage.user, Stage.rank] at hu hr
  have hcall := I.idle_of_not_user hT hnu
  intro hs
  simp only [step, hT] at hs
  split at hs
  · cases hs
  · split at hs
    · split at hs <;> cases hs
    · cases hs
  · next h => exact h1 h
  · next h => exact h2 h
  · split at hs
    · cases hs
    · rw [hcall] at hs
      simp only at hs
      cases hst : T.stage <;> simp only [ownStep, hst] at hs <;> (try split at hs) <;> (try cases hs) <;>
        simp_all [Stage.rank]

/-- A wake-up that is due is possible. -/
theorem wake_enabled {h : Inst} {T : Thr} (hT : s.thr h = some T) (hk : T.stage = .kWake) :
    ∃ j, step sig s (.wake h j) ≠ none := by
  by_cases hn : s.noWaiter T.addr = true
  · exact ⟨none, by simp [step, hT, hk, hn]⟩
  · simp only [State.noWaiter, List.all_eq_true, List.mem_range] at hn
    have : ∃ j k y, s.call j = some (.blocked k T.addr y) := by
      refine Classical.byContradiction fun hno => hn fun j _ => ?_
      split
      · next k b y hc =>
        rw [bne_iff_ne]
        rintro rfl
        exact hno ⟨j, k, y, hc⟩
      · rfl
    obtain ⟨j, k, y, hc⟩ := this
    exact ⟨some j, by simp [step, hT, hk, hc]⟩

theorem wake_rank {h : Inst} {T : Thr} {j : Option Inst} (hT : s.thr h = some T)
    (hs : step sig s (.wake h j) = some s') : Done s' h := by
  simp only [step, hT] at hs
  split at hs
  · split at hs
    · split at hs
      · injection hs with hs; subst hs
        exact ⟨_, modThr_same (by exact hT), by simp⟩
      · cases hs
    · split at hs
      · split at hs
        · injection hs with hs; subst hs
          exact ⟨_, modThr_same (by exact hT), by simp⟩
        · cases hs
      · cases hs
  · cases hs

/-- **The exit completes** if the thread's memory stays as long as it is needed. -/
theorem exit_completes {P : State → Action → Prop} {st : Nat → State} {act : Nat → Option Action} (X : Steps sig P st act)
    (F : Fair sig st act) (hI : ∀ n, Inv w sig (st n)) {h : Inst} {n : Nat} {T : Thr} (hT : (st n).thr h = some T)
    (hr : T.stage.rank ≤ 10) {Stop : Nat → Prop}
    (hcan : ∀ m, n ≤ m → Stop m ∨ ∀ T, (st m).thr h = some T → T.stage.rank ≤ 10 → T.stage ≠ .dead → T.stage ≠ .kWake → CanStep (st m) h T) :
    ∃ m, n ≤ m ∧ (Stop m ∨ Done (st m) h) := by
  have stay : ∀ i, ∃ T, (st (n + i)).thr h = some T ∧ T.stage.rank ≤ 10 := by
    intro i
    induction i with
    | zero => exact ⟨T, hT, hr⟩
    | succ i ih =>
      obtain ⟨T1, q1, q2⟩ := ih
      cases ha : act (n + i) with
      | none => exact ⟨T1, by rw [← Nat.add_assoc, X.idle _ ha]; exact q1, q2⟩
      | some x =>
        obtain ⟨T2, p1, p2⟩ := rank_step (hI _) q1 q2 (X.next _ x ha).2
        exact ⟨T2, p1, Nat.le_trans p2 q2⟩
  have stay' : ∀ m, n ≤ m → ∃ T, (st m).thr h = some T ∧ T.stage.rank ≤ 10 := by
    intro m hm; have := stay (m - n); rwa [show n + (m - n) = m by omega] at this
  let f : Nat → Nat := fun m => match (st m).thr h with | some T => T.stage.rank | none => 0
  have mono : ∀ m, n ≤ m → f (m + 1) ≤ f m := by
    intro m hm
    obtain ⟨T1, q1, q2⟩ := stay' m hm
    cases ha : act m with
    | none => simp only [f, X.idle _ ha]; exact Nat.le_refl _
    | some x =>
      obtain ⟨T2, p1, p2⟩ := rank_step (hI _) q1 q2 (X.next _ x ha).2
      simp only [f, q1, p1]; exact p2
  refine progress f (f n) n (Nat.le_refl _) (fun m hm => .inr (.inr (mono m hm))) fun m hm => ?_
  obtain ⟨T1, q1, q2⟩ := stay' m hm
  by_cases hk : T1.stage = .kWake
  · obtain ⟨k, k1, k2⟩ := F.kernel h m
    have hTk : ∃ T2, (st k).thr h = some T2 ∧ T2.stage.rank ≤ 2 := by
      have : ∀ i, f (m + i) ≤ f m := by
        intro i
        induction i with
        | zero => exact Nat.le_refl _
        | succ i ih => exact Nat.le_trans (mono (m + i) (by omega)) ih
      have := this (k - m)
      rw [show m + (k - m) = k by omega] at this
      obtain ⟨T2, p1, -⟩ := stay' k (by omega)
      simp only [f, q1, p1, hk, Stage.rank] at this
      exact ⟨T2, p1, this⟩
    obtain ⟨T2, p1, p2⟩ := hTk
    refine ⟨k, k1, ?_⟩
    rcases k2 with ⟨v, hv⟩ | hno
    · exact .inr (.inl (.inr (wake_rank p1 (X.next _ _ hv).2)))
    · by_cases hd : T2.stage = .dead
      · exact .inl (.inr ⟨T2, p1, hd⟩)
      · have : T2.stage = .kWake := by
          cases hst : T2.stage <;> simp [hst, Stage.rank] at p2 hd ⊢
        obtain ⟨j, hj⟩ := wake_enabled (sig := sig) p1 this
        exact absurd (hno j) hj
  · by_cases hd : T1.stage = .dead
    · exact ⟨m, Nat.le_refl _, .inl (.inr ⟨T1, q1, hd⟩)⟩
    · obtain ⟨k, k1, k2⟩ := F.threads h m
      -- the first moment from `m` on at which `h` is scheduled or cannot be: until then its stage is unchanged, or has gone down
      obtain ⟨T2, p1, p2⟩ := stay' k (by omega)
      by_cases hd2 : T2.stage = .dead
      · exact ⟨k, k1, .inl (.inr ⟨T2, p1, hd2⟩)⟩
      · by_cases hk2 : T2.stage = .kWake
        · -- it went down in between
          have hlt : f k < f m := by
            have h1 : f k = 2 := by simp [f, p1, hk2, Stage.rank]
            have h2 : 2 < f m := by
              simp only [f, q1]
              cases hst : T1.stage <;> simp [hst, Stage.rank] at hk hd ⊢
            omega
          have : ∃ i, m ≤ i ∧ f (i + 1) < f i := by
            refine Classical.byContradiction fun hno => ?_
            have : ∀ i, f m ≤ f (m + i) := by
              intro i
              induction i with
              | zero => exact Nat.le_refl _
              | succ i ih =>
                refine Nat.le_trans ih (Nat.le_of_not_lt fun hl => hno ⟨m + i, by omega, hl⟩)
            have := this (k - m)
            rw [show m + (k - m) = k by omega] at this
            omega
          obtain ⟨i, i1, i2⟩ := this
          exact ⟨i, i1, .inr (.inr i2)⟩
        · rcases hcan k (by omega) with hst | hc
          · exact ⟨k, k1, .inl (.inl hst)⟩
          · rcases k2 with k2 | k2
            · obtain ⟨T3, r1, -, r3⟩ := own_step (hI k) p1 p2 (X.next _ _ k2).2
              refine ⟨k, k1, .inr (.inr ?_)⟩
              simp only [f, p1, r1]
              exact r3 (hc T2 p1 p2 hd2 hk2)
            · exact absurd k2 (own_enabled (hI k) p1 p2 hk2 hd2)

end Origin.Life
