import Verif.Proof.Fair
/-!
# Calls in progress under fair scheduling
-/

namespace Origin.Life

variable {w : Inst → Bool} {b sig : Bool} {s s' : State}

/-- The call has returned. -/
def Fin (s : State) (j : Inst) (k : Kind) (h : Inst) : Prop :=
  match k with
  | .join => ∃ v, Ev.joined j h v ∈ s.log
  | .detach => Ev.detachDone j h ∈ s.log

/-- Steps left. -/
def Call.todo : Call → Nat
  | .swap .. => 8
  | .wait .. => 7
  | .load .. => 6
  | .blocked .. => 9
  | .loadRet .. => 5
  | .readFields .. => 4
  | .drop .. => 3
  | .unmap .. => 2

def Call.isBlocked : Call → Prop
  | .blocked .. => True
  | _ => False

theorem callStep_call {t j : Inst} {r : Rec} {c : Call} (h : callStep s t r c = some s') (hne : j ≠ t) : s'.call j = s.call j := by
  cases c <;> simp only [callStep] at h <;> (try split at h) <;> (try cases h)
  case unmap k a x v => cases k <;> simp [State.finish, State.setCall, State.setCons, State.setRec, State.ev, hne]
  case drop.isFalse k a x v o ho => cases k <;> simp [State.finish, State.setCall, State.setCons, State.ev, hne]
  all_goals simp [State.setCall, State.setCons, State.setRec, State.ev, hne]

/-- Steps of a call: on to the next step of the same call, or the end. -/
theorem callStep_out {t : Inst} {r : Rec} {c : Call} (h : callStep s t r c = some s') :
    Fin s' t c.kind c.target ∨ ∃ c', s'.call t = some c' ∧ c'.target = c.target ∧ c'.kind = c.kind ∧
      (c.phase = .freeing → c'.phase = .freeing) ∧ c'.phase ≠ .start := by
  cases c with
  | swap a x =>
    simp only [callStep] at h
    split at h <;> (injection h with h; subst h)
    · exact .inr ⟨.load .detach a x, by simp [State.setCall, State.setCons], rfl, rfl, by simp [Call.phase], by simp [Call.phase]⟩
    · exact .inl (by simp [Fin, Call.kind, Call.target, State.ev])
  | load k a x =>
    simp only [callStep] at h
    split at h <;> (injection h with h; subst h)
    · refine .inr ⟨afterWait k a x, by simp [State.setCall, State.setCons], ?_, ?_, ?_, ?_⟩ <;> cases k <;>
        simp [afterWait, Call.target, Call.kind, Call.phase]
    · exact .inr ⟨.wait k a x r.tid, by simp [State.setCall], rfl, rfl, by simp [Call.phase], by simp [Call.phase]⟩
  | wait k a x v =>
    simp only [callStep] at h
    split at h <;> (injection h with h; subst h)
    · exact .inr ⟨.blocked k a x, by simp [State.setCall], rfl, rfl, by simp [Call.phase], by simp [Call.phase]⟩
    · exact .inr ⟨.load k a x, by simp [State.setCall], rfl, rfl, by simp [Call.phase], by simp [Call.phase]⟩
  | blocked k a x => simp [callStep] at h
  | loadRet a x =>
    simp only [callStep] at h
    injection h with h; subst h
    exact .inr ⟨.readFields .join a x r.ret, by simp [State.setCall], rfl, rfl, by simp [Call.phase], by simp [Call.phase]⟩
  | readFields k a x v =>
    simp only [callStep] at h
    injection h with h; subst h
    exact .inr ⟨.drop k a x v r.owned, by simp [State.setCall], rfl, rfl, by simp [Call.phase], by simp [Call.phase]⟩
  | drop k a x v o =>
    simp only [callStep] at h
    split at h <;> (injection h with h; subst h)
    · exact .inr ⟨.unmap k a x v, by simp [State.setCall], rfl, rfl, by simp [Call.phase], by simp [Call.phase]⟩
    · left; cases k <;> simp [Fin, Call.kind, Call.target, State.ev, State.finish]
  | unmap k a x v =>
    simp only [callStep] at h
    injection h with h; subst h
    left; cases k <;> simp [Fin, Call.kind, Call.target, State.ev, State.finish]

/-- What any step does to the call `j` is in. -/
theorem call_frame (I : Inv w sig s) {x : Action} {j : Inst} {c : Call} (hc : s.call j = some c) (hs : step sig s x = some s') :
    s'.call j = some c ∨
    (x = .step j ∧ ∃ r, s.view c.addr c.target = some r ∧ callStep s j r c = some s') ∨
    (∃ k a y, c = .blocked k a y ∧ (s'.call j = some (.load k a y) ∨ s'.call j = some (afterWait k a y))) := by
  obtain ⟨Tj, hTj, huj⟩ := (I.callOk j c hc).actor
  have other : ∀ {t : Inst}, s.call t = none → j ≠ t := by
    rintro t h0 rfl; rw [h0] at hc; cases hc
  cases x with
  | create t a tid =>
    left
    simp only [step] at hs
    split at hs
    · split at hs
      · split at hs <;> (injection hs with hs; subst hs; exact hc)
      · cases hs
    · cases hs
  | ret t v =>
    left
    simp only [step] at hs
    split at hs
    · split at hs
      · split at hs <;> (injection hs with hs; subst hs; exact hc)
      · cases hs
    · cases hs
  | dtorsDone t =>
    left
    simp only [step] at hs
    split at hs
    · split at hs
      · split at hs <;> (injection hs with hs; subst hs; exact hc)
      · cases hs
    · cases hs
  | join t y =>
    left
    simp only [step] at hs
    split at hs
    · split at hs
      · next hu =>
        have hne := other (inUser_iff hu.1).1
        split at hs
        · injection hs with hs; subst hs; exact hc
        · injection hs with hs; subst hs; simp [State.setCall, State.setCons, State.ev, hne, hc]
      · cases hs
    · cases hs
  | detach t y =>
    left
    simp only [step] at hs
    split at hs
    · split at hs
      · next hu =>
        have hne := other (inUser_iff hu.1).1
        split at hs
        · injection hs with hs; subst hs; exact hc
        · injection hs with hs; subst hs; simp [State.setCall, State.setCons, State.ev, hne, hc]
      · cases hs
    · cases hs
  | id t y =>
    left
    simp only [step] at hs
    split at hs
    · split at hs
      · split at hs
        · injection hs with hs; subst hs; exact hc
        · split at hs <;> (injection hs with hs; subst hs; exact hc)
      · cases hs
    · cases hs
  | step t =>
    simp only [step] at hs
    split at hs
    · next X hX =>
      split at hs
      · injection hs with hs; subst hs; exact .inl hc
      · split at hs
        · split at hs <;> (injection hs with hs; subst hs; exact .inl hc)
        · injection hs with hs; subst hs; exact .inl hc
      · cases hs
      · cases hs
      · split at hs
        · injection hs with hs; subst hs; exact .inl hc
        · split at hs
          · next c0 hc0 =>
            split at hs
            · cases hs
            · split at hs
              · injection hs with hs; subst hs; exact .inl hc
              · next rc hrc =>
                by_cases hjt : j = t
                · subst hjt
                  rw [hc] at hc0; injection hc0 with hc0; subst hc0
                  exact .inr (.inl ⟨rfl, rc, hrc, hs⟩)
                · exact .inl (by rw [callStep_call hs hjt]; exact hc)
          · cases hX' : X.stage <;> simp only [ownStep, hX'] at hs <;> (try split at hs) <;> (try cases hs) <;> exact .inl hc
    · cases hs
  | intr t =>
    simp only [step] at hs
    split at hs
    · next k a y hb =>
      injection hs with hs; subst hs
      by_cases hjt : j = t
      · subst hjt
        rw [hc] at hb; injection hb with hb; subst hb
        exact .inr (.inr ⟨k, a, y, rfl, .inl (by simp [State.setCall])⟩)
      · exact .inl (by simp [State.setCall, hjt, hc])
    · cases hs
  | wake t i =>
    simp only [step] at hs
    split at hs
    · split at hs
      · split at hs
        · split at hs
          · injection hs with hs; subst hs; exact .inl hc
          · cases hs
        · next i' =>
          split at hs
          · next k a y hb =>
            split at hs
            · injection hs with hs; subst hs
              by_cases hjt : j = i'
              · subst hjt
                rw [hc] at hb; injection hb with hb; subst hb
                exact .inr (.inr ⟨k, a, y, rfl, .inr (by simp [State.setCall, State.setCons])⟩)
              · exact .inl (by simp [State.setCall, State.setCons, State.setStage, State.modThr, hjt, hc])
            · cases hs
          · cases hs
      · cases hs
    · cases hs
  | signal t =>
    left
    simp only [step] at hs
    split at hs
    · split at hs
      · cases hs
      · split at hs
        · cases hs
        · cases hs
        · cases hs
        · split at hs <;> (injection hs with hs; subst hs; exact hc)
    · cases hs

/-- The same call goes on, or it has returned. -/
theorem call_keep (I : Inv w sig s) {x : Action} {j : Inst} {c : Call} (hc : s.call j = some c) (hs : step sig s x = some s') :
    Fin s' j c.kind c.target ∨ ∃ c', s'.call j = some c' ∧ c'.target = c.target ∧ c'.kind = c.kind ∧
      (c.phase = .freeing → c'.phase = .freeing) ∧ (c.phase ≠ .start → c'.phase ≠ .start) := by
  rcases call_frame I hc hs with h | ⟨-, r, -, h⟩ | ⟨k, a, y, rfl, h⟩
  · exact .inr ⟨c, h, rfl, rfl, id, id⟩
  · rcases callStep_out h with h | ⟨c', h1, h2, h3, h4, h5⟩
    · exact .inl h
    · exact .inr ⟨c', h1, h2, h3, h4, fun _ => h5⟩
  · right
    rcases h with h | h
    · exact ⟨_, h, rfl, rfl, by simp [Call.phase], by simp [Call.phase]⟩
    · refine ⟨_, h, ?_, ?_, ?_, ?_⟩ <;> cases k <;> simp [afterWait, Call.target, Call.kind, Call.phase]

/-- A call that does not have to wait for its target makes progress whenever its thread is scheduled. -/
theorem call_move (I : Inv w sig s) {j : Inst} {c : Call} (hN : ∀ H, s.thr c.target = some H → H.forked = false) (hw : w j = false) (hc : s.call j = some c)
    (hready : c.phase = .waiting → Done s c.target) :
    ∃ s', step sig s (.step j) = some s' ∧
      (Fin s' j c.kind c.target ∨ ∃ c', s'.call j = some c' ∧ c'.todo < c.todo) := by
  have C := I.callOk _ _ hc
  obtain ⟨T, hT, hu⟩ := C.actor
  obtain ⟨H, hH, hHa, hval⟩ := C.target
  have O := I.ok _ _ hH
  have G := O.good
  rw [C.cons, hHa] at G
  have hne0 := O.tid
  obtain ⟨rt, hrt, -⟩ := ((I.ok _ _ hT).good.user_rec hu).resolve_left (by simp [hw])
  have hdead : c.phase = .waiting → H.stage = .dead := by
    intro h
    obtain ⟨H', h1, h2⟩ := hready h
    rw [hH] at h1; injection h1 with h1; subst h1; exact h2
  have hrec : ∃ r, s.view c.addr c.target = some r ∧ (c.phase = .waiting → r.tid = 0) := by
    cases hp : c.phase with
    | start =>
      have hk : c.kind = .detach := by cases c <;> simp_all [Call.phase, Call.kind]
      rw [hp, hk] at G
      obtain ⟨r, hr⟩ := G.waiting_user _ rfl
      exact ⟨r, hr, by simp⟩
    | waiting =>
      rw [hp] at G
      obtain ⟨r, hr, -⟩ := G.waitRec
      refine ⟨r, hr, fun _ => ?_⟩
      rw [hr] at G
      simp only [Good, hdead hp, Over, DetGone, Released, Stuck, hN _ hH, Bool.false_eq_true, false_and, or_false] at G
      simp at G
      grind
    | freeing =>
      rw [hp] at G
      obtain ⟨-, r, hr, -⟩ := G.freeing
      exact ⟨r, hr, by simp⟩
    | freed => cases c <;> simp [Call.phase] at hp
    | released => cases c <;> simp [Call.phase] at hp
  obtain ⟨r, hr, hz⟩ := hrec
  have hnb : ∀ k a x, c ≠ .blocked k a x := by rintro k a x rfl; exact hval.elim (by rw [hN _ hH]; simp) (· (hdead rfl))
  have hstep : step sig s (.step j) = callStep s j r c := by
    simp only [step, hT]
    cases hs : T.stage <;> simp [hs, Stage.user] at hu <;> simp only [hrt, hc] <;> cases c <;> simp_all
  rw [hstep]
  have hcall : ∀ c', (s.setCall j (some c')).call j = some c' := by intro c'; simp [State.setCall]
  cases c with
  | swap a x =>
    simp only [callStep]
    split
    · exact ⟨_, rfl, .inr ⟨.load .detach a x, by simp [State.setCall, State.setCons], by simp [Call.todo]⟩⟩
    · exact ⟨_, rfl, .inl (by simp [Fin, Call.kind, State.ev, Call.target])⟩
  | load k a x =>
    simp only [callStep, hz rfl, if_true]
    refine ⟨_, rfl, .inr ⟨afterWait k a x, by simp [State.setCall, State.setCons], ?_⟩⟩
    cases k <;> simp [afterWait, Call.todo]
  | wait k a x v =>
    have hv : v = H.tid := hval
    simp only [callStep, hz rfl]
    rw [if_neg (by omega)]
    exact ⟨_, rfl, .inr ⟨.load k a x, hcall _, by simp [Call.todo]⟩⟩
  | blocked k a x => exact absurd rfl (hnb k a x)
  | loadRet a x => exact ⟨_, rfl, .inr ⟨.readFields .join a x r.ret, hcall _, by simp [Call.todo]⟩⟩
  | readFields k a x v => exact ⟨_, rfl, .inr ⟨.drop k a x v r.owned, hcall _, by simp [Call.todo]⟩⟩
  | drop k a x v o =>
    have ho : o = true := by cases k with
      | join => exact hval.2
      | detach => exact hval
    subst ho
    simp only [callStep, if_true]
    exact ⟨_, rfl, .inr ⟨.unmap k a x v, hcall _, by simp [Call.todo]⟩⟩
  | unmap k a x v =>
    refine ⟨_, rfl, .inl ?_⟩
    cases k <;> simp [Fin, Call.kind, State.finish, State.ev, Call.target]

/-- A `detach` that has to wait, waits for a thread that is exiting. -/
theorem Good.detachWaiting {T : Thr} {m : Option Rec} {j : Inst} (G : Good b sig T (some (j, .detach, .waiting)) m) :
    T.stage.rank ≤ 10 := by
  cases h : T.stage <;> simp only [Good, h, Live, Stuck, Aband, Lost, Over, Det, DetGone, Released, Pending] at G <;>
    simp at G <;> simp [Stage.rank]
  all_goals grind

theorem done_step (I : Inv w sig s) {x : Action} {h : Inst} (hd : Done s h) (hs : step sig s x = some s') : Done s' h := by
  obtain ⟨T, h1, h2⟩ := hd
  obtain ⟨T', q1, q2⟩ := rank_step I h1 (by simp [h2, Stage.rank]) hs
  refine ⟨T', q1, ?_⟩
  rw [h2] at q2
  cases h : T'.stage <;> simp [h, Stage.rank] at q2 ⊢

section
variable {P : State → Action → Prop} {st : Nat → State} {act : Nat → Option Action}

/-- What no action undoes stays. -/
theorem Steps.stays (X : Steps sig P st act) {Q : State → Prop} {n : Nat} (h0 : Q (st n))
    (hstep : ∀ m x, n ≤ m → act m = some x → Q (st m) → Q (st (m + 1))) : ∀ m, n ≤ m → Q (st m) := by
  have : ∀ i, Q (st (n + i)) := by
    intro i
    induction i with
    | zero => exact h0
    | succ i ih =>
      cases ha : act (n + i) with
      | none => rw [← Nat.add_assoc, X.idle _ ha]; exact ih
      | some x => exact hstep (n + i) x (Nat.le_add_right n i) ha ih
  intro m hm
  have := this (m - n)
  rwa [show n + (m - n) = m by omega] at this

/-- **Calls return**: if the target exits, or the call is a `detach`. -/
theorem call_returns (X : Steps sig P st act) (F : Fair sig st act) (hI : ∀ n, Inv w sig (st n)) {j h : Inst} {k : Kind} (hN : ∀ n H, (st n).thr h = some H → H.forked = false)
    {c : Call} {n : Nat} (hw : w j = false) (hc : (st n).call j = some c) (ht : c.target = h) (hk : c.kind = k)
    (hexit : k = .join → ∃ n T, (st n).thr h = some T ∧ T.stage.rank ≤ 10) : ∃ m, n ≤ m ∧ Fin (st m) j k h := by
  refine Classical.byContradiction fun hno => ?_
  have hno : ∀ m, n ≤ m → ¬ Fin (st m) j k h := fun m hm hf => hno ⟨m, hm, hf⟩
  -- the call goes on for ever
  have go : ∀ {n1 c1}, n ≤ n1 → (st n1).call j = some c1 → c1.target = h → c1.kind = k → ∀ m, n1 ≤ m →
      ∃ c', (st m).call j = some c' ∧ c'.target = h ∧ c'.kind = k ∧
        (c1.phase = .freeing → c'.phase = .freeing) ∧ (c1.phase ≠ .start → c'.phase ≠ .start) := by
    intro n1 c1 hn1 h1 h2 h3
    refine X.stays (Q := fun s => ∃ c', s.call j = some c' ∧ c'.target = h ∧ c'.kind = k ∧
        (c1.phase = .freeing → c'.phase = .freeing) ∧ (c1.phase ≠ .start → c'.phase ≠ .start)) ⟨c1, h1, h2, h3, id, id⟩ ?_
    rintro m x hm ha ⟨c', q1, q2, q3, q4, q5⟩
    rcases call_keep (hI m) q1 (X.next m x ha).2 with hf | ⟨c'', p1, p2, p3, p4, p5⟩
    · rw [q2, q3] at hf; exact absurd hf (hno (m + 1) (by omega))
    · exact ⟨c'', p1, p2.trans q2, p3.trans q3, fun h => p4 (q4 h), fun h => p5 (q5 h)⟩
  -- `todo` goes down for ever: impossible
  have down : ∀ n1, n ≤ n1 → (∀ m c', n1 ≤ m → (st m).call j = some c' → ¬ c'.isBlocked ∧ (c'.phase = .waiting → Done (st m) h)) → False := by
    intro n1 hn1 hready
    let f : Nat → Nat := fun m => match (st m).call j with | some c => c.todo | none => 0
    obtain ⟨m, -, hF⟩ := progress (Goal := fun _ => False) f (f n1) n1 (Nat.le_refl _)
      (fun m hm => by
        refine .inr (.inr ?_)
        obtain ⟨c1, q1, q2, q3, -, -⟩ := go (Nat.le_refl n) hc ht hk m (by omega)
        obtain ⟨r1, r2⟩ := hready m c1 hm q1
        cases ha : act m with
        | none => simp only [f, X.idle _ ha]; exact Nat.le_refl _
        | some x =>
          rcases call_frame (hI m) q1 (X.next m x ha).2 with h' | ⟨rfl, r, -, -⟩ | ⟨k', a, y, rfl, -⟩
          · simp only [f, q1, h']; exact Nat.le_refl _
          · obtain ⟨s', p1, p2⟩ := call_move (hI m) (by rw [q2]; exact hN m) hw q1 (by rw [q2]; exact r2)
            rw [(X.next m _ ha).2] at p1; injection p1 with p1; subst p1
            rcases p2 with hf | ⟨c', p2, p3⟩
            · rw [q2, q3] at hf; exact absurd hf (hno _ (by omega))
            · simp only [f, q1, p2]; omega
          · exact absurd trivial r1)
      (fun m hm => by
        obtain ⟨i, i1, i2⟩ := F.threads j m
        obtain ⟨c1, q1, q2, q3, -, -⟩ := go (Nat.le_refl n) hc ht hk i (by omega)
        obtain ⟨r1, r2⟩ := hready i c1 (by omega) q1
        obtain ⟨s', p1, p2⟩ := call_move (hI i) (by rw [q2]; exact hN i) hw q1 (by rw [q2]; exact r2)
        refine ⟨i, i1, .inr (.inr ?_)⟩
        rcases i2 with ha | hn
        · rw [(X.next i _ ha).2] at p1; injection p1 with p1; subst p1
          rcases p2 with hf | ⟨c', p2, p3⟩
          · rw [q2, q3] at hf; exact absurd hf (hno _ (by omega))
          · simp only [f, q1, p2]; exact p3
        · rw [hn] at p1; cases p1)
    exact hF
  -- it never gets to freeing
  have nofree : ∀ m c', n ≤ m → (st m).call j = some c' → c'.phase ≠ .freeing := by
    intro m c' hm h1 hp
    obtain ⟨c0, q1, q2, q3, -, -⟩ := go (Nat.le_refl n) hc ht hk m hm
    rw [h1] at q1; injection q1 with q1; subst q1
    refine down m hm fun i ci hi hci => ?_
    obtain ⟨c2, p1, -, -, p4, -⟩ := go hm h1 q2 q3 i hi
    rw [hci] at p1; injection p1 with p1; subst p1
    have := p4 hp
    exact ⟨by cases ci <;> simp [Call.phase, Call.isBlocked] at this ⊢, by simp [this]⟩
  -- it gets to waiting
  have wait : ∃ n1 c1, n ≤ n1 ∧ (st n1).call j = some c1 ∧ c1.target = h ∧ c1.kind = k ∧ c1.phase ≠ .start := by
    refine Classical.byContradiction fun hw' => down n (Nat.le_refl _) fun i ci hi hci => ?_
    obtain ⟨c2, p1, p2, p3, -, -⟩ := go (Nat.le_refl n) hc ht hk i hi
    rw [hci] at p1; injection p1 with p1; subst p1
    have : ci.phase = .start := Classical.byContradiction fun hp => hw' ⟨i, ci, hi, hci, p2, p3, hp⟩
    exact ⟨by cases ci <;> simp [Call.phase, Call.isBlocked] at this ⊢, by simp [this]⟩
  obtain ⟨n1, c1, hn1, hc1, ht1, hk1, hp1⟩ := wait
  have waiting : ∀ m, n1 ≤ m → ∃ c', (st m).call j = some c' ∧ c'.target = h ∧ c'.kind = k ∧ c'.phase = .waiting := by
    intro m hm
    obtain ⟨c', q1, q2, q3, -, q5⟩ := go hn1 hc1 ht1 hk1 m hm
    have h1 := q5 hp1
    have h2 := nofree m c' (by omega) q1
    exact ⟨c', q1, q2, q3, by cases c' <;> simp [Call.phase] at h1 h2 ⊢⟩
  -- the target exits
  have hex : ∃ n2 T, n1 ≤ n2 ∧ (st n2).thr h = some T ∧ T.stage.rank ≤ 10 := by
    cases hkk : k with
    | join =>
      obtain ⟨n2, T, h1, h2⟩ := hexit hkk
      obtain ⟨T', q1, q2⟩ := X.stays (Q := fun s => ∃ T, s.thr h = some T ∧ T.stage.rank ≤ 10) ⟨T, h1, h2⟩
        (fun m x _ ha ⟨T, q1, q2⟩ => by
          obtain ⟨T', p1, p2⟩ := rank_step (hI m) q1 q2 (X.next m x ha).2
          exact ⟨T', p1, Nat.le_trans p2 q2⟩) (max n1 n2) (Nat.le_max_right _ _)
      exact ⟨_, T', Nat.le_max_left _ _, q1, q2⟩
    | detach =>
      obtain ⟨c', q1, q2, q3, q4⟩ := waiting n1 (Nat.le_refl _)
      have C := (hI n1).callOk _ _ q1
      obtain ⟨H, hH, hHa, -⟩ := C.target
      have G := ((hI n1).ok _ _ hH).good
      rw [C.cons, q3, q4, hkk] at G
      exact ⟨n1, H, Nat.le_refl _, by rw [← q2]; exact hH, G.detachWaiting⟩
  obtain ⟨n2, T, hn2, hT, hr⟩ := hex
  obtain ⟨n3, hn3, hd⟩ := exit_completes X F hI hT hr (Stop := fun _ => False) fun m hm => by
    refine .inr fun T1 hT1 _ _ _ => .inl ?_
    obtain ⟨c', q1, q2, q3, q4⟩ := waiting m (by omega)
    have C := (hI m).callOk _ _ q1
    have G := ((hI m).ok _ _ hT1).good
    have hcons := C.cons
    rw [q2, q4] at hcons
    rw [hcons] at G
    obtain ⟨r, hr, -⟩ := G.waitRec
    rw [hr]; simp
  have hd := hd.resolve_left id
  refine down n3 (by omega) fun i ci hi hci => ?_
  have hdi : Done (st i) h := X.stays (Q := fun s => Done s h) hd (fun m x _ ha hd => done_step (hI m) hd (X.next m x ha).2) i hi
  refine ⟨fun hb => ?_, fun _ => hdi⟩
  obtain ⟨c', q1, q2, -, -⟩ := waiting i (by omega)
  rw [hci] at q1; injection q1 with q1; subst q1
  cases ci with
  | blocked k' a y =>
    obtain ⟨H, h1, -, h3⟩ := ((hI i).callOk _ _ hci).target
    rw [q2] at h1
    obtain ⟨T, p1, p2⟩ := hdi
    rw [h1] at p1; injection p1 with p1; subst p1
    exact h3.elim (by rw [hN i _ h1]; simp) (· p2)
  | _ => exact hb

end

end Origin.Life
