import Verif.Proof.Process2
/-! # Shape of the stacks; the lock -/

namespace Origin.Proc

/-- Frames that can have another frame above them. -/
def Frame.under : Frame → Bool
  | .user _ | .init _ | .thrLoop | .exitThr .. | .exitLock .. | .exitFini .. => true
  | _ => false

/-- Frames only found at the bottom. -/
def Frame.bottom : Frame → Bool
  | .entry | .init _ | .user .main | .user .start | .thrLoop => true
  | _ => false

/-- Exit frames. -/
def Frame.inst : Frame → Option Exit
  | .exitThr e _ | .exitLock e _ | .exitPop e _ | .exitUnlock e _ _ | .exitCall e _ _ | .exitFini e _ _ | .exitImm e _ => some e
  | _ => none

/-- Frames found at the bottom. -/
def Frame.base (fr : Frame) : Bool := fr.bottom || fr.inst.isSome

/-- Frames of program startup. -/
def Frame.booting : Frame → Bool
  | .entry | .init _ | .user .main => true
  | _ => false

/-- Frames inside the locked regions. -/
def Frame.crit : Frame → Bool
  | .regPush | .regUnlock _ | .exitPop .. | .exitUnlock .. => true
  | _ => false

/-- A good stack. -/
def Shape : List Frame → Prop
  | [] => True
  | [fr] => fr.base = true
  | fr :: fr' :: rest => fr.bottom = false ∧ fr'.under = true ∧ Shape (fr' :: rest)

theorem Shape.tail {fr : Frame} {l : List Frame} (h : Shape (fr :: l)) : Shape l := by
  cases l with
  | nil => trivial
  | cons a l => exact h.2.2

/-- Replacing the top frame. -/
theorem Shape.top {fr fr' : Frame} {l : List Frame} (h : Shape (fr :: l)) (h1 : fr'.base = true)
    (h2 : fr.bottom = false → fr'.bottom = false) : Shape (fr' :: l) := by
  cases l with
  | nil => exact h1
  | cons a l => exact ⟨h2 h.1, h.2⟩

theorem Shape.push {fr fr' : Frame} {l : List Frame} (h : Shape (fr :: l)) (h1 : fr.under = true)
    (h2 : fr'.bottom = false) : Shape (fr' :: fr :: l) := ⟨h2, h1, h⟩

/-- Popping a frame which is not a base. -/
theorem Shape.pop {fr : Frame} {l : List Frame} (h : Shape (fr :: l)) (h1 : fr.base = false) : ∃ a r, l = a :: r ∧ a.under = true := by
  cases l with
  | nil => simp [Shape] at h; rw [h1] at h; cases h
  | cons a l => exact ⟨a, l, rfl, h.2.1⟩

theorem Shape.bottom_nil {fr : Frame} {l : List Frame} (h : Shape (fr :: l)) (h1 : fr.bottom = true) : l = [] := by
  cases l with
  | nil => rfl
  | cons a l => rw [h.1] at h1; cases h1

theorem Shape.tail_under {fr : Frame} {l : List Frame} (h : Shape (fr :: l)) : ∀ x ∈ l, x.under = true := by
  induction l generalizing fr with
  | nil => simp
  | cons a l ih =>
    intro x hx
    rcases List.mem_cons.mp hx with rfl | hx
    · exact h.2.1
    · exact ih h.2.2 x hx

theorem Frame.under_not_crit {fr : Frame} (h : fr.under = true) : fr.crit = false := by
  cases fr <;> simp_all [Frame.under, Frame.crit]

structure SInv (c : Cfg) (s : State) : Prop where
  shape : ∀ t, Shape (s.stk t)
  new : ∀ t, s.nextT ≤ t → s.stk t = []
  pos : 0 < s.nextT
  single : c.thread = false → s.nextT = 1
  boot : ∀ t fr, fr ∈ s.stk t → fr.booting = true → t = 0

theorem SInv.init (c : Cfg) : SInv c init := by
  constructor
  · intro t; simp only [Proc.init]; split <;> simp [Shape, Frame.base, Frame.bottom]
  · intro t ht; simp only [Proc.init] at ht ⊢; rw [if_neg (by intro h; subst h; simp at ht)]
  · simp [Proc.init]
  · simp [Proc.init]
  · intro t fr h; simp only [Proc.init] at h; split at h
    · next h0 => intro _; exact h0
    · cases h

/-- Changing one thread's stack. -/
theorem SInv.upd {c : Cfg} {s s' : State} (I : SInv c s) {t : Tid} {fr : Frame} {rest l : List Frame}
    (hs : s.stk t = fr :: rest) (h1 : s'.stk = fun x => if x = t then l else s.stk x) (h2 : s'.nextT = s.nextT)
    (hl : Shape l) (hb : ∀ x ∈ l, x.booting = true → x ∈ s.stk t ∨ fr.booting = true) : SInv c s' := by
  constructor
  · intro t'; rw [h1]; simp only; split
    · exact hl
    · exact I.shape t'
  · intro t' ht'
    rw [h2] at ht'
    rw [h1]; simp only; split
    · next h => subst h; rw [I.new t' ht'] at hs; cases hs
    · exact I.new t' ht'
  · rw [h2]; exact I.pos
  · rw [h2]; exact I.single
  · intro t' x hx hbx
    rw [h1] at hx
    simp only at hx
    split at hx
    · next h =>
      subst h
      rcases hb x hx hbx with h | h
      · exact I.boot _ _ h hbx
      · exact I.boot t' fr (by rw [hs]; simp) h
    · exact I.boot _ _ hx hbx

theorem SInv.same {c : Cfg} {s s' : State} (I : SInv c s) (h1 : s'.stk = s.stk) (h2 : s'.nextT = s.nextT) : SInv c s' :=
  ⟨by rw [h1]; exact I.shape, by rw [h1, h2]; exact I.new, by rw [h2]; exact I.pos, by rw [h2]; exact I.single,
    by rw [h1]; exact I.boot⟩

theorem SInv.step {c : Cfg} {s s' : State} (I : SInv c s) (h : Tr c s s') : SInv c s' := by
  cases h with
  | spawn t fn rest hs hc =>
    constructor
    · intro t'
      simp only [State.ev, State.setStk]; split
      · simp [Shape, Frame.base, Frame.bottom]
      · exact I.shape t'
    · intro t' ht'
      simp only [State.ev, State.setStk] at ht' ⊢
      rw [if_neg (by intro h; subst h; exact absurd ht' (Nat.not_succ_le_self _))]
      exact I.new t' (Nat.le_of_succ_le ht')
    · exact Nat.succ_pos _
    · intro h; rw [hc] at h; cases h
    · intro t' fr hm hb
      simp only [State.ev, State.setStk] at hm; split at hm
      · simp at hm; subst hm; simp [Frame.booting] at hb
      · exact I.boot _ _ hm hb
  | regThr t fn rest hs hc => exact I.same rfl rfl
  | group t rest e st hs hd => exact I.same rfl rfl
  | regProg t fn rest hs hc =>
    have S := I.shape t; rw [hs] at S
    exact I.upd hs rfl rfl (S.push rfl rfl) (by rw [hs]; grind [Frame.booting])
  | exit t fn rest st hs =>
    have S := I.shape t; rw [hs] at S
    exact I.upd hs rfl rfl (S.push rfl rfl) (by rw [hs]; grind [Frame.booting])
  | imm t fn rest st hs =>
    have S := I.shape t; rw [hs] at S
    exact I.upd hs rfl rfl (S.push rfl rfl) (by rw [hs]; grind [Frame.booting])
  | retMain t rest st hs =>
    have S := I.shape t; rw [hs] at S
    exact I.upd hs rfl rfl (S.top rfl (fun _ => rfl)) (by rw [hs]; grind [Frame.booting])
  | retStart t rest hs =>
    have S := I.shape t; rw [hs] at S
    exact I.upd hs rfl rfl (S.top rfl (fun h => by simp [Frame.bottom] at h)) (by rw [hs]; grind [Frame.booting])
  | ret t fn rest hs h1 h2 =>
    have S := I.shape t; rw [hs] at S
    exact I.upd hs rfl rfl S.tail (by rw [hs]; grind [Frame.booting])
  | entry t rest hs =>
    have S := I.shape t; rw [hs] at S
    exact I.upd hs rfl rfl (S.top rfl (fun h => by simp [Frame.bottom] at h)) (by rw [hs]; grind [Frame.booting])
  | initEnd t rest hs =>
    have S := I.shape t; rw [hs] at S
    exact I.upd hs rfl rfl (S.top rfl (fun h => by simp [Frame.bottom] at h)) (by rw [hs]; grind [Frame.booting])
  | init t p rest hs hp =>
    have S := I.shape t; rw [hs] at S
    have S' : Shape (.init (p + c.ws) :: rest) := S.top rfl (fun h => by simp [Frame.bottom] at h)
    exact I.upd hs rfl rfl (S'.push rfl rfl) (by rw [hs]; grind [Frame.booting])
  | thrCall t rest f fs hs hc ht =>
    have S := I.shape t; rw [hs] at S
    exact I.upd hs rfl rfl (S.push rfl rfl) (by rw [hs]; grind [Frame.booting])
  | thrEnd t rest hs ht => exact I.upd hs rfl rfl trivial (by simp)
  | regLock t rest s1 hs ha =>
    have S := I.shape t; rw [hs] at S
    obtain ⟨h0, -, -, h1, -⟩ := acquire_fields ha
    obtain ⟨a, r, rfl, -⟩ := S.pop rfl
    exact I.upd (l := .regPush :: a :: r) hs (by rw [← h0]; rfl) h1 ⟨rfl, S.2⟩ (by rw [hs]; grind [Frame.booting])
  | regPush t rest hs =>
    have S := I.shape t; rw [hs] at S
    obtain ⟨a, r, rfl, -⟩ := S.pop rfl
    exact I.upd hs rfl rfl ⟨rfl, S.2⟩ (by rw [hs]; grind [Frame.booting])
  | regUnlock t rest f hs =>
    have S := I.shape t; rw [hs] at S
    obtain ⟨h0, -, -, h1, -⟩ := release_fields c s
    exact I.upd hs (by rw [← h0]; rfl) h1 S.tail (by rw [hs]; grind [Frame.booting])
  | exitThrCall t rest e st f fs hs hc ht =>
    have S := I.shape t; rw [hs] at S
    exact I.upd hs rfl rfl (S.push rfl rfl) (by rw [hs]; grind [Frame.booting])
  | exitThr t rest e st hs ht =>
    have S := I.shape t; rw [hs] at S
    exact I.upd hs rfl rfl (S.top rfl (fun _ => rfl)) (by rw [hs]; grind [Frame.booting])
  | exitLock t rest e st s1 hs hc ha =>
    have S := I.shape t; rw [hs] at S
    obtain ⟨h0, -, -, h1, -⟩ := acquire_fields ha
    exact I.upd hs (by rw [← h0]; rfl) h1 (S.top rfl (fun _ => rfl)) (by rw [hs]; grind [Frame.booting])
  | exitNoLock t rest e st hs hc =>
    have S := I.shape t; rw [hs] at S
    exact I.upd hs rfl rfl (S.top rfl (fun _ => rfl)) (by rw [hs]; grind [Frame.booting])
  | exitPop t rest e st f fs hs hd =>
    have S := I.shape t; rw [hs] at S
    exact I.upd hs rfl rfl (S.top rfl (fun _ => rfl)) (by rw [hs]; grind [Frame.booting])
  | exitPopEnd t rest e st hs hd =>
    have S := I.shape t; rw [hs] at S
    exact I.upd hs rfl rfl (S.top rfl (fun _ => rfl)) (by rw [hs]; grind [Frame.booting])
  | exitUnlock t rest e st f hs =>
    have S := I.shape t; rw [hs] at S
    obtain ⟨h0, -, -, h1, -⟩ := release_fields c s
    exact I.upd hs (by rw [← h0]; rfl) h1 (S.top rfl (fun _ => rfl)) (by rw [hs]; grind [Frame.booting])
  | exitCall t rest e st f hs =>
    have S := I.shape t; rw [hs] at S
    have S' : Shape (.exitLock e st :: rest) := S.top rfl (fun _ => rfl)
    exact I.upd hs rfl rfl (S'.push rfl rfl) (by rw [hs]; grind [Frame.booting])
  | exitFiniEnd t rest e st hs =>
    have S := I.shape t; rw [hs] at S
    exact I.upd hs rfl rfl (S.top rfl (fun _ => rfl)) (by rw [hs]; grind [Frame.booting])
  | exitFini t rest e st p hs hp =>
    have S := I.shape t; rw [hs] at S
    have S' : Shape (.exitFini e st (p - c.ws) :: rest) := S.top rfl (fun _ => rfl)
    exact I.upd hs rfl rfl (S'.push rfl rfl) (by rw [hs]; grind [Frame.booting])

theorem Reach.sinv {c : Cfg} {s : State} (h : Reach c s) : SInv c s := by
  induction h with
  | init => exact SInv.init c
  | step _ hs ih => exact ih.step (step_tr hs).2

/-! ## the lock -/

structure LInv (c : Cfg) (s : State) : Prop where
  pat : ∀ t fr, fr ∈ s.stk t → fr.crit = true ∨ fr = .regLock → c.programAtExit = true
  lk1 : c.thread = true → ∀ t fr, fr ∈ s.stk t → fr.crit = true → s.lock = some t ∧ ¬ PFinished s.log
  lk2 : c.thread = true → ∀ t, s.lock = some t → (∃ fr ∈ s.stk t, fr.crit = true) ∨ ∃ e, Ev.pDone t e ∈ s.log
  lk3 : c.thread = true → c.programAtExit = true → ∀ t e, Ev.pDone t e ∈ s.log → s.lock = some t

theorem LInv.init (c : Cfg) : LInv c init := by
  have h0 : ∀ t fr, fr ∈ Proc.init.stk t → fr = .entry := by
    intro t fr h
    simp only [Proc.init] at h
    split at h <;> simp at h
    exact h
  constructor
  · intro t fr h hc; cases h0 t fr h; simp [Frame.crit] at hc
  · intro _ t fr h hc; cases h0 t fr h; simp [Frame.crit] at hc
  · intro _ t h; simp [Proc.init] at h
  · intro _ _ t e h; simp [Proc.init] at h

/-- A step by `t` outside the locked regions. -/
theorem LInv.upd {c : Cfg} {s s' : State} (I : LInv c s) {t : Tid} {l : List Frame}
    (h1 : s'.stk = fun x => if x = t then l else s.stk x) (h2 : s'.lock = s.lock)
    (h3 : ∀ t e, Ev.pDone t e ∈ s'.log ↔ Ev.pDone t e ∈ s.log)
    (hl : ∀ x ∈ l, (x.crit = true ∨ x = .regLock) → x ∈ s.stk t ∨ (x.crit = true ∧ ∃ y ∈ s.stk t, y.crit = true) ∨
      (x = .regLock ∧ c.programAtExit = true))
    (hl' : ∀ x ∈ s.stk t, x.crit = true → ∃ y ∈ l, y.crit = true) : LInv c s' := by
  have hp : PFinished s'.log ↔ PFinished s.log := by simp only [PFinished, h3]
  constructor
  · intro t' fr hm hc
    rw [h1] at hm; simp only at hm; split at hm
    · rcases hl fr hm hc with h | ⟨-, y, h, hy⟩ | h
      · exact I.pat _ _ h hc
      · exact I.pat _ _ h (.inl hy)
      · exact h.2
    · exact I.pat _ _ hm hc
  · intro hct t' fr hm hc
    rw [h1] at hm; simp only at hm
    rw [h2, hp]
    split at hm
    · next h =>
      subst h
      rcases hl fr hm (.inl hc) with h | ⟨-, y, h, hy⟩ | h
      · exact I.lk1 hct _ _ h hc
      · exact I.lk1 hct _ _ h hy
      · rw [h.1] at hc; cases hc
    · exact I.lk1 hct _ _ hm hc
  · intro hct t' hlk
    rw [h2] at hlk
    rcases I.lk2 hct t' hlk with ⟨fr, hm, hc⟩ | ⟨e, he⟩
    · left
      rw [h1]; simp only; split
      · next h => subst h; exact hl' fr hm hc
      · exact ⟨fr, hm, hc⟩
    · exact .inr ⟨e, (h3 _ _).mpr he⟩
  · intro hct hpa t' e he
    rw [h2]; exact I.lk3 hct hpa t' e ((h3 _ _).mp he)

/-- Taking the lock. -/
theorem LInv.take {c : Cfg} {s s1 : State} (I : LInv c s) (S : SInv c s) {t : Tid} {fr fr' : Frame} {rest : List Frame}
    (hs : s.stk t = fr :: rest) (ha : s.acquire c t = some s1) (hpa : c.programAtExit = true) (hc : fr'.crit = true) :
    LInv c (s1.setStk t (fr' :: rest)) := by
  have Sh := S.shape t; rw [hs] at Sh
  have hu := Sh.tail_under
  have hf := acquire_fields ha
  have hstk : (s1.setStk t (fr' :: rest)).stk = fun x => if x = t then fr' :: rest else s.stk x := by
    rw [← hf.1]; rfl
  have hlog : (s1.setStk t (fr' :: rest)).log = s.log := hf.2.2.2.2.2.2.2
  rcases acquire_some ha with ⟨hct, hl, rfl⟩ | ⟨hct, rfl⟩
  · have nofin : ¬ PFinished s.log := by
      rintro ⟨t', e, h⟩
      have := I.lk3 hct hpa t' e h
      rw [hl] at this; cases this
    have nocrit : ∀ t' x, x ∈ s.stk t' → x.crit = false := by
      intro t' x hx
      cases h : x.crit with
      | false => rfl
      | true => have := (I.lk1 hct t' x hx h).1; rw [hl] at this; cases this
    constructor
    · intro _ _ _ _; exact hpa
    · intro _ t' x hx hxc
      rw [hstk] at hx; simp only at hx; split at hx
      · next h => subst h; exact ⟨rfl, nofin⟩
      · rw [nocrit t' x hx] at hxc; cases hxc
    · intro _ t' ht'
      simp only [State.setStk, Option.some.injEq] at ht'
      subst ht'
      left
      refine ⟨fr', ?_, hc⟩
      rw [hstk]; simp
    · intro _ _ t' e he
      rw [hlog] at he
      exact absurd ⟨t', e, he⟩ nofin
  · constructor
    · intro _ _ _ _; exact hpa
    all_goals (intro h; rw [hct] at h; cases h)

/-- Dropping the lock. -/
theorem LInv.drop {c : Cfg} {s s' : State} (I : LInv c s) {t : Tid} {fr : Frame} {rest l : List Frame}
    (hs : s.stk t = fr :: rest) (hc : fr.crit = true) (hl : ∀ x ∈ l, x.crit = false ∧ x ≠ .regLock)
    (h1 : s'.stk = fun x => if x = t then l else s.stk x) (h2 : s'.lock = (s.release c).lock)
    (h3 : ∀ t e, Ev.pDone t e ∈ s'.log ↔ Ev.pDone t e ∈ s.log) : LInv c s' := by
  have hm : fr ∈ s.stk t := by rw [hs]; simp
  constructor
  · intro t' x hx hxc
    rw [h1] at hx; simp only at hx; split at hx
    · have := hl x hx; rcases hxc with h | h
      · rw [this.1] at h; cases h
      · exact absurd h this.2
    · exact I.pat _ _ hx hxc
  · intro hct t' x hx hxc
    exfalso
    obtain ⟨hlk, -⟩ := I.lk1 hct t fr hm hc
    rw [h1] at hx; simp only at hx; split at hx
    · rw [(hl x hx).1] at hxc; cases hxc
    · next hne =>
      have := (I.lk1 hct t' x hx hxc).1
      rw [hlk] at this
      injection this with this; exact hne this.symm
  · intro hct t' hlk
    rw [h2] at hlk
    simp [State.release, hct] at hlk
  · intro hct hpa t' e he
    exact absurd ⟨t', e, (h3 _ _).mp he⟩ (I.lk1 hct t fr hm hc).2

theorem LInv.step {c : Cfg} {s s' : State} (I : LInv c s) (S : SInv c s) (h : Tr c s s') : LInv c s' := by
  cases h with
  | spawn t fn rest hs hc =>
    refine I.upd (t := s.nextT) (l := [.user .start]) rfl rfl (by simp [State.ev, State.setStk]) (by simp [Frame.crit]) ?_
    intro x hx; rw [S.new _ (Nat.le_refl _)] at hx; cases hx
  | regThr t fn rest hs hc =>
    exact I.upd (t := t) (l := s.stk t) (by funext x; simp only [State.ev, State.setTd]; split <;> simp_all) rfl
      (by simp [State.ev, State.setTd]) (fun x hx _ => .inl hx) (fun x hx hc => ⟨x, hx, hc⟩)
  | group t rest e st hs hd =>
    exact I.upd (t := t) (l := s.stk t) (by funext x; simp only [State.ev]; split <;> simp_all) rfl
      (by simp [State.ev]) (fun x hx _ => .inl hx) (fun x hx hc => ⟨x, hx, hc⟩)
  | regProg t fn rest hs hc =>
    exact I.upd rfl rfl (by simp [State.setStk]) (by rw [hs]; grind [Frame.crit]) (by rw [hs]; grind [Frame.crit])
  | exit t fn rest st hs =>
    exact I.upd rfl rfl (by simp [State.beginExit, State.ev, State.setStk]) (by rw [hs]; grind [Frame.crit]) (by rw [hs]; grind [Frame.crit])
  | imm t fn rest st hs =>
    exact I.upd rfl rfl (by simp [State.ev, State.setStk]) (by rw [hs]; grind [Frame.crit]) (by rw [hs]; grind [Frame.crit])
  | retMain t rest st hs =>
    exact I.upd rfl rfl (by simp [State.beginExit, State.ev, State.setStk]) (by rw [hs]; grind [Frame.crit]) (by rw [hs]; grind [Frame.crit])
  | retStart t rest hs =>
    exact I.upd rfl rfl (by simp [State.setStk]) (by rw [hs]; grind [Frame.crit]) (by rw [hs]; grind [Frame.crit])
  | ret t fn rest hs h1 h2 =>
    exact I.upd rfl rfl (by simp [State.setStk]) (by rw [hs]; grind [Frame.crit]) (by rw [hs]; grind [Frame.crit])
  | entry t rest hs =>
    exact I.upd rfl rfl (by simp [State.ev, State.setStk]) (by rw [hs]; grind [Frame.crit]) (by rw [hs]; grind [Frame.crit])
  | initEnd t rest hs =>
    exact I.upd rfl rfl (by simp [State.ev, State.setStk]) (by rw [hs]; grind [Frame.crit]) (by rw [hs]; grind [Frame.crit])
  | init t p rest hs hp =>
    exact I.upd rfl rfl (by simp [State.ev, State.setStk]) (by rw [hs]; grind [Frame.crit]) (by rw [hs]; grind [Frame.crit])
  | thrCall t rest f fs hs hc ht =>
    exact I.upd rfl rfl (by simp [State.ev, State.setStk, State.setTd]) (by rw [hs]; grind [Frame.crit]) (by rw [hs]; grind [Frame.crit])
  | thrEnd t rest hs ht =>
    have Sh := S.shape t; rw [hs] at Sh
    cases Sh.bottom_nil rfl
    exact I.upd rfl rfl (by simp [State.ev, State.setStk]) (by simp) (by rw [hs]; grind [Frame.crit])
  | regLock t rest s1 hs ha =>
    exact I.take S hs ha (I.pat t .regLock (by rw [hs]; simp) (.inr rfl)) rfl
  | regPush t rest hs =>
    exact I.upd rfl rfl (by simp [State.ev, State.setStk]) (by rw [hs]; grind [Frame.crit])
      (fun _ _ _ => ⟨_, List.mem_cons_self, rfl⟩)
  | regUnlock t rest f hs =>
    have Sh := S.shape t; rw [hs] at Sh
    have hu := Sh.tail_under
    obtain ⟨h0, -, -, -, -, -, -, h1⟩ := release_fields c s
    refine I.drop hs rfl (l := rest) ?_ (by rw [← h0]; rfl) rfl (by simp [State.ev, State.setStk])
    intro x hx; exact ⟨Frame.under_not_crit (hu x hx), by rintro rfl; exact absurd (hu _ hx) (by simp [Frame.under])⟩
  | exitThrCall t rest e st f fs hs hc ht =>
    exact I.upd rfl rfl (by simp [State.ev, State.setStk, State.setTd]) (by rw [hs]; grind [Frame.crit]) (by rw [hs]; grind [Frame.crit])
  | exitThr t rest e st hs ht =>
    exact I.upd rfl rfl (by simp [State.ev, State.setStk]) (by rw [hs]; grind [Frame.crit]) (by rw [hs]; grind [Frame.crit])
  | exitLock t rest e st s1 hs hc ha => exact I.take S hs ha hc rfl
  | exitNoLock t rest e st hs hc =>
    have nocrit : ∀ t' x, x ∈ s.stk t' → x.crit = false := by
      intro t' x hx
      cases h : x.crit with
      | false => rfl
      | true => have := I.pat _ _ hx (.inl h); rw [hc] at this; cases this
    have hstk : ∀ t' x, x ∈ ((s.setStk t (.exitFini e st c.finiFirst :: rest)).ev (.pDone t e)).stk t' →
        x ∈ s.stk t' ∨ x = .exitFini e st c.finiFirst := by
      intro t' x hx
      simp only [State.ev, State.setStk] at hx
      split at hx
      · next h => subst h; rw [hs]; grind
      · exact .inl hx
    constructor
    · intro t' x hx hxc
      rcases hstk t' x hx with h | rfl
      · exact I.pat _ _ h hxc
      · simp [Frame.crit] at hxc
    · intro _ t' x hx hxc
      rcases hstk t' x hx with h | rfl
      · rw [nocrit _ _ h] at hxc; cases hxc
      · simp [Frame.crit] at hxc
    · intro hct t' hlk
      rcases I.lk2 hct t' hlk with ⟨x, hx, hxc⟩ | ⟨e', h⟩
      · rw [nocrit _ _ hx] at hxc; cases hxc
      · exact .inr ⟨e', List.mem_cons_of_mem _ h⟩
    · intro _ h; rw [hc] at h; cases h
  | exitPop t rest e st f fs hs hd =>
    refine I.upd rfl rfl (by simp [State.ev, State.setStk]) ?_ (fun _ _ _ => ⟨_, List.mem_cons_self, rfl⟩)
    intro x hx _
    rw [hs]
    rcases List.mem_cons.mp hx with rfl | hx
    · exact .inr (.inl ⟨rfl, _, List.mem_cons_self, rfl⟩)
    · exact .inl (List.mem_cons_of_mem _ hx)
  | exitPopEnd t rest e st hs hd =>
    have hm : Frame.exitPop e st ∈ s.stk t := by rw [hs]; simp
    have hpa := I.pat _ _ hm (.inl rfl)
    have Sh := S.shape t; rw [hs] at Sh
    have hu := Sh.tail_under
    have hstk : ∀ t' x, x ∈ ((s.setStk t (.exitFini e st c.finiFirst :: rest)).ev (.pDone t e)).stk t' →
        (t' ≠ t ∧ x ∈ s.stk t') ∨ (t' = t ∧ x.crit = false) := by
      intro t' x hx
      simp only [State.ev, State.setStk] at hx
      split at hx
      · next h =>
        right; refine ⟨h, ?_⟩
        rcases List.mem_cons.mp hx with rfl | hx
        · rfl
        · exact Frame.under_not_crit (hu x hx)
      · next h => exact .inl ⟨h, hx⟩
    constructor
    · intro _ _ _ _; exact hpa
    · intro hct t' x hx hxc
      exfalso
      rcases hstk t' x hx with ⟨hne, h⟩ | ⟨-, h⟩
      · have a := (I.lk1 hct _ _ h hxc).1
        have b := (I.lk1 hct _ _ hm rfl).1
        rw [a] at b; injection b with b; exact hne b
      · rw [h] at hxc; cases hxc
    · intro hct t' hlk
      have b := (I.lk1 hct _ _ hm rfl).1
      have hlk : s.lock = some t' := hlk
      rw [b] at hlk; injection hlk with hlk; subst hlk
      exact .inr ⟨e, List.mem_cons_self⟩
    · intro hct _ t' e' he
      have b := I.lk1 hct _ _ hm rfl
      simp only [State.ev, State.setStk, List.mem_cons, Ev.pDone.injEq] at he
      rcases he with ⟨rfl, -⟩ | he
      · exact b.1
      · exact absurd ⟨t', e', he⟩ b.2
  | exitUnlock t rest e st f hs =>
    have Sh := S.shape t; rw [hs] at Sh
    have hu := Sh.tail_under
    obtain ⟨h0, -, -, -, -, -, -, h1⟩ := release_fields c s
    refine I.drop hs rfl (l := .exitCall e st f :: rest) ?_ (by rw [← h0]; rfl) rfl (by simp [State.setStk])
    intro x hx
    rcases List.mem_cons.mp hx with rfl | hx
    · exact ⟨rfl, by simp⟩
    · exact ⟨Frame.under_not_crit (hu x hx), by rintro rfl; exact absurd (hu _ hx) (by simp [Frame.under])⟩
  | exitCall t rest e st f hs =>
    exact I.upd rfl rfl (by simp [State.ev, State.setStk]) (by rw [hs]; grind [Frame.crit]) (by rw [hs]; grind [Frame.crit])
  | exitFiniEnd t rest e st hs =>
    exact I.upd rfl rfl (by simp [State.setStk]) (by rw [hs]; grind [Frame.crit]) (by rw [hs]; grind [Frame.crit])
  | exitFini t rest e st p hs hp =>
    exact I.upd rfl rfl (by simp [State.ev, State.setStk]) (by rw [hs]; grind [Frame.crit]) (by rw [hs]; grind [Frame.crit])

theorem Reach.linv {c : Cfg} {s : State} (h : Reach c s) : LInv c s := by
  induction h with
  | init => exact LInv.init c
  | step hr hs ih => exact ih.step hr.sinv (step_tr hs).2

end Origin.Proc
