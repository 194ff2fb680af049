import Verif.Proof.ForkProc
import Verif.Spec.Unwind
/-!
# The invariants of the process model in the presence of panics
-/

namespace Origin.Proc

set_option linter.unusedSimpArgs false

variable {c : Cfg} {s s' : State} {u u' : UState}

/-- `t` leaves the `exit` call `e`, which was running `fn` and was made by `g`. -/
inductive LeavesAt (s : State) (t : Tid) (e : Exit) (fn : Fn) (g : Fn) (below : List Frame) : Prop
  | thr (f v) : fn = .tdtor f → s.stk t = .user fn :: .exitThr e v :: .user g :: below → LeavesAt s t e fn g below
  | prog (f v) : fn = .pdtor f → s.stk t = .user fn :: .exitLock e v :: .user g :: below → LeavesAt s t e fn g below

/-- The steps, by cases. -/
inductive UTr (c : Cfg) (u : UState) : UAct → UState → Prop
  | act (x s') : step c u.s x = some s' → UTr c u (.act x) { u with s := s' }
  | leave (t e fn g below) : LeavesAt u.s t e fn g below → UTr c u (.panic t) { u with s := u.s.setStk t (.user g :: below), left := (e, fn) :: u.left }
  | abort (t fn rest) : u.s.stk t = .user fn :: rest → UTr c u (.panic t) { u with aborted := true }

theorem ustep_tr {x : UAct} (h : ustep c u x = some u') : u.aborted = false ∧ UTr c u x u' := by
  unfold ustep at h
  split at h
  · cases h
  next ha =>
  refine ⟨by simpa using ha, ?_⟩
  split at h
  · next x =>
    cases hs : step c u.s x with
    | none => rw [hs] at h; cases h
    | some s1 => rw [hs] at h; simp only [Option.map] at h; cases h; exact .act x s1 hs
  · next t =>
    split at h
    · cases h
    next hd =>
    split at h
    · next fn rest hs =>
      cases h
      unfold UState.unwind
      split
      · next f e v g below => exact .leave t e _ g below (.thr f v rfl hs)
      · next f e v g below => exact .leave t e _ g below (.prog f v rfl hs)
      · exact .abort t _ _ hs
    · cases h

/-- What leaving an `exit` call does to the stack. -/
theorem LeavesAt.shape {t : Tid} {e : Exit} {fn g : Fn} {below : List Frame} (h : LeavesAt s t e fn g below) :
    ∃ fr, s.stk t = .user fn :: fr :: .user g :: below ∧ fr.inst = some e ∧ fr.crit = false ∧ fr.holds = none ∧ fn ≠ .main ∧ fn ≠ .start := by
  cases h with
  | thr f v h1 h2 => subst h1; exact ⟨_, h2, rfl, rfl, rfl, by simp, by simp⟩
  | prog f v h1 h2 => subst h1; exact ⟨_, h2, rfl, rfl, rfl, by simp, by simp⟩

theorem SInv.leave {t : Tid} {e : Exit} {fn g : Fn} {below : List Frame} (I : SInv c s) (h : LeavesAt s t e fn g below) :
    SInv c (s.setStk t (.user g :: below)) := by
  obtain ⟨fr, hs, -, -, -, -, -⟩ := h.shape
  have Sh := I.shape t; rw [hs] at Sh
  refine I.upd hs rfl rfl Sh.tail.tail ?_
  intro x hx _
  left; rw [hs]
  exact List.mem_cons_of_mem _ (List.mem_cons_of_mem _ hx)

theorem LInv.leave {t : Tid} {e : Exit} {fn g : Fn} {below : List Frame} (I : LInv c s) (h : LeavesAt s t e fn g below) :
    LInv c (s.setStk t (.user g :: below)) := by
  obtain ⟨fr, hs, -, hc, -, -, -⟩ := h.shape
  refine I.upd (t := t) rfl rfl (fun _ _ => Iff.rfl) ?_ ?_
  · intro x hx _
    left; rw [hs]
    exact List.mem_cons_of_mem _ (List.mem_cons_of_mem _ hx)
  · intro x hx hxc
    rw [hs] at hx
    rcases List.mem_cons.mp hx with rfl | hx
    · cases hxc
    rcases List.mem_cons.mp hx with rfl | hx
    · rw [hc] at hxc; cases hxc
    · exact ⟨x, hx, hxc⟩

theorem TInv.leave {t : Tid} {l : List Frame} (I : TInv c s) : TInv c (s.setStk t l) := I.congr rfl rfl (Nat.le_refl _)

theorem PInv.leave {t : Tid} {e : Exit} {fn g : Fn} {below : List Frame} (I : PInv c s) (h : LeavesAt s t e fn g below) :
    PInv c (s.setStk t (.user g :: below)) := by
  obtain ⟨fr, hs, -, -, hh, -, -⟩ := h.shape
  refine I.upd (t := t) [] rfl rfl (Nat.le_refl _) rfl (by simp) I.tr ?_ ?_
  · intro x hx _
    rw [hs]
    exact List.mem_cons_of_mem _ (List.mem_cons_of_mem _ hx)
  · intro fr' rest' h1 h2
    rw [hs] at h1; cases h1; exact absurd rfl h2

theorem WInv.leave {t : Tid} {e : Exit} {fn g : Fn} {below : List Frame} (I : WInv c s) (h : LeavesAt s t e fn g below) :
    WInv c (s.setStk t (.user g :: below)) := by
  obtain ⟨fr, hs, -, -, -, -, -⟩ := h.shape
  refine I.upd (t := t) [] hs rfl rfl (by simp) ?_
  intro f hx
  rw [hs]
  exact List.mem_cons_of_mem _ (List.mem_cons_of_mem _ hx)

theorem RInv.leave {t : Tid} {e : Exit} {fn g : Fn} {below : List Frame} (I : RInv s) (h : LeavesAt s t e fn g below) :
    RInv (s.setStk t (.user g :: below)) := by
  obtain ⟨fr, hs, -, -, -, -, -⟩ := h.shape
  refine ⟨fun t' h' => ?_, I.all⟩
  obtain ⟨h1, h2⟩ := I.gone t' h'
  refine ⟨?_, h2⟩
  simp only [State.setStk]
  split
  · next ht => subst ht; rw [hs] at h1; cases h1
  · exact h1

theorem BInv.leave {n : Nat} {t : Tid} {e : Exit} {fn g : Fn} {below : List Frame} (I : BInv c n s) (S : SInv c s)
    (h : LeavesAt s t e fn g below) : BInv c n (s.setStk t (.user g :: below)) := by
  obtain ⟨fr, hs, -, -, -, -, -⟩ := h.shape
  refine I.upd S (t := t) [] hs (by simp) rfl rfl (by simp) ?_
  rintro rfl
  left; rw [hs]; simp [List.getLast?_cons_cons]

theorem nest_leave {t : Tid} {e : Exit} {fn g : Fn} {below : List Frame} (I : ∀ t, Nest (s.stk t)) (h : LeavesAt s t e fn g below) :
    ∀ t', Nest ((s.setStk t (.user g :: below)).stk t') := by
  obtain ⟨fr, hs, -, -, -, -, -⟩ := h.shape
  intro t'
  simp only [State.setStk]
  split
  · next ht => have := I t; rw [hs] at this; exact this.1.1
  · exact I t'

theorem TraceOk.mono {α : Type} {P Q : α → List α → Prop} (h : ∀ x l, P x l → Q x l) : ∀ {l : List α}, TraceOk P l → TraceOk Q l
  | [], _ => trivial
  | _ :: _, hl => ⟨h _ _ hl.1, hl.2.mono h⟩

theorem GOk.mono {n : Nat} {K K' : Exit → Prop} (h : ∀ e, K e → K' e) (x : Ev) (l : List Ev) (g : GOk c n K x l) : GOk c n K' x l := by
  cases x <;> first | trivial | exact ⟨g.1, g.2.1, fun e' v' he => (g.2.2 e' v' he).imp (h e') id⟩

theorem EInv.congrK {n : Nat} {K K' : Exit → Prop} (h : ∀ e, K e ↔ K' e) (I : EInv c n K s) : EInv c n K' s := by
  have : K = K' := funext fun e => propext (h e)
  rw [← this]; exact I

theorem EInv.leave {n : Nat} {K : Exit → Prop} {t : Tid} {e : Exit} {fn g : Fn} {below : List Frame} (I : EInv c n K s)
    (h : LeavesAt s t e fn g below) : EInv c n (fun e' => e' = e ∨ K e') (s.setStk t (.user g :: below)) := by
  obtain ⟨fr, hs, hi, -, -, -, -⟩ := h.shape
  have hin : insts (s.stk t) = e :: insts (.user g :: below) := by
    rw [hs]; unfold insts; rw [List.filterMap_cons_none rfl, List.filterMap_cons_some hi]
  have hsub : ∀ t' e', e' ∈ insts ((s.setStk t (.user g :: below)).stk t') → e' ∈ insts (s.stk t') := by
    intro t' e' he
    simp only [State.setStk] at he
    split at he
    · next ht => subst ht; rw [hin]; exact List.mem_cons_of_mem _ he
    · exact he
  have hsup : ∀ t' e', e' ∈ insts (s.stk t') → e' = e ∨ e' ∈ insts ((s.setStk t (.user g :: below)).stk t') := by
    intro t' e' he
    simp only [State.setStk]
    split
    · next ht => subst ht; rw [hin] at he; exact List.mem_cons.mp he
    · exact .inr he
  constructor
  · intro t'
    simp only [State.setStk]
    split
    · next ht => have := I.desc t; rw [hin] at this; exact (List.pairwise_cons.mp this).2
    · exact I.desc t'
  · intro t' e' he; exact I.lt t' e' (hsub t' e' he)
  · intro t1 t2 e' h1 h2; exact I.dis t1 t2 e' (hsub _ _ h1) (hsub _ _ h2)
  · intro t' fr' hf
    simp only [State.setStk] at hf
    split at hf
    · next ht =>
      subst ht
      exact I.form t' fr' (by rw [hs]; exact List.mem_cons_of_mem _ (List.mem_cons_of_mem _ hf))
    · exact I.form t' fr' hf
  · intro e' he
    rcases I.cover e' he with h1 | ⟨t', ht'⟩
    · exact .inl (.inr h1)
    · rcases hsup t' e' ht' with h1 | h1
      · exact .inl (.inl h1)
      · exact .inr ⟨t', h1⟩
  · intro t' e' v he
    rcases I.begun t' e' v he with h1 | ht'
    · exact .inl (.inr h1)
    · rcases hsup t' e' ht' with h1 | h1
      · exact .inl (.inl h1)
      · exact .inr h1
  · rintro e' (rfl | he)
    · have he : e' ∈ insts (s.stk t) := by rw [hin]; exact List.mem_cons_self
      refine ⟨I.lt t e' he, ?_, ?_⟩
      · intro t' ht'
        have htt := I.dis t t' e' he (hsub _ _ ht')
        subst htt
        simp only [State.setStk, if_self] at ht'
        have := I.desc t; rw [hin] at this
        exact Nat.lt_irrefl _ ((List.pairwise_cons.mp this).1 e' ht')
      · have F := I.form t fr (by rw [hs]; simp)
        cases h with
        | thr f v h1 h2 =>
          rw [hs] at h2; cases h2
          obtain ⟨ts, hts⟩ := F
          exact ⟨t, v, .inl ⟨ts, hts⟩⟩
        | prog f v h1 h2 =>
          rw [hs] at h2; cases h2
          obtain ⟨ts, ps, hts⟩ := F
          exact ⟨t, v, .inr ⟨ts, ps, hts⟩⟩
    · obtain ⟨l1, l2, l3⟩ := I.left e' he
      exact ⟨l1, fun t' h' => l2 t' (hsub _ _ h'), l3⟩
  · exact I.alive
  · exact I.tr.mono (GOk.mono fun e' h => .inr h)

/-- Everything but what needs the arrays to be well-formed. -/
structure UInv (c : Cfg) (u : UState) : Prop where
  S : SInv c u.s
  L : LInv c u.s
  T : TInv c u.s
  P : PInv c u.s
  W : WInv c u.s
  R : RInv u.s
  O : TraceOk OnOk u.s.log ∧ (u.s.dead = false → ∀ t e v, Ev.group t e v ∉ u.s.log)
  N : ∀ t, Nest (u.s.stk t)

theorem UInv.step {x : UAct} (I : UInv c u) (h : ustep c u x = some u') : UInv c u' := by
  cases (ustep_tr h).2 with
  | act x s' hs =>
    obtain ⟨hd, tr⟩ := step_tr hs
    exact ⟨I.S.step tr, I.L.step I.S tr, I.T.step tr, I.P.step I.S I.L tr, I.W.step I.L tr, I.R.step I.S I.T tr, onok_step I.O I.R hd tr,
      nest_step I.N tr⟩
  | leave t e fn g below hl =>
    exact ⟨I.S.leave hl, I.L.leave hl, I.T.leave, I.P.leave hl, I.W.leave hl, I.R.leave hl, I.O, nest_leave I.N hl⟩
  | abort t fn rest hs => exact ⟨I.S, I.L, I.T, I.P, I.W, I.R, I.O, I.N⟩

theorem UInv.init (c : Cfg) : UInv c uinit :=
  ⟨Reach.init.sinv, Reach.init.linv, Reach.init.tinv, Reach.init.pinv, Reach.init.winv, (Reach.init (c := c)).rinv, (Reach.init (c := c)).onok,
    (Reach.init (c := c)).nest⟩

theorem UReach.inv (h : UReach c u) : UInv c u := by
  induction h with
  | init => exact UInv.init c
  | step _ hs ih => exact ih.step hs

theorem UReach.binv {n m : Nat} (hok : c.Ok n m) (h : UReach c u) : BInv c n u.s := by
  induction h with
  | init => exact Reach.init.binv hok
  | step hr hs ih =>
    cases (ustep_tr hs).2 with
    | act x s' hs1 => exact ih.step hok hr.inv.S (step_tr hs1).2
    | leave t e fn g below hl => exact ih.leave hr.inv.S hl
    | abort => exact ih

theorem UReach.einv {n m : Nat} (hok : c.Ok m n) (h : UReach c u) : EInv c n u.Left u.s := by
  induction h with
  | init => exact (Reach.init.einv hok).congrK fun e => by simp [UState.Left, uinit]
  | @step u u' x hr hs ih =>
    cases (ustep_tr hs).2 with
    | act x s' hs1 =>
      obtain ⟨hd, tr⟩ := step_tr hs1
      exact ih.step hok hr.inv.S hd tr
    | leave t e fn g below hl =>
      refine (ih.leave hl).congrK fun e' => ?_
      simp only [UState.Left, List.mem_cons, Prod.mk.injEq]
      constructor
      · rintro (rfl | ⟨f, h⟩)
        · exact ⟨fn, .inl ⟨rfl, rfl⟩⟩
        · exact ⟨f, .inr h⟩
      · rintro ⟨f, ⟨h, -⟩ | h⟩
        · exact .inl h
        · exact .inr ⟨f, h⟩
    | abort => exact ih

end Origin.Proc
