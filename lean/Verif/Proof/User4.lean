import Verif.Proof.User3
set_option linter.unusedSimpArgs false
/-! # User programs: operations of user code -/

namespace Origin.User
open Proc (Frame Fn PFinished)
open Whole (userTop running news)

variable {σ C : Type} {pr : Prg σ C} {c : Proc.Cfg} {sig : Bool} {e : State σ C} {a : Abs σ C}

theorem running_call {l : Life.State} {t : Nat} (h : running l t = true) : l.call t = none := by
  unfold running at h
  split at h
  · simp [Life.State.inUser] at h; exact h.1.1
  · cases h

/-- What a step of the process model alone is. -/
theorem whole_proc {w w' : Whole.State} {y : Proc.Action} (h : Whole.step c sig w (.proc y) = some w') :
    w.p.dead = false ∧ w.l.call y.tid = none ∧ ∃ p', Proc.step c w.p y = some p' ∧ w' = w.next w.l p' ∧
      ∀ t, y = .step t → p'.stk t ≠ [] := by
  unfold Whole.step at h
  split at h
  · cases h
  next hd =>
  have hd : w.p.dead = false := by
    cases hx : w.p.dead <;> simp [hx] at hd ⊢
  simp only at h
  split at h
  case isFalse => cases h
  next hr =>
  refine ⟨hd, running_call hr, ?_⟩
  split at h
  · cases h
  · split at h
    · cases h
    · rw [Option.map_eq_some_iff] at h
      obtain ⟨p', h1, rfl⟩ := h
      exact ⟨p', h1, rfl, by simp⟩
  · rw [Option.bind_eq_some_iff] at h
    obtain ⟨p', h1, h2⟩ := h
    split at h2
    · cases h2
    · next hne =>
      cases h2
      exact ⟨p', h1, rfl, fun t ht => by subst ht; exact hne⟩

theorem astep_run {t x : Nat} {r : Option Nat} {T : AThr C} {cd : C} {k : After C} (hst : a.status = none) (hT : a.thr[t]? = some T)
    (hk : T.pos = .run cd k) : astep pr (locks c) a t r x = opStep a t T k r x (pr.op cd) := by
  simp [astep, hst, hT, hk]

/-- Simulation of one step. -/
def Sim (pr : Prg σ C) (c : Proc.Cfg) (a : Abs σ C) (e' : State σ C) : Prop :=
  ∃ a', (a' = a ∨ ∃ t r x, astep pr (locks c) a t r x = some a') ∧ Rel pr c e' a'

/-- Simulation of one step of thread `t`'s; the abstract machine may stay where it is only if `q`. -/
def SimT (pr : Prg σ C) (c : Proc.Cfg) (a : Abs σ C) (t : Nat) (q : Prop) (e' : State σ C) : Prop :=
  ∃ a', ((a' = a ∧ q) ∨ ∃ r x, astep pr (locks c) a t r x = some a') ∧ Rel pr c e' a'

theorem SimT.sim {t : Nat} {q : Prop} {e' : State σ C} (h : SimT pr c a t q e') : Sim pr c a e' := by
  obtain ⟨a', h | ⟨r, x, h⟩, R⟩ := h
  · exact ⟨a', .inl h.1, R⟩
  · exact ⟨a', .inr ⟨t, r, x, h⟩, R⟩

theorem contOf_next {v : Nat} {fc : Nat → Option C} {fr : Frame} {rest : List Frame} {l : List C} {k : After C} (h : contOf pr c v fr = some k) :
    posOf pr c v fc (fr :: rest) l = some (.next k) := by
  cases fr <;> first | (simp [contOf] at h; done) | (simp only [posOf, h, Option.map_some])

theorem contOf_ret {v : Nat} {fr : Frame} {k : After C} (h : contOf pr c v fr = some k) : k ≠ .main ∧ k ≠ .start := by
  cases fr <;> simp only [contOf] at h <;> (repeat' split at h) <;> cases h <;> exact ⟨by simp, by simp⟩

theorem sim_ret (R : Rel pr c e a) (Rp : Proc.Reach c e.w.p) {t : Nat} {cd : C} {cs : List C} {v : Int} (hcd : e.code t = cd :: cs)
    (hop : pr.op cd = .ret v) (hns : e.w.p.stk t ≠ [.user .start]) {w' : Whole.State} (h : Whole.step c sig e.w (.proc (.ret t v)) = some w') :
    SimT pr c a t False ((e.setCode t cs).absorb pr c w') := by
  obtain ⟨hd, hcall, p', hq, rfl, -⟩ := whole_proc h
  clear h
  have h := hq; clear hq
  have hcall : e.w.l.call t = none := hcall
  have hst := R.status hd
  have hcl := R.closed
  unfold Proc.step at h
  simp only [hd, Bool.false_eq_true, if_false, Proc.Action.tid] at h
  split at h
  · cases h
  · next fn rest hs =>
    obtain ⟨T, hT⟩ := R.thread Rp (t := t) (by rw [hs]; simp)
    have TR := R.thr t T hT
    have hpos := TR.pos
    rw [hs, hcd] at hpos
    simp only [posOf] at hpos
    obtain ⟨cd', cs', k, hcd', hTp⟩ := posU_run hpos
    cases hcd'
    have has := astep_run (pr := pr) (c := c) (r := none) (x := 0) hst hT hTp
    rw [hop] at has
    simp only [Proc.userStep] at h
    split at h
    · cases h
      have hk : k = .main := by simp [posU, hTp] at hpos; exact hpos.symm
      subst hk
      refine ⟨_, .inr ⟨none, 0, has.trans rfl⟩, ?_⟩
      have := absorb_proc (pr := pr) (c := c) (e.setCode t cs) (p' := (e.w.p.ev (.mainRet v)).beginExit t rest v)
        (evs := [.exitBegin t e.w.p.nextE v, .mainRet v]) rfl
      have this : (e.setCode t cs).absorb pr c (e.w.next e.w.l ((e.w.p.ev (.mainRet v)).beginExit t rest v)) = _ := this
      rw [this]
      simp only [List.map_cons, List.map_nil, List.reverse_cons, List.reverse_nil, List.nil_append, List.cons_append, List.foldl_cons,
        List.foldl_nil, react]
      refine R.move _ hT hcall ⟨rfl, rfl, ?_, fun _ _ => rfl, ?_, fun _ _ h => h, rfl, R.fresh, fun _ => hd⟩ rfl rfl rfl ?_ TR.fns rfl R.fns ?_ hd ?_
      · intro u hu; simp [Proc.State.beginExit]; unf; simp [hu]
      · intro u hu; unf; simp [hu]
      · simp [Proc.State.beginExit]; unf
      · exact (hcl.trans (fin_cons (x := .mainRet v) (by simp))).trans (fin_cons (x := .exitBegin t e.w.p.nextE v) (by simp))
      · intro x hx; simp [Proc.State.beginExit] at hx; unf at hx; rcases hx with rfl | rfl | hx
        · exact .inr (by simp)
        · exact .inr (by simp)
        · exact .inl hx
    · simp only [posU] at hpos
      split at hpos
      · next hr => rw [hr] at hs; exact absurd hs hns
      · cases hpos
    · next h1 h2 =>
      cases h
      have : ∃ fr rest', rest = fr :: rest' ∧ contOf pr c (retv e.w.l t) fr = some k := by
        unfold posU at hpos
        cases fn <;> simp only at hpos h1 h2
        case main => exact absurd trivial h1
        case start => exact absurd trivial h2
        all_goals
          split at hpos
          · rw [Option.map_eq_some_iff, hTp] at hpos
            obtain ⟨k', h3, h4⟩ := hpos
            injection h4 with _ h4
            subst h4
            exact ⟨_, _, rfl, h3⟩
          · cases hpos
      obtain ⟨fr, rest', rfl, hc⟩ := this
      have hk := contOf_ret hc
      refine ⟨a.setThr t { T with pos := .next k }, .inr ⟨none, 0, has.trans ?_⟩, ?_⟩
      · cases k <;> first | rfl | exact absurd rfl hk.1 | exact absurd rfl hk.2
      have := absorb_proc (pr := pr) (c := c) (e.setCode t cs) (p' := e.w.p.setStk t (fr :: rest')) (evs := []) rfl
      have this : (e.setCode t cs).absorb pr c (e.w.next e.w.l (e.w.p.setStk t (fr :: rest'))) = _ := this
      rw [this]
      simp only [List.map_nil, List.reverse_nil, List.foldl_nil]
      refine R.move _ hT hcall ⟨rfl, rfl, ?_, fun _ _ => rfl, ?_, fun _ _ h => h, rfl, R.fresh, fun _ => hd⟩ rfl rfl rfl ?_ TR.fns rfl R.fns hcl hd fun _ h => .inl h
      · intro u hu; unf; simp [hu]
      · intro u hu; unf; simp [hu]
      · simp only [Proc.State.setStk, if_true]; exact contOf_next hc
  · simp at h

theorem sim_regThr (R : Rel pr c e a) (Rp : Proc.Reach c e.w.p) {t : Nat} {cd g k : C} {cs : List C} (hcd : e.code t = cd :: cs)
    (hop : pr.op cd = .atExitT g k) {w' : Whole.State} (h : Whole.step c sig e.w (.proc (.regThr t)) = some w') :
    SimT pr c a t False (e.absorb pr c w') := by
  obtain ⟨hd, hcall, p', hq, rfl, -⟩ := whole_proc h
  clear h
  have h := hq; clear hq
  have hcall : e.w.l.call t = none := hcall
  have hst := R.status hd
  have hcl := R.closed
  unfold Proc.step at h
  simp only [hd, Bool.false_eq_true, if_false, Proc.Action.tid] at h
  split at h
  · cases h
  · next fn rest hs =>
    obtain ⟨T, hT⟩ := R.thread Rp (t := t) (by rw [hs]; simp)
    have TR := R.thr t T hT
    have hpos := TR.pos
    rw [hs, hcd] at hpos
    simp only [posOf] at hpos
    obtain ⟨cd', cs', kk, hcd', hTp⟩ := posU_run hpos
    cases hcd'
    have has := astep_run (pr := pr) (c := c) (r := none) (x := 0) hst hT hTp
    rw [hop] at has
    simp only [Proc.userStep] at h
    split at h <;> cases h
    refine ⟨_, .inr ⟨none, 0, has.trans rfl⟩, ?_⟩
    rw [absorb_one (by rfl)]
    simp only [react]
    have : (e.withP (({ e.w.p with nextF := e.w.p.nextF + 1 }.setTd t (e.w.p.nextF :: e.w.p.tdtors t)).ev (.tReg t e.w.p.nextF))
      [.tReg t e.w.p.nextF]).code t = cd :: cs := hcd
    rw [this]
    simp only [hop]
    have hfc : ∀ x y, e.fcode x = some y → (if x = e.w.p.nextF then some g else e.fcode x) = some y := by
      intro x y hxy
      rw [if_neg]
      · exact hxy
      · rintro rfl; rw [R.fresh _ (Nat.le_refl _)] at hxy; cases hxy
    refine R.move _ hT hcall ⟨rfl, rfl, fun _ _ => rfl, ?_, ?_, hfc, rfl, ?_, fun _ => hd⟩ rfl rfl rfl ?_ ?_ rfl (map_mono hfc R.fns) ?_ hd ?_
    · intro u hu; unf; simp [hu]
    · intro u hu; unf; simp [hu]
    · intro f hf
      have hf : e.w.p.nextF + 1 ≤ f := hf
      show (if f = e.w.p.nextF then some g else e.fcode f) = none
      rw [if_neg (Nat.ne_of_gt hf)]; exact R.fresh f (Nat.le_of_succ_le hf)
    · rw [hTp] at hpos
      show posOf pr c (retv e.w.l t) _ (e.w.p.stk t) (if t = t then k :: cs else e.code t) = _
      rw [if_pos rfl, hs]
      simp only [posOf]
      exact posU_congr hpos
    · show (g :: T.fns).map some = List.map _ (if t = t then e.w.p.nextF :: e.w.p.tdtors t else e.w.p.tdtors t)
      rw [if_pos rfl]
      exact List.cons_eq_cons.mpr ⟨(if_pos rfl).symm, map_mono hfc TR.fns⟩
    · exact hcl.trans (fin_cons (x := .tReg t e.w.p.nextF) (by simp))
    · intro x hx; unf at hx; rcases hx with rfl | hx
      · exact .inr (by simp)
      · exact .inl hx
  · simp at h

theorem sim_regProg (R : Rel pr c e a) (Rp : Proc.Reach c e.w.p) {t : Nat} {cd g k : C} {cs : List C} (hcd : e.code t = cd :: cs)
    (hop : pr.op cd = .atExitP g k) {w' : Whole.State} (h : Whole.step c sig e.w (.proc (.regProg t)) = some w') :
    SimT pr c a t True (e.absorb pr c w') := by
  obtain ⟨hd, hcall, p', hq, rfl, -⟩ := whole_proc h
  clear h
  have h := hq; clear hq
  have hcall : e.w.l.call t = none := hcall
  unfold Proc.step at h
  simp only [hd, Bool.false_eq_true, if_false, Proc.Action.tid] at h
  split at h
  · cases h
  · next fn rest hs =>
    obtain ⟨T, hT⟩ := R.thread Rp (t := t) (by rw [hs]; simp)
    have TR := R.thr t T hT
    have hpos := TR.pos
    rw [hs] at hpos
    simp only [posOf] at hpos
    simp only [Proc.userStep] at h
    split at h <;> cases h
    refine ⟨a, .inl ⟨rfl, trivial⟩, ?_⟩
    rw [absorb_none (by rfl)]
    refine R.stutter hT hcall ⟨rfl, rfl, ?_, fun _ _ => rfl, fun _ _ => rfl, fun _ _ h => h, rfl, R.fresh, fun _ => hd⟩ ?_ rfl rfl (fun _ h => .inl h) fun _ h => h
    · intro u hu; unf; simp [hu]
    · have hat : atReg pr (e.code t) = true := by simp [atReg, hcd, hop]
      simp [State.withP, Proc.State.setStk, posOf, hat, hpos]
  · simp at h

theorem sim_exit (R : Rel pr c e a) (Rp : Proc.Reach c e.w.p) {t : Nat} {cd : C} {cs : List C} {v : Int} (hcd : e.code t = cd :: cs)
    (hop : pr.op cd = .exit v) {w' : Whole.State} (h : Whole.step c sig e.w (.proc (.exit t v)) = some w') : SimT pr c a t False (e.absorb pr c w') := by
  obtain ⟨hd, hcall, p', hq, rfl, -⟩ := whole_proc h
  clear h
  have h := hq; clear hq
  have hcall : e.w.l.call t = none := hcall
  have hst := R.status hd
  have hcl := R.closed
  unfold Proc.step at h
  simp only [hd, Bool.false_eq_true, if_false, Proc.Action.tid] at h
  split at h
  · cases h
  · next fn rest hs =>
    obtain ⟨T, hT⟩ := R.thread Rp (t := t) (by rw [hs]; simp)
    have TR := R.thr t T hT
    have hpos := TR.pos
    rw [hs, hcd] at hpos
    simp only [posOf] at hpos
    obtain ⟨cd', cs', kk, hcd', hTp⟩ := posU_run hpos
    cases hcd'
    have has := astep_run (pr := pr) (c := c) (r := none) (x := 0) hst hT hTp
    rw [hop] at has
    simp only [Proc.userStep] at h
    cases h
    refine ⟨_, .inr ⟨none, 0, has.trans rfl⟩, ?_⟩
    rw [absorb_one (ev := .exitBegin t e.w.p.nextE v) (by rfl)]
    simp only [react]
    refine R.move _ hT hcall ⟨rfl, rfl, ?_, fun _ _ => rfl, fun _ _ => rfl, fun _ _ h => h, rfl, R.fresh, fun _ => hd⟩ rfl rfl rfl ?_ TR.fns rfl R.fns ?_ hd ?_
    · intro u hu; simp [Proc.State.beginExit]; unf; simp [hu]
    · simp [Proc.State.beginExit]; unf
    · exact hcl.trans (fin_cons (x := .exitBegin t e.w.p.nextE v) (by simp))
    · intro x hx; simp [Proc.State.beginExit] at hx; unf at hx; rcases hx with rfl | hx
      · exact .inr (by simp)
      · exact .inl hx
  · simp at h

theorem sim_immExit (R : Rel pr c e a) (Rp : Proc.Reach c e.w.p) {t : Nat} {cd : C} {cs : List C} {v : Int} (hcd : e.code t = cd :: cs)
    (hop : pr.op cd = .immExit v) {w' : Whole.State} (h : Whole.step c sig e.w (.proc (.immExit t v)) = some w') : SimT pr c a t False (e.absorb pr c w') := by
  obtain ⟨hd, hcall, p', hq, rfl, -⟩ := whole_proc h
  clear h
  have h := hq; clear hq
  have hcall : e.w.l.call t = none := hcall
  have hst := R.status hd
  have hcl := R.closed
  unfold Proc.step at h
  simp only [hd, Bool.false_eq_true, if_false, Proc.Action.tid] at h
  split at h
  · cases h
  · next fn rest hs =>
    obtain ⟨T, hT⟩ := R.thread Rp (t := t) (by rw [hs]; simp)
    have TR := R.thr t T hT
    have hpos := TR.pos
    rw [hs, hcd] at hpos
    simp only [posOf] at hpos
    obtain ⟨cd', cs', kk, hcd', hTp⟩ := posU_run hpos
    cases hcd'
    have has := astep_run (pr := pr) (c := c) (r := none) (x := 0) hst hT hTp
    rw [hop] at has
    simp only [Proc.userStep] at h
    cases h
    refine ⟨_, .inr ⟨none, 0, has.trans rfl⟩, ?_⟩
    rw [absorb_one (ev := .immBegin t e.w.p.nextE v) (by rfl)]
    simp only [react]
    refine R.move _ hT hcall ⟨rfl, rfl, ?_, fun _ _ => rfl, fun _ _ => rfl, fun _ _ h => h, rfl, R.fresh, fun _ => hd⟩ rfl rfl rfl ?_ TR.fns rfl R.fns ?_ hd ?_
    · intro u hu; unf; simp [hu]
    · unf
    · exact hcl.trans (fin_cons (x := .immBegin t e.w.p.nextE v) (by simp))
    · intro x hx; unf at hx; rcases hx with rfl | hx
      · exact .inr (by simp)
      · exact .inl hx
  · simp at h

theorem sim_mem (R : Rel pr c e a) (Rp : Proc.Reach c e.w.p) {t : Nat} {cd : C} {cs : List C} {f : σ → σ × C} (hcd : e.code t = cd :: cs)
    (hop : pr.op cd = .mem f) (hd : e.w.p.dead = false) (hu : userTop e.w.p t = true) (hr : running e.w.l t = true) :
    SimT pr c a t False ({ e with mem := (f e.mem).1 }.setCode t ((f e.mem).2 :: cs)) := by
  have hcall := running_call hr
  have hst := R.status hd
  unfold userTop at hu
  split at hu
  · next fn rest hs =>
    obtain ⟨T, hT⟩ := R.thread Rp (t := t) (by rw [hs]; simp)
    have TR := R.thr t T hT
    have hpos := TR.pos
    rw [hs, hcd] at hpos
    simp only [posOf] at hpos
    obtain ⟨cd', cs', kk, hcd', hTp⟩ := posU_run hpos
    cases hcd'
    have has := astep_run (pr := pr) (c := c) (r := none) (x := 0) hst hT hTp
    rw [hop] at has
    refine ⟨_, .inr ⟨none, 0, has.trans rfl⟩, ?_⟩
    rw [R.mem]
    refine R.upd (T' := { T with pos := .run (f e.mem).2 kk }) hT rfl hcall rfl rfl (fun _ _ => rfl) (fun _ _ => rfl) ?_ (fun _ _ h => h) rfl ?_ TR.fns rfl R.fns R.fresh R.closed (fun _ => hst) R.ended
    · intro u hu; unf; simp [hu]
    · rw [hTp] at hpos
      show posOf pr c (retv e.w.l t) _ (e.w.p.stk t) (if t = t then (f e.mem).2 :: cs else e.code t) = _
      rw [if_pos rfl, hs]
      simp only [posOf]
      exact posU_congr hpos
  · cases hu

end Origin.User
