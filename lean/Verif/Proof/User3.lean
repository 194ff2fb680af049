import Verif.Proof.User2
set_option linter.unusedSimpArgs false
/-! # User programs: steps of origin's own code are steps of the abstract machine -/

namespace Origin.User
open Proc (Frame Fn PFinished)
open Whole (userTop running news)

variable {σ C : Type} {pr : Prg σ C} {c : Proc.Cfg} {sig : Bool} {e : State σ C} {a : Abs σ C}

theorem slot_mul {start ws i : Nat} (h : 0 < ws) : slot start ws (start + i * ws) = i := by
  unfold slot
  rw [Nat.add_sub_cancel_left, Nat.mul_div_cancel _ h]

theorem contOf_init {v i : Nat} (hok : c.Ok pr.ctors.length pr.finis.length) (hi : c.initArray = true) (hn : i ≤ pr.ctors.length) :
    contOf pr c v (.init (c.initStart + i * c.ws)) = some (.ctors (pr.ctors.drop i)) := by
  have he := hok.init hi
  unfold contOf
  simp only [slot_mul hok.ws]
  by_cases h : i = pr.ctors.length
  · subst h; rw [← he]; simp
  · have : ¬ c.initStart + i * c.ws = c.initEnd := by
      rw [he]; intro h'
      exact h (Nat.eq_of_mul_eq_mul_right hok.ws (Nat.add_left_cancel h'))
    simp [this]
    omega

theorem contOf_fini {v i x : Nat} {st : Int} (hok : c.Ok pr.ctors.length pr.finis.length) (hn : i ≤ pr.finis.length) :
    contOf pr c v (.exitFini x st (c.finiStart + i * c.ws)) = some (.fini st (pr.finis.take i).reverse) := by
  unfold contOf
  simp only [slot_mul hok.ws]
  by_cases h : i = 0
  · subst h; simp
  · have : ¬ c.finiStart + i * c.ws = c.finiStart := by
      have := Nat.mul_pos (Nat.pos_of_ne_zero h) hok.ws
      omega
    simp [this, hn]
    intro h1
    exact absurd h1 (Nat.ne_of_gt (Nat.mul_pos (Nat.pos_of_ne_zero h) hok.ws))

theorem first_init (hok : c.Ok pr.ctors.length pr.finis.length) (v : Nat) : contOf pr c v (.init c.initFirst) = some (.ctors pr.ctors) := by
  unfold Proc.Cfg.initFirst
  cases hi : c.initArray with
  | true => simpa using contOf_init (v := v) (i := 0) hok hi (Nat.zero_le _)
  | false =>
    have h0 := hok.init0 hi
    simp [contOf, List.eq_nil_of_length_eq_zero h0]

theorem first_fini (hok : c.Ok pr.ctors.length pr.finis.length) (v x : Nat) (st : Int) :
    contOf pr c v (.exitFini x st c.finiFirst) = some (.fini st pr.finis.reverse) := by
  unfold Proc.Cfg.finiFirst
  cases hi : c.finiArray with
  | true =>
    rw [if_pos rfl, hok.fini hi]
    simpa using contOf_fini (v := v) (x := x) (st := st) (i := pr.finis.length) hok (Nat.le_refl _)
  | false =>
    have h0 := hok.fini0 hi
    simp [contOf, List.eq_nil_of_length_eq_zero h0]

/-- The state after a step of `t` in the process model alone, `evs` having happened. -/
def State.withP (e : State σ C) (p' : Proc.State) (evs : List Proc.Ev) : State σ C := { e with w := ⟨e.w.l, p', false, evs.map .inr ++ e.w.log⟩ }

theorem absorb_none {p' : Proc.State} (h : p'.log = e.w.p.log) : e.absorb pr c (e.w.next e.w.l p') = e.withP p' [] :=
  absorb_proc e (evs := []) h

theorem absorb_one {p' : Proc.State} {ev : Proc.Ev} (h : p'.log = ev :: e.w.p.log) :
    e.absorb pr c (e.w.next e.w.l p') = react pr c (e.withP p' [ev]) (.inr ev) :=
  absorb_proc e (evs := [ev]) h

theorem astep_next {t : Nat} {T : AThr C} {k : After C} (hst : a.status = none) (hT : a.thr[t]? = some T) (hk : T.pos = .next k) :
    astep pr (locks c) a t none 0 = nextStep pr (locks c) a t T k := by
  simp [astep, hst, hT, hk]

theorem asks_next {t : Nat} {T : AThr C} {k : After C} (hT : a.thr[t]? = some T) (hk : T.pos = .next k) :
    a.asks pr t = none ∧ a.creates pr t = false := by
  obtain ⟨p, f, i⟩ := T
  simp only at hk; subst hk
  simp [Abs.asks, Abs.creates, hT]

theorem acquire_log {s s' : Proc.State} {t : Nat} (h : s.acquire c t = some s') : s' = { s with lock := s'.lock } := by
  unfold Proc.State.acquire at h
  split at h
  · split at h <;> cases h; rfl
  · cases h; rfl

theorem release_eq (s : Proc.State) : s.release c = { s with lock := (s.release c).lock } := by
  unfold Proc.State.release
  split <;> rfl

theorem fin_cons {x : Proc.Ev} {l : List Proc.Ev} {q : Prop} (h : ∀ t e, x ≠ .pDone t e) : (q ∧ PFinished l) ↔ (q ∧ PFinished (x :: l)) := by
  refine and_congr Iff.rfl ⟨fun ⟨t, e, h⟩ => ⟨t, e, List.mem_cons_of_mem _ h⟩, fun ⟨t, e, h'⟩ => ⟨t, e, ?_⟩⟩
  rcases List.mem_cons.mp h' with h' | h'
  · exact absurd h'.symm (h t e)
  · exact h'

/-- Unfolding states. -/
macro "unf" loc:(Lean.Parser.Tactic.location)? : tactic =>
  `(tactic| simp [State.withP, Proc.State.ev, Proc.State.setStk, Proc.State.setTd, State.call, State.setCode, State.bindFn, posOf, posU, contOf] $[$loc]?)

/-- Steps of origin's own code that the abstract machine does not see. -/
def silent : Frame → Bool
  | .entry | .exitLock .. | .exitUnlock .. | .exitCall .. | .regLock | .regUnlock _ => true
  | _ => false

theorem sim_frame (hok : c.Ok pr.ctors.length pr.finis.length) (R : Rel pr c e a) (Rp : Proc.Reach c e.w.p) {t : Nat} {fr : Frame} {rest : List Frame}
    {p' : Proc.State} (hs : e.w.p.stk t = fr :: rest) (hcall : e.w.l.call t = none) (hd : e.w.p.dead = false)
    (h : Proc.frameStep c e.w.p t rest fr = some p') (hne : p'.stk t ≠ []) :
    ∃ a', ((a' = a ∧ silent fr = true) ∨ ∃ r x, astep pr (locks c) a t r x = some a' ∧ a.asks pr t = none ∧ a.creates pr t = false) ∧
      Rel pr c (e.absorb pr c (e.w.next e.w.l p')) a' := by
  obtain ⟨T, hT⟩ := R.thread Rp (t := t) (by rw [hs]; simp)
  have TR := R.thr t T hT
  have hst := R.status hd
  have hpos := TR.pos
  have L := Rp.linv
  have hcl := R.closed
  rw [hs] at hpos
  cases fr with
  | user fn => simp [Proc.frameStep] at h
  | entry =>
    simp only [Proc.frameStep, Option.some.injEq] at h
    subst h
    refine ⟨a, .inl ⟨rfl, rfl⟩, ?_⟩
    rw [absorb_one (by rfl)]
    simp only [react]
    refine R.stutter hT hcall ⟨rfl, rfl, ?_, fun _ _ => rfl, fun _ _ => rfl, fun _ _ h => h, rfl, R.fresh, fun _ => hd⟩ ?_ rfl rfl ?_ ?_
    · intro u hu; unf; simp [hu]
    · rw [← hpos]; simp [State.withP, Proc.State.ev, Proc.State.setStk, posOf, first_init hok]
    · intro x hx; unf at hx; rcases hx with rfl | hx
      · exact .inr (by simp)
      · exact .inl hx
    · intro x hx; unf; exact .inr hx
  | init p =>
    have h0 : t = 0 := Rp.sinv.boot t (.init p) (by rw [hs]; simp) rfl
    subst h0
    simp only [posOf, Option.map_eq_some_iff] at hpos
    obtain ⟨k, hk, hpos⟩ := hpos
    simp only [Proc.frameStep] at h
    split at h
    · next hp =>
      cases h
      have : k = .ctors [] := by simp [contOf, hp] at hk; exact hk.symm
      subst this
      refine ⟨_, .inr ⟨none, 0, (astep_next hst hT hpos.symm).trans rfl, asks_next hT hpos.symm⟩, ?_⟩
      rw [absorb_one (by rfl)]
      simp only [react]
      refine R.move _ hT hcall ⟨rfl, rfl, ?_, fun _ _ => rfl, ?_, fun _ _ h => h, rfl, R.fresh, fun _ => hd⟩ rfl rfl rfl ?_ TR.fns rfl R.fns ?_ hd ?_
      · intro u hu; unf; simp [hu]
      · intro u hu; unf; simp [hu]
      · unf
      · exact hcl.trans (fin_cons (by simp))
      · intro x hx; unf at hx; rcases hx with rfl | hx
        · exact .inr (by simp)
        · exact .inl hx
    · next hp =>
      cases h
      simp only [contOf, hp, if_false] at hk
      split at hk
      case isFalse => cases hk
      next hal =>
      injection hk with hk; subst hk
      obtain ⟨hal, hlt⟩ := hal
      generalize hi : slot c.initStart c.ws p = i at hal hlt hpos
      have hia : c.initArray = true := by
        cases hx : c.initArray with
        | true => rfl
        | false => have := hok.init0 hx; omega
      have hdr : pr.ctors.drop i = pr.ctors[i] :: pr.ctors.drop (i + 1) := List.drop_eq_getElem_cons hlt
      rw [hdr] at hpos
      refine ⟨_, .inr ⟨none, 0, (astep_next hst hT hpos.symm).trans rfl, asks_next hT hpos.symm⟩, ?_⟩
      rw [absorb_one (by rfl)]
      have hnx := contOf_init (pr := pr) (v := retv e.w.l 0) (i := i + 1) hok hia hlt
      rw [Nat.add_mul, Nat.one_mul, ← Nat.add_assoc, ← hal] at hnx
      have hg : pr.ctors[(p - c.initStart) / c.ws]? = some pr.ctors[i] := by
        have : (p - c.initStart) / c.ws = i := hi
        rw [this, List.getElem?_eq_getElem hlt]
      simp only [react, hg]
      refine R.move _ hT hcall ⟨rfl, rfl, ?_, fun _ _ => rfl, ?_, fun _ _ h => h, rfl, R.fresh, fun _ => hd⟩ rfl rfl rfl ?_ TR.fns rfl R.fns ?_ hd ?_
      · intro u hu; unf; simp [hu]
      · intro u hu; unf; simp [hu]
      · simp [State.withP, Proc.State.ev, Proc.State.setStk, State.call, State.setCode, posOf, posU, hnx]
      · exact hcl.trans (fin_cons (by simp))
      · intro x hx; unf at hx; rcases hx with rfl | hx
        · exact .inr (by simp)
        · exact .inl hx
  | thrLoop =>
    simp only [posOf, contOf, Option.map_some, Option.some.injEq] at hpos
    simp only [Proc.frameStep] at h
    split at h
    · next f fs htae htd =>
      cases h
      have hf := TR.fns
      rw [htd] at hf
      cases hg : T.fns with
      | nil => rw [hg] at hf; simp at hf
      | cons g gs =>
      rw [hg] at hf
      simp only [List.map_cons, List.cons.injEq] at hf
      refine ⟨_, .inr ⟨none, 0, (astep_next hst hT hpos.symm).trans (by simp only [nextStep, hg]; rfl), asks_next hT hpos.symm⟩, ?_⟩
      rw [absorb_one (by rfl)]
      simp only [react]
      have : (e.withP (((e.w.p.setTd t fs).setStk t (.user (.tdtor f) :: .thrLoop :: rest)).ev (.tCall t none f)) [.tCall t none f]).fcode f = some g := hf.1.symm
      rw [this]
      refine R.move _ hT hcall ⟨rfl, rfl, ?_, ?_, ?_, fun _ _ h => h, rfl, R.fresh, fun _ => hd⟩ rfl rfl rfl ?_ ?_ rfl R.fns ?_ hd ?_
      · intro u hu; unf; simp [hu]
      · intro u hu; unf; simp [hu]
      · intro u hu; unf; simp [hu]
      · unf
      · unf; exact hf.2
      · exact hcl.trans (fin_cons (by simp))
      · intro x hx; unf at hx; rcases hx with rfl | hx
        · exact .inr (by simp)
        · exact .inl hx
    · cases h
      exact absurd (by unf) hne
  | regLock =>
    simp only [Proc.frameStep, Option.map_eq_some_iff] at h
    obtain ⟨s1, h1, rfl⟩ := h
    rw [acquire_log h1]
    refine ⟨a, .inl ⟨rfl, rfl⟩, ?_⟩
    rw [absorb_none (by rfl)]
    refine R.stutter hT hcall ⟨rfl, rfl, ?_, fun _ _ => rfl, fun _ _ => rfl, fun _ _ h => h, rfl, R.fresh, fun _ => hd⟩ ?_ rfl rfl (fun _ h => .inl h) fun _ h => h
    · intro u hu; unf; simp [hu]
    · cases rest with
      | nil => simp [posOf, contOf] at hpos
      | cons fr rest =>
        cases fr <;> simp [posOf, contOf] at hpos
        simp [State.withP, Proc.State.setStk, posOf, hpos]
  | regPush =>
    cases rest with
    | nil => simp [posOf, contOf] at hpos
    | cons fr rest =>
    cases fr <;> simp [posOf, contOf] at hpos
    rename_i fn
    simp only [Proc.frameStep, Option.some.injEq] at h
    subst h
    have hac : a.closed = false := by
      cases hx : a.closed with
      | false => rfl
      | true =>
        obtain ⟨h1, h2⟩ := hcl.mp hx
        simp only [locks, Bool.and_eq_true] at h1
        exact absurd h2 (L.lk1 h1.1 t .regPush (by rw [hs]; simp) rfl).2
    obtain ⟨hat, hpos⟩ := hpos
    obtain ⟨cd, cs, k, hcd, hTp⟩ := posU_run hpos
    rw [hcd] at hpos hat
    simp only [atReg] at hat
    cases hop : pr.op cd <;> simp [hop] at hat
    rename_i g kk
    have hnf : ∀ y, e.fcode y ≠ none → y ≠ e.w.p.nextF := by
      rintro y hy rfl; exact hy (R.fresh _ (Nat.le_refl _))
    refine ⟨_, .inr ⟨none, 0, by simp only [astep, hst, hT, hTp, hop, opStep, hac]; rfl, by cases T; simp only at hTp; subst hTp; simp [Abs.asks, Abs.creates, hT, hop]⟩, ?_⟩
    rw [absorb_one (by rfl)]
    simp only [react]
    have : (e.withP (({ e.w.p with dtors := e.w.p.nextF :: e.w.p.dtors, nextF := e.w.p.nextF + 1 }.setStk t
      (.regUnlock e.w.p.nextF :: .user fn :: rest)).ev (.pReg t e.w.p.nextF)) [.pReg t e.w.p.nextF]).code t = cd :: cs := hcd
    rw [this]
    simp only [hop]
    have hfc : ∀ x y, e.fcode x = some y → (if x = e.w.p.nextF then some g else e.fcode x) = some y := by
      intro x y hxy; rw [if_neg (hnf x (by rw [hxy]; simp))]; exact hxy
    refine R.move _ hT hcall ⟨rfl, rfl, ?_, fun _ _ => rfl, ?_, hfc, rfl, ?_, fun _ => hd⟩ rfl rfl hst.symm ?_ (map_mono hfc TR.fns) rfl ?_ ?_ hd ?_
    · intro u hu; unf; simp [hu]
    · intro u hu; unf; simp [hu]
    · intro f hf
      have hf : e.w.p.nextF + 1 ≤ f := hf
      show (if f = e.w.p.nextF then some g else e.fcode f) = none
      rw [if_neg (Nat.ne_of_gt hf)]; exact R.fresh f (Nat.le_of_succ_le hf)
    · rw [hTp] at hpos
      simp [State.withP, Proc.State.ev, Proc.State.setStk, State.setCode, State.bindFn, posOf, posU_congr hpos]
    · refine List.cons_eq_cons.mpr ⟨?_, map_mono hfc R.fns⟩
      exact (if_pos rfl).symm
    · exact (by rw [hac] at hcl; exact hcl : (false = true) ↔ _).trans (fin_cons (x := .pReg t e.w.p.nextF) (by simp))
    · intro x hx; unf at hx; rcases hx with rfl | hx
      · exact .inr (by simp)
      · exact .inl hx
  | regUnlock f =>
    simp only [Proc.frameStep, Option.some.injEq] at h
    subst h
    rw [release_eq]
    refine ⟨a, .inl ⟨rfl, rfl⟩, ?_⟩
    rw [absorb_one (by rfl)]
    simp only [react]
    refine R.stutter hT hcall ⟨rfl, rfl, ?_, fun _ _ => rfl, fun _ _ => rfl, fun _ _ h => h, rfl, R.fresh, fun _ => hd⟩ ?_ rfl rfl ?_ ?_
    · intro u hu; unf; simp [hu]
    · cases rest with
      | nil => simp [posOf, contOf] at hpos
      | cons fr rest =>
        cases fr <;> simp [posOf, contOf] at hpos
        simp [State.withP, Proc.State.ev, Proc.State.setStk, posOf, hpos]
    · intro x hx; unf at hx; rcases hx with rfl | hx
      · exact .inr (by simp)
      · exact .inl hx
    · intro x hx; unf; exact .inr hx
  | exitThr x st =>
    simp only [posOf, contOf, Option.map_some, Option.some.injEq] at hpos
    simp only [Proc.frameStep] at h
    split at h
    · next f fs htae htd =>
      cases h
      have hf := TR.fns
      rw [htd] at hf
      cases hg : T.fns with
      | nil => rw [hg] at hf; simp at hf
      | cons g gs =>
      rw [hg] at hf
      simp only [List.map_cons, List.cons.injEq] at hf
      refine ⟨_, .inr ⟨none, 0, (astep_next hst hT hpos.symm).trans (by simp only [nextStep, hg]; rfl), asks_next hT hpos.symm⟩, ?_⟩
      rw [absorb_one (by rfl)]
      simp only [react]
      have : (e.withP (((e.w.p.setTd t fs).setStk t (.user (.tdtor f) :: .exitThr x st :: rest)).ev (.tCall t (some x) f)) [.tCall t (some x) f]).fcode f = some g := hf.1.symm
      rw [this]
      refine R.move _ hT hcall ⟨rfl, rfl, ?_, ?_, ?_, fun _ _ h => h, rfl, R.fresh, fun _ => hd⟩ rfl rfl rfl ?_ ?_ rfl R.fns ?_ hd ?_
      · intro u hu; unf; simp [hu]
      · intro u hu; unf; simp [hu]
      · intro u hu; unf; simp [hu]
      · unf
      · unf; exact hf.2
      · exact hcl.trans (fin_cons (by simp))
      · intro x hx; unf at hx; rcases hx with rfl | hx
        · exact .inr (by simp)
        · exact .inl hx
    · next hn =>
      cases h
      have htd : e.w.p.tdtors t = [] := by
        cases hx : c.threadAtExit with
        | false => exact tdtors_off Rp hx t
        | true =>
          cases hy : e.w.p.tdtors t with
          | nil => rfl
          | cons f fs => exact absurd hy (hn f fs hx)
      have hf := TR.fns
      rw [htd] at hf
      have hg : T.fns = [] := by simpa using hf
      refine ⟨_, .inr ⟨none, 0, (astep_next hst hT hpos.symm).trans (by simp only [nextStep, hg]; rfl), asks_next hT hpos.symm⟩, ?_⟩
      rw [absorb_one (by rfl)]
      simp only [react]
      refine R.move _ hT hcall ⟨rfl, rfl, ?_, fun _ _ => rfl, fun _ _ => rfl, fun _ _ h => h, rfl, R.fresh, fun _ => hd⟩ rfl rfl rfl ?_ ?_ rfl R.fns ?_ hd ?_
      · intro u hu; unf; simp [hu]
      · unf
      · unf; simp [htd]
      · exact hcl.trans (fin_cons (by simp))
      · intro x hx; unf at hx; rcases hx with rfl | hx
        · exact .inr (by simp)
        · exact .inl hx
  | exitLock x st =>
    simp only [posOf, contOf, Option.map_some, Option.some.injEq] at hpos
    simp only [Proc.frameStep] at h
    split at h
    · simp only [Option.map_eq_some_iff] at h
      obtain ⟨s1, h1, rfl⟩ := h
      rw [acquire_log h1]
      refine ⟨a, .inl ⟨rfl, rfl⟩, ?_⟩
      rw [absorb_none (by rfl)]
      refine R.stutter hT hcall ⟨rfl, rfl, ?_, fun _ _ => rfl, fun _ _ => rfl, fun _ _ h => h, rfl, R.fresh, fun _ => hd⟩ ?_ rfl rfl (fun _ h => .inl h) fun _ h => h
      · intro u hu; unf; simp [hu]
      · unf; exact hpos
    · next hpa =>
      have hpa : c.programAtExit = false := by simpa using hpa
      cases h
      have hlk : locks c = false := by simp [locks, hpa]
      have hac : a.closed = false := by
        cases hx : a.closed with
        | false => rfl
        | true => have := (hcl.mp hx).1; rw [hlk] at this; cases this
      have hf := R.fns
      rw [dtors_off Rp hpa] at hf
      have hg : a.fns = [] := by simpa using hf
      refine ⟨_, .inr ⟨none, 0, (astep_next hst hT hpos.symm).trans (by simp only [nextStep, hg, hac, if_false, Bool.false_eq_true]; rfl), asks_next hT hpos.symm⟩, ?_⟩
      rw [absorb_one (by rfl)]
      simp only [react]
      refine R.move _ hT hcall ⟨rfl, rfl, ?_, fun _ _ => rfl, fun _ _ => rfl, fun _ _ h => h, rfl, R.fresh, fun _ => hd⟩ rfl rfl rfl ?_ TR.fns rfl (hg ▸ R.fns) ?_ hd ?_
      · intro u hu; unf; simp [hu]
      · simp [State.withP, Proc.State.ev, Proc.State.setStk, posOf, first_fini hok]
      · rw [hlk]; simp; rfl
      · intro x hx; unf at hx; rcases hx with rfl | hx
        · exact .inr (by simp)
        · exact .inl hx
  | exitPop x st =>
    simp only [posOf, Option.some.injEq] at hpos
    have hac : a.closed = false := by
      cases hx : a.closed with
      | false => rfl
      | true =>
        obtain ⟨h1, h2⟩ := hcl.mp hx
        simp only [locks, Bool.and_eq_true] at h1
        exact absurd h2 (L.lk1 h1.1 t (.exitPop x st) (by rw [hs]; simp) rfl).2
    have hpa : c.programAtExit = true := L.pat t (.exitPop x st) (by rw [hs]; simp) (.inl rfl)
    simp only [Proc.frameStep] at h
    split at h
    · next f fs hdt =>
      cases h
      have hf := R.fns
      rw [hdt] at hf
      cases hg : a.fns with
      | nil => rw [hg] at hf; simp at hf
      | cons g gs =>
      rw [hg] at hf
      simp only [List.map_cons, List.cons.injEq] at hf
      refine ⟨_, .inr ⟨none, 0, (astep_next hst hT hpos.symm).trans (by simp only [nextStep, hg, hac, if_false, Bool.false_eq_true]; rfl), asks_next hT hpos.symm⟩, ?_⟩
      rw [absorb_one (by rfl)]
      simp only [react]
      refine R.move _ hT hcall ⟨rfl, rfl, ?_, fun _ _ => rfl, fun _ _ => rfl, fun _ _ h => h, rfl, R.fresh, fun _ => hd⟩ rfl rfl rfl ?_ TR.fns rfl ?_ ?_ hd ?_
      · intro u hu; unf; simp [hu]
      · unf; exact hf.1.symm
      · unf; exact hf.2
      · exact (by rw [hac] at hcl; exact hcl : (false = true) ↔ _).trans (fin_cons (x := .pTake t x f) (by simp))
      · intro x hx; unf at hx; rcases hx with rfl | hx
        · exact .inr (by simp)
        · exact .inl hx
    · next hdt =>
      cases h
      have hf := R.fns
      rw [hdt] at hf
      have hg : a.fns = [] := by simpa using hf
      refine ⟨_, .inr ⟨none, 0, (astep_next hst hT hpos.symm).trans (by simp only [nextStep, hg, hac, if_false, Bool.false_eq_true]; rfl), asks_next hT hpos.symm⟩, ?_⟩
      rw [absorb_one (by rfl)]
      simp only [react]
      refine R.move _ hT hcall ⟨rfl, rfl, ?_, fun _ _ => rfl, fun _ _ => rfl, fun _ _ h => h, rfl, R.fresh, fun _ => hd⟩ rfl rfl rfl ?_ TR.fns rfl (hg ▸ R.fns) ?_ hd ?_
      · intro u hu; unf; simp [hu]
      · simp [State.withP, Proc.State.ev, Proc.State.setStk, posOf, first_fini hok]
      · exact ⟨fun h => ⟨h, t, x, List.mem_cons_self⟩, And.left⟩
      · intro x hx; unf at hx; rcases hx with rfl | hx
        · exact .inr (by simp)
        · exact .inl hx
  | exitUnlock x st f =>
    simp only [Proc.frameStep, Option.some.injEq] at h
    subst h
    rw [release_eq]
    refine ⟨a, .inl ⟨rfl, rfl⟩, ?_⟩
    rw [absorb_none (by rfl)]
    refine R.stutter hT hcall ⟨rfl, rfl, ?_, fun _ _ => rfl, fun _ _ => rfl, fun _ _ h => h, rfl, R.fresh, fun _ => hd⟩ ?_ rfl rfl (fun _ h => .inl h) fun _ h => h
    · intro u hu; unf; simp [hu]
    · simp only [posOf] at hpos
      simp [State.withP, Proc.State.setStk, posOf, hpos]
  | exitCall x st f =>
    simp only [Proc.frameStep, Option.some.injEq] at h
    subst h
    simp only [posOf, Option.map_eq_some_iff] at hpos
    obtain ⟨g, hg, hpos⟩ := hpos
    refine ⟨a, .inl ⟨rfl, rfl⟩, ?_⟩
    rw [absorb_one (by rfl)]
    simp only [react]
    have : (e.withP ((e.w.p.setStk t (.user (.pdtor f) :: .exitLock x st :: rest)).ev (.pCall t x f)) [.pCall t x f]).fcode f = some g := hg
    rw [this]
    refine R.stutter hT hcall ⟨rfl, rfl, ?_, fun _ _ => rfl, ?_, fun _ _ h => h, rfl, R.fresh, fun _ => hd⟩ ?_ rfl rfl ?_ ?_
    · intro u hu; unf; simp [hu]
    · intro u hu; unf; simp [hu]
    · unf; exact hpos
    · intro x hx; unf at hx; rcases hx with rfl | hx
      · exact .inr (by simp)
      · exact .inl hx
    · intro x hx; unf; exact .inr hx
  | exitFini x st p =>
    simp only [posOf, Option.map_eq_some_iff] at hpos
    obtain ⟨k, hk, hpos⟩ := hpos
    simp only [Proc.frameStep] at h
    split at h
    · next hp =>
      cases h
      have : k = .fini st [] := by simp [contOf, hp] at hk; exact hk.symm
      subst this
      refine ⟨_, .inr ⟨none, 0, (astep_next hst hT hpos.symm).trans rfl, asks_next hT hpos.symm⟩, ?_⟩
      rw [absorb_none (by rfl)]
      refine R.move _ hT hcall ⟨rfl, rfl, ?_, fun _ _ => rfl, fun _ _ => rfl, fun _ _ h => h, rfl, R.fresh, fun _ => hd⟩ rfl rfl rfl ?_ TR.fns rfl R.fns hcl hd fun _ h => .inl h
      · intro u hu; unf; simp [hu]
      · unf
    · next hp =>
      cases h
      simp only [contOf, hp, if_false] at hk
      split at hk
      case isFalse => cases hk
      next hal =>
      injection hk with hk; subst hk
      obtain ⟨hal, hlt⟩ := hal
      generalize hi : slot c.finiStart c.ws p = i at hal hlt hpos
      cases i with
      | zero => simp at hal; exact absurd hal hp
      | succ i =>
      have hpm : p - c.ws = c.finiStart + i * c.ws := by rw [hal, Nat.succ_mul]; omega
      rw [hpm] at *
      have hdr : (pr.finis.take (i + 1)).reverse = pr.finis[i] :: (pr.finis.take i).reverse := by
        rw [List.take_succ_eq_append_getElem hlt]; simp
      rw [hdr] at hpos
      refine ⟨_, .inr ⟨none, 0, (astep_next hst hT hpos.symm).trans rfl, asks_next hT hpos.symm⟩, ?_⟩
      rw [absorb_one (by rfl)]
      have hnx := contOf_fini (pr := pr) (v := retv e.w.l t) (i := i) (x := x) (st := st) hok (Nat.le_of_lt hlt)
      have hg : pr.finis[(c.finiStart + i * c.ws - c.finiStart) / c.ws]? = some pr.finis[i] := by
        have : (c.finiStart + i * c.ws - c.finiStart) / c.ws = i := slot_mul hok.ws
        rw [this, List.getElem?_eq_getElem hlt]
      simp only [react, hg]
      refine R.move _ hT hcall ⟨rfl, rfl, ?_, fun _ _ => rfl, ?_, fun _ _ h => h, rfl, R.fresh, fun _ => hd⟩ rfl rfl rfl ?_ TR.fns rfl R.fns ?_ hd ?_
      · intro u hu; unf; simp [hu]
      · intro u hu; unf; simp [hu]
      · simp [State.withP, Proc.State.ev, Proc.State.setStk, State.call, State.setCode, posOf, posU, hnx]
      · exact hcl.trans (fin_cons (by simp))
      · intro x hx; unf at hx; rcases hx with rfl | hx
        · exact .inr (by simp)
        · exact .inl hx
  | exitImm x st =>
    simp only [posOf, Option.some.injEq] at hpos
    simp only [Proc.frameStep, Option.some.injEq] at h
    subst h
    refine ⟨_, .inr ⟨none, 0, (astep_next hst hT hpos.symm).trans rfl, asks_next hT hpos.symm⟩, ?_⟩
    rw [absorb_one (by rfl)]
    simp only [react]
    refine R.upd hT rfl hcall R.mem (set_same hT) (fun _ _ => rfl) (fun _ _ => rfl) (fun _ _ => rfl) (fun _ _ h => h) rfl ?_ TR.fns rfl R.fns R.fresh ?_ ?_ ?_
    · rw [← TR.pos]; rfl
    · exact hcl.trans (fin_cons (by simp))
    · intro h; unf at h
    · intro t' x' st' h
      unf at h
      rcases h with h | h
      · simp [h.2.2]
      · have := R.ended _ _ _ h; rw [hst] at this; cases this

end Origin.User
