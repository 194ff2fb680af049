import Verif.Proof.User7
set_option linter.unusedSimpArgs false
/-! # User programs: threads begin and end -/

namespace Origin.User
open Proc (Frame Fn PFinished)
open Whole (userTop running news)

variable {σ C : Type} {pr : Prg σ C} {c : Proc.Cfg} {sig : Bool} {e : State σ C} {a : Abs σ C}

/-- A thread not yet created has registered nothing. -/
theorem tdtors_new {s : Proc.State} (R : Proc.Reach c s) : ∀ t, s.nextT ≤ t → s.tdtors t = [] := by
  induction R with
  | init => intro t _; rfl
  | step R hs ih =>
    intro t ht
    have S := R.sinv
    obtain ⟨-, tr⟩ := Proc.step_tr hs
    cases tr
    case spawn => exact ih t (Nat.le_of_succ_le ht)
    case regThr u fn rest h1 h2 =>
      have : t ≠ u := by rintro rfl; rw [S.new t ht] at h1; cases h1
      simpa [Proc.State.ev, Proc.State.setTd, this] using ih t ht
    case thrCall u rest f fs h1 h2 h3 =>
      have : t ≠ u := by rintro rfl; rw [S.new t ht] at h1; cases h1
      simpa [Proc.State.ev, Proc.State.setStk, Proc.State.setTd, this] using ih t ht
    case exitThrCall u rest x st f fs h1 h2 h3 =>
      have : t ≠ u := by rintro rfl; rw [S.new t ht] at h1; cases h1
      simpa [Proc.State.ev, Proc.State.setStk, Proc.State.setTd, this] using ih t ht
    case regLock u rest s1 h1 h2 =>
      rw [acquire_log h2] at ht ⊢; exact ih t ht
    case exitLock u rest x st s1 h1 h2 h3 =>
      rw [acquire_log h3] at ht ⊢; exact ih t ht
    case regUnlock => rw [release_eq] at ht ⊢; exact ih t ht
    case exitUnlock => rw [release_eq] at ht ⊢; exact ih t ht
    all_goals exact ih t ht

theorem sim_createW (R : Rel pr c e a) (K0 : Calm c sig e.w) {t ad tid : Nat} {cd : C} {cs : List C} {g : C} {k : Nat → C}
    (hcd : e.code t = cd :: cs) (hop : pr.op cd = .create g k) {w' : Whole.State} (h : Whole.step c sig e.w (.create t ad tid) = some w')
    (K : Calm c sig w') : ∃ a', (astep pr (locks c) a t none tid = some a' ∧
      ∀ u U, a.thr[u]? = some U → U.tid = tid → ∃ L, e.w.l.thr u = some L ∧ L.stage = .dead) ∧ Rel pr c (e.absorb pr c w') a' := by
  have Rp := K0.known.proc
  have hal := alive h
  simp only [Whole.step, hal, Bool.or_self, Bool.false_eq_true, if_false, Option.bind_eq_some_iff, Option.map_eq_some_iff] at h
  obtain ⟨l', hl, p', hp, rfl⟩ := h
  have RL : Life.Reach sig (Life.Orderly sig) l' := by have := K.known.life; rwa [next_life] at this
  simp only [Life.step] at hl
  split at hl
  case h_2 => cases hl
  next L hL =>
  split at hl
  case isFalse => cases hl
  next hc =>
  have hcall : e.w.l.call t = none := by
    have := hc.1; simp [Life.State.inUser] at this; exact this.1
  split at hl
  · cases hl; exact absurd List.mem_cons_self (no_fault RL t t)
  cases hl
  unfold Proc.step at hp
  simp only [hal.1, Bool.false_eq_true, if_false, Proc.Action.tid] at hp
  split at hp
  · cases hp
  case h_3 => simp at hp
  next fn rest hs =>
  simp only [Proc.userStep] at hp
  split at hp
  case isFalse => cases hp
  cases hp
  have I := K0.for t
  have hnx : e.w.l.next = e.w.p.nextT := K0.linked.next
  have htlt : t < e.w.l.next := I.lt t L hL
  have htne : t ≠ e.w.p.nextT := by rw [← hnx]; exact Nat.ne_of_lt htlt
  obtain ⟨T, hT⟩ := R.thread Rp (t := t) (by rw [hs]; simp)
  have TR := R.thr t T hT
  have hpos := TR.pos
  rw [hs, hcd] at hpos
  simp only [posOf] at hpos
  obtain ⟨cd', cs', kk, hcd', hTp⟩ := posU_run hpos
  cases hcd'
  have hst := R.status hal.1
  have has := astep_run (pr := pr) (c := c) (r := none) (x := tid) hst hT hTp
  rw [hop] at has
  have hfree : tid ≠ 0 ∧ a.tidFree tid = true := by
    refine ⟨hc.2.2.1, List.all_eq_true.mpr fun U hU => ?_⟩
    obtain ⟨u, hu, hUu⟩ := List.getElem_of_mem hU
    have hU' : a.thr[u]? = some U := by rw [← hUu]; exact List.getElem?_eq_getElem hu
    have UR := R.thr u U hU'
    obtain ⟨L', hL', htid⟩ := UR.tid
    cases hp : U.pos with
    | done => rfl
    | _ =>
      have hx := List.all_eq_true.mp hc.2.2.2 u (List.mem_range.mpr (by rw [hnx, ← R.len]; exact hu))
      rw [hL'] at hx
      simp only [Bool.or_eq_true, decide_eq_true_eq] at hx
      rcases hx with hx | hx
      · exfalso
        have O := (K0.for u).ok u L' hL'
        have hu0 : u ≠ 0 := by intro h0; rw [O.main.1 h0] at hx; cases hx
        have hlate : Life.clsOf e.w.l u = some .late := by simp [Life.clsOf, hL', hx, Life.Stage.cls]
        have := UR.pos
        rw [(Rp.rinv.gone u (K0.linked.late u hu0 hlate)).1, hp] at this
        simp [posOf] at this
      · rw [← htid]; exact hx
  have hdead : ∀ u U, a.thr[u]? = some U → U.tid = tid → ∃ L, e.w.l.thr u = some L ∧ L.stage = .dead := by
    intro u U hU hx
    obtain ⟨L', hL', htid⟩ := (R.thr u U hU).tid
    have hx' := List.all_eq_true.mp hc.2.2.2 u (List.mem_range.mpr (by rw [hnx, ← R.len]; exact (List.getElem?_eq_some_iff.mp hU).1))
    rw [hL'] at hx'
    simp only [Bool.or_eq_true, decide_eq_true_eq] at hx'
    rcases hx' with hx' | hx'
    · exact ⟨L', hL', hx'⟩
    · exact absurd (htid.trans hx) (by simpa using hx')
  refine ⟨_, ⟨has.trans (by rw [opStep, if_pos hfree]), hdead⟩, ?_⟩
  rw [absorb_both e RL (le := [.created t e.w.l.next ad tid]) (pe := [.spawned e.w.p.nextT]) rfl rfl]
  simp only [List.map_cons, List.map_nil, List.cons_append, List.nil_append, List.reverse_cons, List.reverse_nil, List.foldl_cons, List.foldl_nil, react, hcd, hop, hnx]
  have hfin : ∀ q : Prop, (q ∧ PFinished e.w.p.log) ↔ (q ∧ PFinished (Proc.Ev.spawned e.w.p.nextT :: e.w.p.log)) := fun q => fin_cons (by simp)
  refine ⟨R.mem, ?_, ?_, R.fns, R.fresh, R.closed.trans (hfin _), fun _ => hst, ?_, ?_⟩
  · simp [R.len, State.setCode, Proc.State.ev, Proc.State.setStk]
  · intro u U hU
    simp only [List.getElem?_append, List.length_set] at hU
    split at hU
    · next hlt =>
      have hun : u ≠ e.w.p.nextT := by rw [← R.len]; exact Nat.ne_of_lt hlt
      by_cases hut : u = t
      · subst hut
        rw [List.getElem?_set_self hlt] at hU
        injection hU with hU; subst hU
        refine ⟨?_, TR.fns, ?_⟩
        · rw [hTp] at hpos
          simp only [State.setCode, hun, if_false, if_true, Proc.State.ev, Proc.State.setStk, hs, posOf]
          rw [R.len]
          simp only [retv, Life.State.ev, hnx, hun, if_false]
          exact posU_congr hpos
        · obtain ⟨L', h1, h2⟩ := TR.tid
          exact ⟨L', by simp only [State.setCode, Life.State.ev, hnx, hun, if_false]; exact h1, h2⟩
      · rw [List.getElem?_set_ne (fun h => hut h.symm)] at hU
        refine (R.thr u U hU).mono ?_ ?_ ?_ rfl ?_ fun _ _ h => h
        · simp only [State.setCode, retv, Life.State.ev, hnx, hun, if_false]
        · intro L' hL'
          exact ⟨L', by simp only [State.setCode, Life.State.ev, hnx, hun, if_false]; exact hL', rfl⟩
        · simp only [State.setCode, Proc.State.ev, Proc.State.setStk, hun, if_false]
        · simp only [State.setCode, hun, hut, if_false]
    · next hge =>
      have hU' := (List.getElem?_eq_some_iff.mp hU).1
      simp only [List.length_cons, List.length_nil] at hU'
      have hu : u = e.w.p.nextT := by rw [← R.len]; omega
      subst hu
      rw [R.len, Nat.sub_self] at hU
      simp only [List.getElem?_cons_zero, Option.some.injEq] at hU
      subst hU
      refine ⟨?_, ?_, ?_⟩
      · simp [State.setCode, Proc.State.ev, Proc.State.setStk, posOf, posU]
      · simp [State.setCode, Proc.State.ev, Proc.State.setStk, tdtors_new Rp _ (Nat.le_refl _)]
      · exact ⟨⟨ad, tid, .born, true, false, none, false⟩, by simp [State.setCode, Life.State.ev, hnx], rfl⟩
  · intro u x st hm
    simp only [State.setCode, Proc.State.ev, Proc.State.setStk, List.mem_cons, reduceCtorEq, false_or] at hm
    exact R.ended u x st hm
  · intro u cl hcl
    replace hcl : e.w.l.call u = some cl := hcl
    obtain ⟨fn', rest', cd', cs', q1, q2, q3⟩ := R.call u cl hcl
    have hut : u ≠ t := by rintro rfl; rw [hcall] at hcl; cases hcl
    have hun : u ≠ e.w.p.nextT := by
      rintro rfl; rw [Rp.sinv.new _ (Nat.le_refl _)] at q1; cases q1
    exact ⟨fn', rest', cd', cs', by simp [State.setCode, Proc.State.ev, Proc.State.setStk, hun]; exact q1, by simp [State.setCode, hun, hut]; exact q2, q3⟩

theorem sim_create (R : Rel pr c e a) (K0 : Calm c sig e.w) {t ad tid : Nat} {cd : C} {cs : List C} {g : C} {k : Nat → C}
    (hcd : e.code t = cd :: cs) (hop : pr.op cd = .create g k) {w' : Whole.State} (h : Whole.step c sig e.w (.create t ad tid) = some w')
    (K : Calm c sig w') : SimT pr c a t False (e.absorb pr c w') := by
  obtain ⟨a', ⟨h, -⟩, RR⟩ := sim_createW R K0 hcd hop h K
  exact ⟨a', .inr ⟨_, _, h⟩, RR⟩

/-- The function of a thread returns. -/
theorem sim_start (R : Rel pr c e a) (K0 : Calm c sig e.w) {t : Nat} {cd : C} {cs : List C} {v : Int}
    (hcd : e.code t = cd :: cs) (hop : pr.op cd = .ret v) {w' : Whole.State} (h : Whole.step c sig e.w (.ret t v.toNat) = some w')
    (K : Calm c sig w') : SimT pr c a t False ((e.setCode t cs).absorb pr c w') := by
  have Rp := K0.known.proc
  have hal := alive h
  simp only [Whole.step, hal, Bool.or_self, Bool.false_eq_true, if_false] at h
  split at h
  case isFalse => cases h
  next hs =>
  simp only [Option.bind_eq_some_iff, Option.map_eq_some_iff] at h
  obtain ⟨l', hl, p', hp, rfl⟩ := h
  have RL : Life.Reach sig (Life.Orderly sig) l' := by have := K.known.life; rwa [next_life] at this
  simp only [Life.step] at hl
  split at hl
  case h_2 => cases hl
  next L hL =>
  split at hl
  case isFalse => cases hl
  next hc =>
  have hcall : e.w.l.call t = none := by simpa using hc.1
  split at hl
  · cases hl; exact absurd List.mem_cons_self (no_fault RL t t)
  cases hl
  simp only [Proc.step, hal.1, Bool.false_eq_true, if_false, Proc.Action.tid, hs, Proc.userStep, Option.some.injEq] at hp
  subst hp
  obtain ⟨T, hT⟩ := R.thread Rp (t := t) (by rw [hs]; simp)
  have TR := R.thr t T hT
  have hpos := TR.pos
  rw [hs, hcd] at hpos
  simp only [posOf, posU, if_true, Option.some.injEq] at hpos
  have hst := R.status hal.1
  have has := astep_run (pr := pr) (c := c) (r := none) (x := 0) hst hT hpos.symm
  rw [hop] at has
  refine ⟨_, .inr ⟨none, 0, has.trans rfl⟩, ?_⟩
  have hab := absorb_both (pr := pr) (c := c) (e.setCode t cs) (p' := e.w.p.setStk t [.thrLoop]) RL (le := [.returned t v.toNat]) (pe := []) rfl rfl
  rw [show (e.setCode t cs).w = e.w from rfl] at hab
  rw [hab]
  simp only [List.map_cons, List.map_nil, List.cons_append, List.nil_append, List.reverse_cons, List.reverse_nil, List.foldl_cons, List.foldl_nil, react]
  refine ⟨R.mem, ?_, ?_, R.fns, R.fresh, R.closed, fun _ => hst, R.ended, ?_⟩
  · simp [Abs.setThr, State.setCode, Proc.State.setStk, R.len]
  · intro u U hU
    simp only [Abs.setThr] at hU
    by_cases hut : u = t
    · subst hut
      rw [List.getElem?_set_self (List.getElem?_eq_some_iff.mp hT).1] at hU
      injection hU with hU; subst hU
      refine ⟨?_, TR.fns, ?_⟩
      · simp [State.setCode, Proc.State.setStk, posOf, contOf, retv, Life.State.ev, Life.State.modThr, hL]
      · obtain ⟨L', h1, h2⟩ := TR.tid
        rw [hL] at h1; injection h1 with h1; subst h1
        exact ⟨{ L with ret := some v.toNat, stage := .dtors v.toNat }, by simp [State.setCode, Life.State.ev, Life.State.modThr, hL], h2⟩
    · rw [List.getElem?_set_ne (fun h => hut h.symm)] at hU
      refine (R.thr u U hU).mono ?_ ?_ ?_ rfl ?_ fun _ _ h => h
      · simp [State.setCode, retv, Life.State.ev, Life.State.modThr, hut]
      · intro L' hL'; exact ⟨L', by simp [State.setCode, Life.State.ev, Life.State.modThr, hut, hL'], rfl⟩
      · simp [State.setCode, Proc.State.setStk, hut]
      · simp [State.setCode, hut]
  · intro u cl hcl
    replace hcl : e.w.l.call u = some cl := hcl
    obtain ⟨fn', rest', cd', cs', q1, q2, q3⟩ := R.call u cl hcl
    have hut : u ≠ t := by rintro rfl; rw [hcall] at hcl; cases hcl
    exact ⟨fn', rest', cd', cs', by simp [State.setCode, Proc.State.setStk, hut]; exact q1, by simp [State.setCode, hut]; exact q2, q3⟩

/-- A thread has called all its functions. -/
theorem sim_release (R : Rel pr c e a) (K0 : Calm c sig e.w) {t : Nat} {w' : Whole.State} (h : Whole.step c sig e.w (.release t) = some w')
    (K : Calm c sig w') : SimT pr c a t False (e.absorb pr c w') ∧ a.asks pr t = none ∧ a.creates pr t = false := by
  have Rp := K0.known.proc
  have hal := alive h
  simp only [Whole.step, hal, Bool.or_self, Bool.false_eq_true, if_false, Option.bind_eq_some_iff] at h
  obtain ⟨l', hl, p', hp, h⟩ := h
  split at h
  case isFalse => cases h
  next hne =>
  cases h
  have RL : Life.Reach sig (Life.Orderly sig) l' := by have := K.known.life; rwa [next_life] at this
  simp only [Life.step] at hl
  split at hl
  case h_2 => cases hl
  next L hL =>
  split at hl
  case h_2 => cases hl
  next v hsg hcall =>
  split at hl
  · cases hl; exact absurd List.mem_cons_self (no_fault RL t t)
  cases hl
  have hcall : e.w.l.call t = none := hcall
  obtain ⟨T, hT⟩ := R.thread Rp (t := t) hne.1
  have TR := R.thr t T hT
  have hpos := TR.pos
  unfold Proc.step at hp
  simp only [hal.1, Bool.false_eq_true, if_false, Proc.Action.tid] at hp
  split at hp
  · cases hp
  · cases hp
  next fr rest hnu hs =>
  simp only [if_true] at hp
  have hfr : fr = .thrLoop ∧ e.w.p.tdtors t = [] ∧ p' = (e.w.p.setStk t []).ev (.released t) := by
    have hno := tdtors_off Rp (t := t)
    rw [hs] at hpos
    cases fr <;> simp only [Proc.frameStep, Option.map_eq_some_iff] at hp
    case thrLoop =>
      split at hp
      · cases hp; exact absurd hne.2 (by simp [Proc.State.ev, Proc.State.setStk])
      · next hn =>
        cases hp
        refine ⟨rfl, ?_, rfl⟩
        cases hx : c.threadAtExit with
        | false => exact hno hx
        | true =>
          cases hy : e.w.p.tdtors t with
          | nil => rfl
          | cons f fs => exact absurd hy (hn f fs hx)
    case regUnlock f =>
      cases hp
      cases rest with
      | nil => simp [posOf, contOf] at hpos
      | cons fr rest => exact absurd hne.2 (by simp [Proc.State.ev, Proc.State.setStk])
    case regLock => obtain ⟨s1, h1, rfl⟩ := hp; exact absurd hne.2 (by simp [Proc.State.setStk])
    case exitLock x st =>
      split at hp
      · simp only [Option.map_eq_some_iff] at hp
        obtain ⟨s1, h1, rfl⟩ := hp; exact absurd hne.2 (by simp [Proc.State.setStk])
      · cases hp; exact absurd hne.2 (by simp [Proc.State.ev, Proc.State.setStk])
    case exitImm x st =>
      cases hp
      exact absurd hne.2 (by simp [Proc.State.ev, hs])
    all_goals
      first
      | (cases hp; done)
      | (cases hp; exact absurd hne.2 (by simp [Proc.State.ev, Proc.State.setStk]))
      | (split at hp <;> cases hp <;> exact absurd hne.2 (by simp [Proc.State.ev, Proc.State.setStk]))
  obtain ⟨rfl, htd, rfl⟩ := hfr
  rw [hs] at hpos
  simp only [posOf, contOf, Option.map_some, Option.some.injEq] at hpos
  have hf := TR.fns
  rw [htd] at hf
  have hg : T.fns = [] := by simpa using hf
  have hst := R.status hal.1
  refine ⟨⟨_, .inr ⟨none, 0, (astep_next hst hT hpos.symm).trans (by simp only [nextStep, hg]; rfl)⟩, ?_⟩, asks_next hT hpos.symm⟩
  rw [absorb_both e RL (le := []) (pe := [.released t]) rfl rfl]
  simp only [List.map_cons, List.map_nil, List.cons_append, List.nil_append, List.reverse_cons, List.reverse_nil, List.foldl_cons, List.foldl_nil, react]
  have hk : Life.Keep e.w.l (e.w.l.setStage t (.cas v)) := Life.Keep.stage (s1 := e.w.l) rfl
  have R1 := R.life (l' := e.w.l.setStage t (.cas v)) (cr := false) (lg := e.w.log) hk fun u cl hcl => .inl ⟨cl, hcl, rfl, rfl⟩
  have hrv : retv (e.w.l.setStage t (.cas v)) t = retv e.w.l t := Keep.retv hk ⟨L, hL⟩
  refine R1.upd (t := t) (T := T) (T' := { T with pos := .done (retv e.w.l t) }) hT rfl hcall R.mem (by simp [Abs.setThr, hg]) ?_ (fun _ _ => rfl) (fun _ _ => rfl) (fun _ _ h => h) rfl ?_ ?_ rfl R.fns R.fresh ?_ (fun _ => hst) ?_
  · intro u hu; simp [Proc.State.ev, Proc.State.setStk, hu]
  · simp [Proc.State.ev, Proc.State.setStk, posOf, hrv]
  · exact TR.fns
  · exact R.closed.trans (fin_cons (x := .released t) (by simp))
  · intro u x st hm
    simp only [Proc.State.ev, Proc.State.setStk, List.mem_cons, reduceCtorEq, false_or] at hm
    exact R.ended u x st hm

end Origin.User
