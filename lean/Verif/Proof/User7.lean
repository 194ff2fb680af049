import Verif.Proof.User6
set_option linter.unusedSimpArgs false
/-! # User programs: `join`, `detach`, `id`, `create`, and the end of a thread -/

namespace Origin.Life

/-- The kernel is done with thread `u`. -/
def Past (l : State) (u : Inst) : Prop := ∃ H, l.thr u = some H ∧ H.stage.past

end Origin.Life

namespace Origin.User
open Proc (Frame Fn PFinished)
open Whole (userTop running news)

variable {σ C : Type} {pr : Prg σ C} {c : Proc.Cfg} {sig : Bool} {e : State σ C} {a : Abs σ C}

theorem next_life (w : Whole.State) (l' : Life.State) (p' : Proc.State) : (w.next l' p').l = l' := (Whole.next_cases l' p').1

theorem userTop_stk {p : Proc.State} {t : Nat} (h : userTop p t = true) : ∃ fn rest, p.stk t = .user fn :: rest := by
  unfold userTop at h
  split at h
  · exact ⟨_, _, ‹_›⟩
  · cases h

theorem alive {w w' : Whole.State} {x : Whole.Action} (h : Whole.step c sig w x = some w') : w.p.dead = false ∧ w.crashed = false := by
  unfold Whole.step at h
  split at h
  · cases h
  · next hd => simpa using hd

theorem sim_join (R : Rel pr c e a) {t u : Nat} {cd : C} {cs : List C} {k : Nat → C}
    (hcd : e.code t = cd :: cs) (hop : pr.op cd = .join u k) {w' : Whole.State} (h : Whole.step c sig e.w (.life (.join t u)) = some w')
    (K : Calm c sig w') : SimT pr c a t True (e.absorb pr c w') := by
  have hal := alive h
  simp only [Whole.step, hal, Bool.or_self, Bool.false_eq_true, if_false] at h
  split at h
  case isFalse => cases h
  next hu =>
  obtain ⟨fn, rest, hs⟩ := userTop_stk hu
  rw [Option.map_eq_some_iff] at h
  obtain ⟨l', hl, rfl⟩ := h
  have RL : Life.Reach sig (Life.Orderly sig) l' := by have := K.known.life; rwa [next_life] at this
  simp only [Life.step] at hl
  split at hl
  case h_2 => cases hl
  next T H hT hH =>
  split at hl
  case isFalse => cases hl
  split at hl
  · cases hl; exact absurd List.mem_cons_self (no_fault RL t t)
  cases hl
  rw [absorb_both e RL (le := [.joinCall t u]) (pe := []) rfl rfl]
  refine ⟨a, .inl ⟨rfl, trivial⟩, ?_⟩
  have R1 := R.life (cr := false) (lg := [.inl (.joinCall t u)] ++ e.w.log) (l' := ((e.w.l.setCall t (some (.load .join H.addr u))).setCons u (t, .join, .waiting)).ev (.joinCall t u)) (.same rfl) (fun v cl hcl => by
    by_cases hv : v = t
    · subst hv
      simp only [Life.State.setCons, Life.State.setCall, Life.State.ev, if_true, Option.some.injEq] at hcl
      subst hcl
      exact .inr ⟨fn, rest, cd, cs, hs, hcd, fun _ => ⟨k, hop⟩⟩
    · simp only [Life.State.setCons, Life.State.setCall, Life.State.ev, hv, if_false] at hcl
      exact .inl ⟨cl, hcl, rfl, rfl⟩)
  exact R1

/-- User code of `t` makes an operation which, in the abstract machine, only moves it on; origin has a call of it, to `detach` or none, in progress. -/
theorem Rel.go (R : Rel pr c e a) (hd : e.w.p.dead = false) {t : Nat} {T : AThr C} (hT : a.thr[t]? = some T) {fn : Fn} {rest : List Frame}
    {cd cd' : C} {cs : List C}
    (hs : e.w.p.stk t = .user fn :: rest) (hcd : e.code t = cd :: cs) (hcall : ∀ cl, e.w.l.call t = some cl → cl.kind ≠ .join) :
    ∃ kk, T.pos = .run cd kk ∧ Rel pr c (e.setCode t (cd' :: cs)) (a.setThr t { T with pos := .run cd' kk }) := by
  have TR := R.thr t T hT
  have hpos := TR.pos
  rw [hs, hcd] at hpos
  simp only [posOf] at hpos
  obtain ⟨c1, cs1, kk, hc1, hTp⟩ := posU_run hpos
  cases hc1
  refine ⟨kk, hTp, ?_⟩
  refine R.upd2 (T' := { T with pos := .run cd' kk }) hT rfl ?_ R.mem rfl (fun _ _ => rfl) (fun _ _ => rfl) ?_ (fun _ _ h => h) rfl ?_ TR.fns rfl R.fns R.fresh R.closed (fun _ => R.status hd) R.ended
  · intro cl hcl
    exact ⟨fn, rest, cd', cs, hs, by simp [State.setCode], fun h => absurd h (hcall cl hcl)⟩
  · intro u hu; simp [State.setCode, hu]
  · rw [hTp] at hpos
    simp only [State.setCode, if_true, hs, posOf]
    exact posU_congr hpos

theorem sim_detachW (R : Rel pr c e a) (Rp : Proc.Reach c e.w.p) {t u : Nat} {cd : C} {cs : List C} {k : C}
    (hcd : e.code t = cd :: cs) (hop : pr.op cd = .detach u k) {w' : Whole.State} (h : Whole.step c sig e.w (.life (.detach t u)) = some w')
    (K : Calm c sig w') : ∃ a', (∃ r x, astep pr (locks c) a t r x = some a' ∧ a.waits pr t = true) ∧ Rel pr c (e.absorb pr c w') a' := by
  have hal := alive h
  simp only [Whole.step, hal, Bool.or_self, Bool.false_eq_true, if_false] at h
  split at h
  case isFalse => cases h
  next hu =>
  obtain ⟨fn, rest, hs⟩ := userTop_stk hu
  rw [Option.map_eq_some_iff] at h
  obtain ⟨l', hl, rfl⟩ := h
  have RL : Life.Reach sig (Life.Orderly sig) l' := by have := K.known.life; rwa [next_life] at this
  simp only [Life.step] at hl
  split at hl
  case h_2 => cases hl
  next L H hL hH =>
  split at hl
  case isFalse => cases hl
  split at hl
  · cases hl; exact absurd List.mem_cons_self (no_fault RL t t)
  cases hl
  rw [absorb_both e RL (le := [.detachCall t u]) (pe := []) rfl rfl]
  have R1 := R.life (cr := false) (lg := [.inl (.detachCall t u)] ++ e.w.log) (l' := ((e.w.l.setCall t (some (.swap H.addr u))).setCons u (t, .detach, .start)).ev (.detachCall t u)) (.same rfl) (fun v cl hcl => by
    by_cases hv : v = t
    · subst hv
      simp only [Life.State.setCons, Life.State.setCall, Life.State.ev, if_true, Option.some.injEq] at hcl
      subst hcl
      exact .inr ⟨fn, rest, cd, cs, hs, hcd, fun h => by cases h⟩
    · simp only [Life.State.setCons, Life.State.setCall, Life.State.ev, hv, if_false] at hcl
      exact .inl ⟨cl, hcl, rfl, rfl⟩)
  obtain ⟨T, hT⟩ := R.thread Rp (t := t) (by rw [hs]; simp)
  obtain ⟨kk, hTp, R2⟩ := R1.go (cd' := k) hal.1 hT hs hcd (fun cl hcl => by
    simp only [Life.State.setCons, Life.State.setCall, Life.State.ev, if_true, Option.some.injEq] at hcl
    subst hcl; simp [Life.Call.kind])
  have has := astep_run (pr := pr) (c := c) (r := none) (x := 0) (R.status hal.1) hT hTp
  rw [hop] at has
  refine ⟨_, ⟨none, 0, has.trans rfl, by cases T; simp only at hTp; subst hTp; simp [Abs.waits, hT, hop]⟩, ?_⟩
  simp only [List.map_cons, List.map_nil, List.nil_append, List.reverse_cons, List.reverse_nil, List.foldl_cons, List.foldl_nil, react, hcd, hop]
  exact R2

theorem sim_detach (R : Rel pr c e a) (Rp : Proc.Reach c e.w.p) {t u : Nat} {cd : C} {cs : List C} {k : C}
    (hcd : e.code t = cd :: cs) (hop : pr.op cd = .detach u k) {w' : Whole.State} (h : Whole.step c sig e.w (.life (.detach t u)) = some w')
    (K : Calm c sig w') : SimT pr c a t False (e.absorb pr c w') := by
  obtain ⟨a', ⟨r, x, h, -⟩, RR⟩ := sim_detachW R Rp hcd hop h K
  exact ⟨a', .inr ⟨r, x, h⟩, RR⟩

/-- The id word of a thread the kernel is done with, and whose handle nobody has given up, is 0. -/
theorem past_id {l : Life.State} (R : Life.Reach sig (Life.Orderly sig) l) {t u : Nat} {L H : Life.Thr} (hH : l.thr u = some H) (hd : H.stage.past)
    (hL : l.thr t = some L) (hc : l.inUser t L = true ∧ ((l.cons u).isNone = true ∨ u = t)) {r : Life.Rec} (hr : l.view H.addr u = some r) : r.tid = 0 := by
  have I : Life.Inv (Life.only u) sig l := (R.orderlyFor u).inv
  have O := I.ok u H hH
  have hf := (Life.reach_noFork R).1 u H hH
  have htu : u ≠ t := by
    rintro rfl
    rw [hH] at hL; cases hL
    have := hc.1
    cases hs : L.stage <;> simp [hs, Life.Stage.past] at hd <;> simp [Life.State.inUser, hs] at this
  have hcn : l.cons u = none := by
    rcases hc.2 with h | h
    · simpa using h
    · exact absurd h htu
  have G := O.good
  have ov : Life.Over (Life.only u u) H none (some r) → r.tid = 0 := by
    rintro ⟨-, ⟨h, -⟩ | ⟨r', h1, h2, -⟩⟩
    · cases h
    · cases h1; exact h2
  cases hs : H.stage <;> simp only [hs, Life.Stage.past] at hd <;> simp only [Life.Good, hs] at G <;> rw [hcn, hr] at G
  · exact ov G
  · rcases G with G | ⟨-, h, -⟩ | ⟨h, -⟩
    · exact ov G
    · cases h
    · rw [hf] at h; cases h

theorem sim_idW (R : Rel pr c e a) (K0 : Calm c sig e.w) {t u : Nat} {cd : C} {cs : List C} {k : Option Nat → C}
    (hcd : e.code t = cd :: cs) (hop : pr.op cd = .id u k) {w' : Whole.State} (h : Whole.step c sig e.w (.life (.id t u)) = some w')
    (K : Calm c sig w') : ∃ a', (∃ r x, astep pr (locks c) a t r x = some a' ∧ (r = none → Life.Past e.w.l u) ∧ (Life.Past e.w.l u → r = none)) ∧
      Rel pr c (e.absorb pr c w') a' := by
  have Rp := K0.known.proc
  have hal := alive h
  simp only [Whole.step, hal, Bool.or_self, Bool.false_eq_true, if_false] at h
  split at h
  case isFalse => cases h
  next hu =>
  obtain ⟨fn, rest, hs⟩ := userTop_stk hu
  rw [Option.map_eq_some_iff] at h
  obtain ⟨l', hl, rfl⟩ := h
  have RL : Life.Reach sig (Life.Orderly sig) l' := by have := K.known.life; rwa [next_life] at this
  simp only [Life.step] at hl
  split at hl
  case h_2 => cases hl
  next L H hL hH =>
  split at hl
  case isFalse => cases hl
  next hc =>
  have hcall : e.w.l.call t = none := by
    have := hc.1; simp [Life.State.inUser] at this; exact this.1
  split at hl
  · cases hl; exact absurd List.mem_cons_self (no_fault RL t t)
  split at hl
  case h_2 => cases hl; exact absurd List.mem_cons_self (no_fault RL t u)
  next r hr =>
  cases hl
  generalize hrr : (if r.tid = 0 then none else some r.tid) = rr at RL K
  rw [absorb_both e RL (le := [.idRes t u rr]) (pe := []) rfl rfl]
  have R1 := R.life (cr := false) (lg := [.inl (.idRes t u rr)] ++ e.w.log) (l' := e.w.l.ev (.idRes t u rr)) (.same rfl) (fun v cl hcl => .inl ⟨cl, hcl, rfl, rfl⟩)
  obtain ⟨T, hT⟩ := R.thread Rp (t := t) (by rw [hs]; simp)
  obtain ⟨kk, hTp, R2⟩ := R1.go (cd' := k rr) hal.1 hT hs hcd (fun cl hcl => by
    rw [show (e.w.l.ev (.idRes t u rr)).call t = e.w.l.call t from rfl, hcall] at hcl; cases hcl)
  have hst := R.status hal.1
  have has := astep_run (pr := pr) (c := c) (r := rr) (x := 0) hst hT hTp
  rw [hop] at has
  have I := K0.for u
  have hlt : u < a.thr.length := by rw [R.len, ← K0.linked.next]; exact I.lt u H hH
  have hU : a.thr[u]? = some a.thr[u] := List.getElem?_eq_getElem hlt
  have UR := R.thr u _ hU
  have hO := I.ok u H hH
  have hop' : opStep a t T kk rr 0 (.id u k) = some (a.setThr t { T with pos := .run (k rr) kk }) := by
    simp only [opStep, hU]
    obtain ⟨p, a1, tid, h1, h2, h3⟩ := (Life.C26_id (RL.mono fun _ _ _ => trivial) t u rr) [] _ rfl
    have htid := (hO.link.cr1 p a1 tid h1).2
    by_cases hcl : Life.Ev.cleared u ∈ e.w.l.log
    · have := h3 hcl
      subst this
      have hp : H.stage.past := (hO.link.cl.mp hcl).2
      have hc : Life.clsOf e.w.l u = some .late := by
        simp only [Life.clsOf, hH, Option.map_some]
        cases hx : H.stage <;> simp [hx, Life.Stage.past] at hp <;> rfl
      have hu0 : u ≠ 0 := by
        intro h0; rw [hO.main.1 h0] at hp; simp [Life.Stage.past] at hp
      have := (Rp.rinv.gone u (K0.linked.late u hu0 hc)).1
      have hpos := UR.pos
      rw [this] at hpos
      simp only [posOf, Option.some.injEq] at hpos
      rw [← hpos]
    · have := h2 hcl
      subst this
      obtain ⟨L', h4, h5⟩ := UR.tid
      rw [hH] at h4; injection h4 with h4; subst h4
      simp [htid, h5]
  have hpast1 : rr = none → Life.Past e.w.l u := by
    rintro rfl
    obtain ⟨p, a1, tid, h1, h2, h3⟩ := (Life.C26_id (RL.mono fun _ _ _ => trivial) t u none) [] _ rfl
    by_cases hcl : Life.Ev.cleared u ∈ e.w.l.log
    · exact ⟨H, hH, (hO.link.cl.mp hcl).2⟩
    · cases h2 hcl
  have hpast2 : Life.Past e.w.l u → rr = none := by
    rintro ⟨H', hH', hp⟩
    rw [hH] at hH'; cases hH'
    rw [← hrr]
    have := past_id K0.known.life hH hp hL hc hr
    simp [this]
  refine ⟨_, ⟨rr, 0, has.trans hop', hpast1, hpast2⟩, ?_⟩
  simp only [List.map_cons, List.map_nil, List.nil_append, List.reverse_cons, List.reverse_nil, List.foldl_cons, List.foldl_nil, react, hcd, hop]
  exact R2

theorem sim_id (R : Rel pr c e a) (K0 : Calm c sig e.w) {t u : Nat} {cd : C} {cs : List C} {k : Option Nat → C}
    (hcd : e.code t = cd :: cs) (hop : pr.op cd = .id u k) {w' : Whole.State} (h : Whole.step c sig e.w (.life (.id t u)) = some w')
    (K : Calm c sig w') : SimT pr c a t False (e.absorb pr c w') := by
  obtain ⟨a', ⟨r, x, h, -⟩, RR⟩ := sim_idW R K0 hcd hop h K
  exact ⟨a', .inr ⟨r, x, h⟩, RR⟩

end Origin.User
