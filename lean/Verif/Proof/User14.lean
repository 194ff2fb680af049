import Verif.Proof.User13
set_option linter.unusedSimpArgs false
/-! # Programs on fair schedules: user code that can go on can go on -/

namespace Origin.User
open Proc (Frame Fn PFinished)
open Whole (userTop running news)

variable {σ C : Type} {pr : Prg σ C} {c : Proc.Cfg} {sig : Bool} {e : State σ C} {a : Abs σ C} {m : σ}
variable {st : Nat → State σ C} {act : Nat → Option Action} {P : Life.State → Life.Action → Prop}

/-- Origin's part of what happens. -/
def wact (pr : Prg σ C) (st : Nat → State σ C) (act : Nat → Option Action) (n : Nat) : Option Whole.Action := (act n).bind fun x => x.whole pr (st n)

theorem IsExec.whole (X : IsExec pr c sig m P st act) : Whole.IsExec c sig P (fun n => (st n).w) (wact pr st act) := by
  refine ⟨?_, fun n h => ?_, fun n y h => ?_⟩
  · obtain ⟨a, tid, h1, h2⟩ := X.start
    exact ⟨a, tid, h1, by simp only [h2]; rfl⟩
  · cases ha : act n with
    | none => simp only [X.idle n ha]
    | some x =>
      simp only [wact, ha, Option.bind_some] at h
      rcases step_w (X.next n x ha).2 with ⟨h1, -⟩ | ⟨y, h1, -⟩
      · exact h1
      · rw [h] at h1; cases h1
  · cases ha : act n with
    | none => simp [wact, ha] at h
    | some x =>
      simp only [wact, ha, Option.bind_some] at h
      rcases step_w (X.next n x ha).2 with ⟨-, h1⟩ | ⟨y', h1, h2⟩
      · rw [h] at h1; cases h1
      · rw [h] at h1; cases h1
        exact ⟨fun z hz => (X.next n x ha).1 _ z h hz, h2⟩

theorem sys_none {x : Whole.Action} (hx : isSys x = true) (h : step pr c sig e (.sys x) = none) : Whole.step c sig e.w x = none := by
  simp only [step, hx, if_true, Option.map_eq_none_iff] at h
  exact h

theorem Fair.whole (F : Fair pr c sig st act) : Whole.Fair c sig (fun n => (st n).w) (wact pr st act) := by
  have go : ∀ m x, act m = some (.sys x) → wact pr st act m = some x := fun m x h => by simp only [wact, h, Option.bind_some]; rfl
  refine ⟨fun t n => ?_, fun t n => ?_, fun t n => ?_⟩
  · obtain ⟨m, hm, h | h⟩ := F.threads t n
    · exact ⟨m, hm, .inl (go _ _ h)⟩
    · exact ⟨m, hm, .inr (sys_none rfl h)⟩
  · obtain ⟨m, hm, ⟨w, h⟩ | h⟩ := F.kernel t n
    · exact ⟨m, hm, .inl ⟨w, go _ _ h⟩⟩
    · exact ⟨m, hm, .inr fun w => sys_none rfl (h w)⟩
  · obtain ⟨m, hm, h | h | ⟨h1, h2⟩⟩ := F.origin t n
    · exact ⟨m, hm, .inl (go _ _ h)⟩
    · exact ⟨m, hm, .inr (.inl (go _ _ h))⟩
    · exact ⟨m, hm, .inr (.inr ⟨sys_none rfl h1, sys_none rfl h2⟩)⟩

/-- A number larger than those of the threads. -/
theorem bound (f : Nat → Nat) : ∀ n, ∃ b, ∀ k, k < n → f k < b
  | 0 => ⟨0, fun k h => absurd h (Nat.not_lt_zero k)⟩
  | n + 1 => by
    obtain ⟨b, hb⟩ := bound f n
    refine ⟨max b (f n + 1), fun k hk => ?_⟩
    rcases Nat.lt_or_ge k n with h | h
    · exact Nat.lt_of_lt_of_le (hb k h) (Nat.le_max_left _ _)
    · have : k = n := by omega
      subst this
      omega

/-- The kernel always finds an address and an id. -/
theorem room {l : Life.State} {w : Nat → Bool} (I : Life.Inv w sig l) : ∃ ad tid, (l.recs ad).isNone = true ∧ tid ≠ 0 ∧ l.tidFree tid = true := by
  obtain ⟨b, hb⟩ := bound (fun h => match l.thr h with | some T => T.addr | none => 0) l.next
  obtain ⟨d, hd⟩ := bound (fun h => match l.thr h with | some T => T.tid | none => 0) l.next
  refine ⟨b, d + 1, ?_, by simp, ?_⟩
  · cases hr : l.recs b with
    | none => rfl
    | some r =>
      obtain ⟨T, hT, ha⟩ := I.recOk b r hr
      have := hb r.owner (I.lt _ T hT)
      simp only [show l.thr r.owner = some T from hT, ha] at this
      exact absurd this (Nat.lt_irrefl _)
  · unfold Life.State.tidFree
    rw [List.all_eq_true]
    intro j hj
    have := hd j (List.mem_range.mp hj)
    cases hT : l.thr j with
    | none => rfl
    | some T =>
      simp only [hT] at this ⊢
      have : T.tid ≠ d + 1 := by omega
      simp [this]

/-- A thread with user code on top of its stack, which has begun and has no call in progress, is running. -/
theorem Reach.runs (R : Reach pr c sig m (Life.Orderly sig) e) {t : Nat} {fn : Fn} {rest : List Frame} (hs : e.w.p.stk t = .user fn :: rest)
    (hc : e.w.l.call t = none) (hb : ∀ T, e.w.l.thr t = some T → T.stage ≠ .born) : running e.w.l t = true := by
  have K := R.calm
  have L := K.linked
  have I := K.for t
  have Rp := K.known.proc
  have hlt : t < e.w.l.next := by
    rw [L.next]
    exact Nat.lt_of_not_le fun h => by rw [Rp.sinv.new t h] at hs; cases hs
  obtain ⟨T, hT⟩ : ∃ T, e.w.l.thr t = some T := by
    have := L.full t hlt
    unfold Life.clsOf at this
    cases hT : e.w.l.thr t with
    | none => rw [hT] at this; exact absurd rfl this
    | some T => exact ⟨T, rfl⟩
  have hst : T.stage.user := by
    by_cases h0 : t = 0
    · subst h0; rw [(I.ok 0 T hT).main.1 rfl]; trivial
    · cases hg : T.stage with
      | born => exact absurd hg (hb T hT)
      | body => trivial
      | dtors v => trivial
      | _ =>
        have := L.late t h0 (by simp [Life.clsOf, hT, hg, Life.Stage.cls])
        rw [(Rp.rinv.gone t this).1] at hs; cases hs
  have hview : (e.w.l.view T.addr t).isSome = true := by
    obtain ⟨r, hr, -⟩ := ((I.ok t T hT).good.user_rec hst).resolve_left (by simp [Life.only])
    rw [hr]; rfl
  unfold running Life.State.inUser
  rw [hT]
  cases hg : T.stage <;> rw [hg] at hst <;> first | exact hst.elim | simp [hc, hview, hg]

theorem Rel.thr_of (R : Rel pr c e a) (K : Calm c sig e.w) {u : Nat} (hu : u < a.thr.length) : ∃ U, e.w.l.thr u = some U := by
  have := K.linked.full u (by rw [K.linked.next, ← R.len]; exact hu)
  unfold Life.clsOf at this
  cases hT : e.w.l.thr u with
  | none => rw [hT] at this; exact absurd rfl this
  | some T => exact ⟨T, rfl⟩

/-- **User code that the abstract machine lets go on, and that keeps to the contract, can go on.** -/
theorem enabled {l : List Nat} (R : Reach pr c sig m (Life.Orderly sig) e) (RR : Rel pr c e a)
    (hj : ∀ j u v, Life.Ev.joined j u v ∈ e.w.l.log → u ∈ l) (hdt : ∀ j u, Life.Ev.detachCall j u ∈ e.w.l.log → u ∈ l)
    (hd : e.w.p.dead = false) {t : Nat} {fn : Fn} {rest : List Frame} (hs : e.w.p.stk t = .user fn :: rest) (hr : running e.w.l t = true)
    (hk : a.keeps pr c l t) {r : Option Nat} {x : Nat} (hen : astep pr (locks c) a t r x ≠ none) :
    ∃ ad tid, step pr c sig e (.user t ad tid) ≠ none := by
  have K := R.calm
  have Rp := K.known.proc
  have hc := K.up
  obtain ⟨T, cd, cs, k, hT, hcd, hp⟩ := RR.at_user Rp hs
  obtain ⟨L, hL, hcall, hst, hview⟩ := Whole.running_iff hr
  have hut : userTop e.w.p t = true := by simp [userTop, hs]
  have hin : e.w.l.inUser t L = true := by
    unfold Life.State.inUser
    cases hg : L.stage <;> rw [hg] at hst <;> first | exact hst.elim | simp [hcall, hg]
  have hvn : (e.w.l.view L.addr t).isNone = false := by
    cases hx : e.w.l.view L.addr t with
    | none => rw [hx] at hview; cases hview
    | some _ => rfl
  have hvn' : ¬ e.w.l.view L.addr t = none := by
    intro h; rw [h] at hvn; cases hvn
  -- the contract
  have hkp : match pr.op cd with
      | .join u _ | .detach u _ => u < a.thr.length ∧ u ∉ l ∧ ∀ t', t' ≠ t → a.uses pr t' ≠ some u
      | .id u _ => u = t ∨ (u ∉ l ∧ ∀ t', a.uses pr t' ≠ some u)
      | .create .. => c.thread = true
      | .atExitT .. => c.threadAtExit = true
      | .atExitP .. => c.programAtExit = true
      | _ => True := by
    unfold Abs.keeps at hk
    rw [hT] at hk
    cases T
    simp only at hp
    subst hp
    exact hk
  -- nobody has given up the handle
  have free : ∀ u, u ∉ l → (∀ t', t' ≠ t → a.uses pr t' ≠ some u) → e.w.l.cons u = none := by
    intro u hul hus
    refine Classical.byContradiction fun h => ?_
    rcases R.given h with ⟨j, v, h⟩ | ⟨j, h⟩ | ⟨j, cl, h1, h2, h3⟩
    · exact hul (hj _ _ _ h)
    · exact hul (hdt _ _ h)
    · have := RR.uses_call Rp h1 h2
      rw [h3] at this
      by_cases hjt : j = t
      · subst hjt; rw [hcall] at h1; cases h1
      · exact hus j hjt this
  cases hop : pr.op cd with
  | mem f =>
    refine ⟨0, 0, ?_⟩
    simp [step, hcd, hop, hd, hc, hut, hr]
  | ret v =>
    refine ⟨0, 0, ?_⟩
    simp only [step, hcd, hop, Op.action, Option.bind_some, ne_eq, Option.map_eq_none_iff]
    split
    · next hst1 =>
      rw [hst1] at hs; cases hs
      have h0 : t ≠ 0 := by
        rintro rfl
        have := K.linked.main
        rw [hst1] at this
        simp [Proc.special] at this
      have hbody : L.stage = .body := by
        cases hg : L.stage with
        | body => rfl
        | dtors v =>
          have := K.linked.dtors t h0 (by simp [Life.clsOf, hL, hg, Life.Stage.cls])
          rw [hst1] at this; simp at this
        | _ => rw [hg] at hst; exact hst.elim
      simp [Whole.step, hd, hc, hst1, Life.step, hL, hcall, hbody, h0, hvn, Proc.step, Proc.Action.tid, Proc.userStep]
    · next hns =>
      have : ∃ p', Proc.step c e.w.p (.ret t v) = some p' := by
        simp only [Proc.step, hd, Proc.Action.tid, hs, Proc.userStep, Bool.false_eq_true, if_false]
        cases fn <;> exact ⟨_, rfl⟩
      obtain ⟨p', hp'⟩ := this
      simp [Whole.step, hd, hc, Proc.Action.tid, hr, hns, hp']
  | atExitT g k =>
    rw [hop] at hkp
    refine ⟨0, 0, ?_⟩
    simp [step, hcd, hop, Op.action, Whole.step, hd, hc, Proc.Action.tid, hr, Proc.step, hs, Proc.userStep, show c.threadAtExit = true from hkp,
      Proc.State.ev, Proc.State.setTd]
  | atExitP g k =>
    rw [hop] at hkp
    refine ⟨0, 0, ?_⟩
    simp [step, hcd, hop, Op.action, Whole.step, hd, hc, Proc.Action.tid, hr, Proc.step, hs, Proc.userStep, show c.programAtExit = true from hkp,
      Proc.State.setStk]
  | create g k =>
    rw [hop] at hkp
    obtain ⟨ad, tid, h1, h2, h3⟩ := room (K.for 0)
    have h1' := Option.isNone_iff_eq_none.mp h1
    refine ⟨ad, tid, ?_⟩
    simp [step, hcd, hop, Op.action, Whole.step, hd, hc, Proc.Action.tid, Proc.step, hs, Proc.userStep, show c.thread = true from hkp,
      Life.step, hL, hin, h1', h2, h3, hvn, hvn']
  | join u k =>
    rw [hop] at hkp
    obtain ⟨h1, h2, h3⟩ := hkp
    obtain ⟨U, hU⟩ := RR.thr_of K h1
    refine ⟨0, 0, ?_⟩
    simp [step, hcd, hop, Op.action, Whole.step, hd, hc, hut, Life.step, hL, hU, hin, free u h2 h3, hvn, hvn']
  | detach u k =>
    rw [hop] at hkp
    obtain ⟨h1, h2, h3⟩ := hkp
    obtain ⟨U, hU⟩ := RR.thr_of K h1
    refine ⟨0, 0, ?_⟩
    simp [step, hcd, hop, Op.action, Whole.step, hd, hc, hut, Life.step, hL, hU, hin, free u h2 h3, hvn, hvn']
  | id u k =>
    rw [hop] at hkp
    have h1 : u < a.thr.length := by
      rw [astep_run (RR.status hd) hT hp, hop] at hen
      simp only [opStep] at hen
      cases hx : a.thr[u]? with
      | none => rw [hx] at hen; exact absurd rfl hen
      | some U => exact (List.getElem?_eq_some_iff.mp hx).1
    obtain ⟨U, hU⟩ := RR.thr_of K h1
    have hcons : (e.w.l.cons u).isNone = true ∨ u = t := by
      rcases hkp with h | ⟨h2, h3⟩
      · exact .inr h
      · exact .inl (by rw [free u h2 fun t' _ => h3 t']; rfl)
    refine ⟨0, 0, ?_⟩
    simp only [step, hcd, hop, Op.action, Option.bind_some, ne_eq, Option.map_eq_none_iff]
    simp only [Whole.step, hd, hc, hut, Life.step, hL, hU, hin, hcons, hvn]
    simp
    split <;> simp
  | exit s =>
    refine ⟨0, 0, ?_⟩
    simp [step, hcd, hop, Op.action, Whole.step, hd, hc, Proc.Action.tid, hr, Proc.step, hs, Proc.userStep, Proc.State.beginExit,
      Proc.State.setStk, Proc.State.ev]
  | immExit s =>
    refine ⟨0, 0, ?_⟩
    simp [step, hcd, hop, Op.action, Whole.step, hd, hc, Proc.Action.tid, hr, Proc.step, hs, Proc.userStep,
      Proc.State.setStk, Proc.State.ev]

end Origin.User
