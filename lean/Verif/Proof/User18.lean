import Verif.Proof.User12
import Verif.Proof.Fair
set_option linter.unusedSimpArgs false
/-! # User programs: what `id` says, once a thread is gone -/

namespace Origin.Life

theorem Past.step {w : Inst → Bool} {sig : Bool} {s s' : State} {x : Action} {u : Inst} (I : Inv w sig s) (P : Past s u)
    (h : step sig s x = some s') : Past s' u := by
  obtain ⟨H, hH, hp⟩ := P
  have hr : H.stage.rank ≤ 2 := by cases hs : H.stage <;> simp [hs, Stage.past, Stage.rank] at hp ⊢
  obtain ⟨T', hT', hr'⟩ := rank_step I hH (by omega) h
  refine ⟨T', hT', ?_⟩
  have : T'.stage.rank ≤ 2 := by omega
  cases hg : T'.stage <;> simp [hg, Stage.rank, Stage.past] at this ⊢

end Origin.Life

namespace Origin.User
open Proc (Frame Fn PFinished)
open Whole (userTop running news)

variable {σ C : Type} {pr : Prg σ C} {c : Proc.Cfg} {sig : Bool} {e : State σ C} {a : Abs σ C} {m : σ}

/-- Where the thread is whose stack has user code on top. -/
theorem Rel.at_user (R : Rel pr c e a) (Rp : Proc.Reach c e.w.p) {t : Nat} {fn : Fn} {rest : List Frame} (hs : e.w.p.stk t = .user fn :: rest) :
    ∃ T cd cs k, a.thr[t]? = some T ∧ e.code t = cd :: cs ∧ T.pos = .run cd k := by
  obtain ⟨T, hT⟩ := R.thread Rp (t := t) (by rw [hs]; simp)
  have hpos := (R.thr t T hT).pos
  rw [hs] at hpos
  simp only [posOf] at hpos
  obtain ⟨cd, cs, k, h1, h2⟩ := posU_run hpos
  exact ⟨T, cd, cs, k, hT, h1, h2⟩

/-- User code makes operations only when it is what runs. -/
theorem user_top {t ad tid : Nat} {e' : State σ C} (h : step pr c sig e (.user t ad tid) = some e') : ∃ fn rest, e.w.p.stk t = .user fn :: rest := by
  have proc : ∀ {y : Proc.Action} {p'}, Proc.step c e.w.p y = some p' → y ≠ .step y.tid → ∃ fn rest, e.w.p.stk y.tid = .user fn :: rest := by
    intro y p' hy hne
    unfold Proc.step at hy
    split at hy
    · cases hy
    split at hy
    · cases hy
    · next fn rest hs => exact ⟨fn, rest, hs⟩
    · simp at hy
  simp only [step] at h
  split at h
  · cases h
  next cd cs hcd =>
  have life : ∀ {w'} {y : Life.Action}, Whole.step c sig e.w (.life y) = some w' → (∃ u, y = .join t u ∨ y = .detach t u ∨ y = .id t u) →
      ∃ fn rest, e.w.p.stk t = .user fn :: rest := by
    rintro w' y h ⟨u, hy⟩
    have hal := alive h
    simp only [Whole.step, hal, Bool.or_self, Bool.false_eq_true, if_false] at h
    rcases hy with rfl | rfl | rfl
    all_goals
      simp only at h
      split at h
      · exact userTop_stk (by assumption)
      · cases h
  cases hop : pr.op cd with
  | mem f =>
    simp only [hop] at h
    split at h
    case isFalse => cases h
    next hc =>
    simp only [Bool.and_eq_true, Bool.not_eq_true'] at hc
    exact userTop_stk hc.1.2
  | ret v =>
    simp only [hop, Op.action, Option.bind_some, Option.map_eq_some_iff] at h
    obtain ⟨w', h, rfl⟩ := h
    split at h
    · next hs => exact ⟨_, _, hs⟩
    · obtain ⟨-, -, p', hp, -⟩ := whole_proc h
      exact proc hp (by simp [Proc.Action.tid])
  | create g k =>
    simp only [hop, Op.action, Option.bind_some, Option.map_eq_some_iff] at h
    obtain ⟨w', h, rfl⟩ := h
    have hal := alive h
    simp only [Whole.step, hal, Bool.or_self, Bool.false_eq_true, if_false, Option.bind_eq_some_iff, Option.map_eq_some_iff] at h
    obtain ⟨l', -, p', hp, -⟩ := h
    exact proc hp (by simp [Proc.Action.tid])
  | join u k =>
    simp only [hop, Op.action, Option.bind_some, Option.map_eq_some_iff] at h
    obtain ⟨w', h, rfl⟩ := h
    exact life h ⟨u, .inl rfl⟩
  | detach u k =>
    simp only [hop, Op.action, Option.bind_some, Option.map_eq_some_iff] at h
    obtain ⟨w', h, rfl⟩ := h
    exact life h ⟨u, .inr (.inl rfl)⟩
  | id u k =>
    simp only [hop, Op.action, Option.bind_some, Option.map_eq_some_iff] at h
    obtain ⟨w', h, rfl⟩ := h
    exact life h ⟨u, .inr (.inr rfl)⟩
  | _ =>
    simp only [hop, Op.action, Option.bind_some, Option.map_eq_some_iff] at h
    obtain ⟨w', h, rfl⟩ := h
    obtain ⟨-, -, p', hp, -⟩ := whole_proc h
    exact proc hp (by simp [Proc.Action.tid])

theorem past_mono (K0 : Calm c sig e.w) {x : Action} {e' : State σ C} (hs : step pr c sig e x = some e') {u : Nat} (P : Life.Past e.w.l u) :
    Life.Past e'.w.l u := by
  rcases step_w hs with ⟨h, -⟩ | ⟨y, h1, h2⟩
  · rw [h]; exact P
  have hl := whole_life h2
  split at hl
  · obtain ⟨l', hl, hle⟩ := hl
    rw [hle]
    exact P.step (K0.for u) hl
  · rw [hl]; exact P

theorem gone_nil {t : Nat} {r : Option Nat} {x : Nat} (h1 : a.asks pr t = none) (h2 : a.creates pr t = false) : a.gone pr t r x = [] := by
  simp [Abs.gone, h1, h2]

/-- `sim_step`, saying what `id` says. -/
theorem sim_stepI (hok : c.Ok pr.ctors.length pr.finis.length) (R : Rel pr c e a) (K0 : Calm c sig e.w) {x : Action} {e' : State σ C}
    (hs : step pr c sig e x = some e') (K : Calm c sig e'.w) :
    ∃ a', ((a' = a ∧ Unseen pr e x e') ∨ ∃ t r y, astep pr (locks c) a t r y = some a' ∧ Actor pr a e x e' t ∧
      (∀ u, a.asks pr t = some u → Life.Past e.w.l u → r = none) ∧ ∀ u ∈ a.gone pr t r y, Life.Past e.w.l u) ∧ Rel pr c e' a' := by
  have go : (∀ t, Actor pr a e x e' t → a.asks pr t = none ∧ a.creates pr t = false) →
      ∃ a', ((a' = a ∧ Unseen pr e x e') ∨ ∃ t r y, astep pr (locks c) a t r y = some a' ∧ Actor pr a e x e' t ∧
      (∀ u, a.asks pr t = some u → Life.Past e.w.l u → r = none) ∧ ∀ u ∈ a.gone pr t r y, Life.Past e.w.l u) ∧ Rel pr c e' a' := by
    intro hq
    obtain ⟨a', ⟨rfl, hu⟩ | ⟨t, r, y, h, ha⟩, RR⟩ := sim_stepT hok R K0 hs K
    · exact ⟨_, .inl ⟨rfl, hu⟩, RR⟩
    · obtain ⟨h1, h2⟩ := hq t ha
      exact ⟨a', .inr ⟨t, r, y, h, ha, by simp [h1], by simp [gone_nil h1 h2]⟩, RR⟩
  cases x with
  | sys z =>
    refine go fun t ha => ?_
    cases z with
    | life z =>
      have hw := ha.2
      unfold Abs.waits at hw
      split at hw
      · next cd kk f tid hT =>
        split at hw <;> simp at hw
        · next hop => simp [Abs.asks, Abs.creates, hT, hop]
        · next hop => simp [Abs.asks, Abs.creates, hT, hop]
      · cases hw
    | proc z => cases z <;> first | exact ha.2 | exact absurd ha id
    | release t' => exact ha.2
    | create => exact absurd ha id
    | ret => exact absurd ha id
  | user t ad tid =>
    obtain ⟨fn, rest, hstk⟩ := user_top hs
    obtain ⟨⟨p, f, i⟩, cd, cs, kk, hT, hcd, hp⟩ := R.at_user K0.known.proc hstk
    simp only at hp
    subst hp
    have hst := hs
    simp only [step, hcd] at hst
    cases hop : pr.op cd with
    | id u k =>
      simp only [hop, Op.action, Option.bind_some, Option.map_eq_some_iff] at hst
      obtain ⟨w', h, rfl⟩ := hst
      rw [absorb_w] at K
      obtain ⟨a', ⟨r, y, h1, h2, h3⟩, RR⟩ := sim_idW R K0 hcd hop h K
      have hask : a.asks pr t = some u := by simp [Abs.asks, hT, hop]
      have hcr : a.creates pr t = false := by simp [Abs.creates, hT, hop]
      refine ⟨a', .inr ⟨t, r, y, h1, rfl, ?_, ?_⟩, RR⟩
      · intro u' h; rw [hask] at h; cases h; exact h3
      · intro u' h
        simp only [Abs.gone, hask, hcr, Bool.false_eq_true, if_false, List.append_nil] at h
        cases r with
        | none => simp at h; subst h; exact h2 rfl
        | some => simp at h
    | create g k =>
      simp only [hop, Op.action, Option.bind_some, Option.map_eq_some_iff] at hst
      obtain ⟨w', h, rfl⟩ := hst
      rw [absorb_w] at K
      obtain ⟨a', ⟨h1, h2⟩, RR⟩ := sim_createW R K0 hcd hop h K
      have hask : a.asks pr t = none := by simp [Abs.asks, hT, hop]
      have hcr : a.creates pr t = true := by simp [Abs.creates, hT, hop]
      refine ⟨a', .inr ⟨t, none, tid, h1, rfl, by simp [hask], ?_⟩, RR⟩
      intro u h
      simp only [Abs.gone, hask, hcr, if_true, List.nil_append, List.mem_filter, List.mem_range] at h
      obtain ⟨-, h⟩ := h
      split at h
      · next U hU =>
        obtain ⟨L, hL, hd⟩ := h2 u U hU (by simpa using h)
        exact ⟨L, hL, by rw [hd]; trivial⟩
      · cases h
    | _ =>
      refine go fun t' ha => ?_
      have : t = t' := ha
      subst this
      simp [Abs.asks, Abs.creates, hT, hop]

theorem sim_reachI (hok : c.Ok pr.ctors.length pr.finis.length) (R : Reach pr c sig m (Life.Orderly sig) e) :
    ∃ a, (∃ l, AReachI pr (locks c) m l a ∧ ∀ u ∈ l, Life.Past e.w.l u) ∧ Rel pr c e a := by
  induction R with
  | init ad tid _ => exact ⟨_, ⟨[], .init tid, by simp⟩, Rel.init ad tid⟩
  | step R hp hs ih =>
    obtain ⟨a, ⟨l, A, hl⟩, RR⟩ := ih
    obtain ⟨a', h, RR'⟩ := sim_stepI hok RR R.calm hs (Reach.step R hp hs).calm
    rcases h with ⟨rfl, -⟩ | ⟨t, r, x, h, -, h1, h2⟩
    · exact ⟨_, ⟨l, A, fun u hu => past_mono R.calm hs (hl u hu)⟩, RR'⟩
    · refine ⟨_, ⟨_, A.step h fun u hu hq => h1 u hq (hl u hu), fun u hu => ?_⟩, RR'⟩
      rcases List.mem_append.mp hu with hu | hu
      · exact past_mono R.calm hs (h2 u hu)
      · exact past_mono R.calm hs (hl u hu)

theorem AReachI.reach {lk : Bool} {l : List Nat} (A : AReachI pr lk m l a) : AReach pr lk m a := by
  induction A with
  | init tid => exact .init tid
  | step A h _ ih => exact ih.step h

end Origin.User
