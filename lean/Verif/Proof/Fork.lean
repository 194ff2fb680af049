import Verif.Proof.Lifecycle6
import Verif.Model.Fork
/-!
# The lifecycle invariant across forks
-/

namespace Origin.Life

variable {w : Inst → Bool} {b sig : Bool} {s s' : State}

/-- The child as a record of what it is. -/
theorem forkChild_spec {t : Inst} {tid : Nat} {cl : Bool} (h : forkChild s t tid cl = some s') :
    ∃ T r, s.thr t = some T ∧ T.stage.user ∧ tid ≠ 0 ∧ s.view T.addr t = some r ∧
      s'.recs = (fun x => if x = T.addr then some { r with tid := tid } else none) ∧
      s'.thr = (fun x => if x = t then some { T with tid := tid, clear := cl, forked := !cl } else none) ∧
      s'.call = (fun _ => none) ∧ s'.next = s.next ∧
      ((∃ j, s.cons t = some (j, .detach, .released) ∧
          s'.cons = (fun x => if x = t then some (j, .detach, .released) else none) ∧ s'.log = forkLog t T (some j) tid) ∨
       ((∀ j, s.cons t ≠ some (j, .detach, .released)) ∧ s'.cons = (fun _ => none) ∧ s'.log = forkLog t T none tid)) := by
  unfold forkChild at h
  split at h
  · next T hT =>
    split at h
    · next hu =>
      split at h
      · next r hr =>
        injection h with h
        refine ⟨T, r, hT, ?_, hu.2, hr, by rw [← h], by rw [← h], by rw [← h], by rw [← h], ?_⟩
        · have := hu.1
          unfold State.inUser at this
          cases hs : T.stage <;> simp_all [Stage.user]
        · by_cases hc : ∃ j, s.cons t = some (j, .detach, .released)
          · obtain ⟨j, hj⟩ := hc
            refine .inl ⟨j, hj, ?_, ?_⟩
            · rw [← h]; simp only [hj, detachedBy, Option.map_some]
            · rw [← h]; simp only [hj, detachedBy]
          · have hn : detachedBy (s.cons t) = none := by
              unfold detachedBy
              split
              · next j hj => exact absurd ⟨j, hj⟩ hc
              · rfl
            refine .inr ⟨fun j hj => hc ⟨j, hj⟩, ?_, ?_⟩
            · rw [← h]; simp only [hn, Option.map_none, ite_self]
            · rw [← h, hn]
      · cases h
    · cases h
  · cases h

theorem fork_inv (I : Inv (fun _ => true) sig s) {t : Inst} {tid : Nat} {cl : Bool} (h : forkChild s t tid cl = some s') :
    Inv w sig s' := by
  obtain ⟨T, r, hT, hu, h0, hr, e1, e2, e3, e4, hc⟩ := forkChild_spec h
  have O := I.ok t T hT
  have hview : s'.view T.addr t = some { r with tid := tid } := view_of (by simp [e1]) (view_some hr).2
  have thr : ∀ y Y, s'.thr y = some Y → y = t ∧ Y = { T with tid := tid, clear := cl, forked := !cl } := by
    intro y Y hY
    rw [e2] at hY
    simp only at hY
    split at hY
    · next hy => injection hY with hY; exact ⟨hy, hY.symm⟩
    · cases hY
  have hthr : s'.thr t = some { T with tid := tid, clear := cl, forked := !cl } := by simp [e2]
  have hlog : ∀ e ∈ s'.log, e.about = t := by
    intro e he
    rcases hc with ⟨j, -, -, hl⟩ | ⟨-, -, hl⟩ <;> rw [hl] at he <;> cases hret : T.ret <;> simp [forkLog, hret] at he <;> grind [Ev.about]
  constructor
  · rw [e4]; exact I.nextPos
  · intro y Y hY
    obtain ⟨rfl, -⟩ := thr y Y hY
    rw [e4]; exact I.lt y T hT
  · intro y hy
    have : y = t := by
      apply Classical.byContradiction; intro hne
      rcases hc with ⟨j, -, hc, -⟩ | ⟨-, hc, -⟩ <;> simp [hc, hne] at hy
    subst this; rw [hthr]; simp
  · intro y Y hY
    obtain ⟨rfl, rfl⟩ := thr y Y hY
    rw [hview]
    have G := O.good
    rw [hr] at G
    have hret : T.stage = .body ∧ T.ret = none ∨ ∃ v, T.stage = .dtors v ∧ T.ret = some v := by
      cases hs : T.stage <;> simp [hs, Stage.user] at hu <;> simp only [Good, hs] at G
      · exact .inl ⟨rfl, G.2⟩
      · exact .inr ⟨_, rfl, G.2⟩
    have hdet : (r.detached = .initial ∧ ∀ j, s.cons y ≠ some (j, .detach, .released)) ∨ (r.detached = .detached ∧ Released (s.cons y)) := by
      have L : Live true T (s.cons y) (some r) := by
        cases hs : T.stage <;> simp [hs, Stage.user] at hu <;> simp only [Good, hs] at G <;> exact G.1
      rcases L.rec.2.2 with ⟨q1, q2⟩ | q
      · refine .inl ⟨q1, fun j hj => ?_⟩
        rw [hj] at q2
        simp [Pending] at q2
      · exact .inr q
    refine ⟨?_, ?_, ⟨O.main.1, ?_, ?_⟩, h0⟩
    · have L : Live (w y) { T with tid := tid, clear := cl, forked := !cl } (s'.cons y) (some { r with tid := tid }) := by
        refine ⟨by simp, .inr ⟨_, rfl, rfl, ?_⟩⟩
        rcases hc with ⟨j, hj, hc, -⟩ | ⟨hj, hc, -⟩
        · refine .inr ⟨?_, j, by simp [hc]⟩
          rcases hdet with q | q
          · exact absurd hj (q.2 j)
          · exact q.1
        · refine .inl ⟨?_, .inl (by simp [hc])⟩
          rcases hdet with q | ⟨-, j, q⟩
          · exact q.1
          · exact absurd q (hj j)
      rcases hret with ⟨q1, q2⟩ | ⟨v, q1, q2⟩ <;> simp only [Good, q1] <;> exact ⟨L, q2⟩
    · have hng : ¬ T.stage.gone ∧ ¬ T.stage.past := by
        rcases hret with ⟨q1, -⟩ | ⟨v, q1, -⟩ <;> simp [q1, Stage.gone, Stage.past]
      rcases hc with ⟨j, hj, hc, hl⟩ | ⟨hj, hc, hl⟩ <;> rw [hl, hc] <;>
        rcases hret with ⟨q1, q2⟩ | ⟨v, q1, q2⟩ <;> simp only [forkLog, q2] <;>
        constructor <;> simp [hng, unmaps, Stage.gone, Stage.past, eq_comm] <;> grind
    · intro x hx; injection hx with hx; subst hx
      exact O.main.2.1 r hr
    · intro hy
      refine ⟨by simp, fun j k => ?_⟩
      rcases hc with ⟨j, -, hc, -⟩ | ⟨-, hc, -⟩ <;> simp [hc]
  · intro a r' hr'
    rw [e1] at hr'
    simp only at hr'
    split at hr'
    · next ha =>
      injection hr' with hr'; subst hr'
      refine ⟨{ T with tid := tid, clear := cl, forked := !cl }, ?_, ha.symm⟩
      rw [show ({ r with tid := tid } : Rec).owner = t from (view_some hr).2]; exact hthr
    · cases hr'
  · intro j c hjc; rw [e3] at hjc; cases hjc
  · intro e he
    rw [hlog e he]; exact ⟨_, hthr⟩
  · rcases hc with ⟨j, -, -, hl⟩ | ⟨-, -, hl⟩ <;> rw [hl] <;> unfold forkLog <;> cases T.ret <;> simp [TraceOk, EvOk]
  · intro y Y y' Y' h1 h2 _ _ _
    rw [(thr y Y h1).1, (thr y' Y' h2).1]
  · intro T0 y Y q1 q2 hne
    rw [(thr y Y q2).1] at hne
    exact absurd (thr 0 T0 q1).1.symm hne

theorem reachF_any {P : State → Action → Prop} {f : Option Inst} (R : ReachF sig P f s) : Inv (fun _ => true) sig s := by
  induction R with
  | init a tid ht => exact init_inv a tid ht
  | step _ _ hs ih => exact step_inv ih (fun _ => .inl rfl) (fun _ => .inl rfl) hs
  | fork _ hf ih => exact fork_inv ih hf

/-- The invariant of every state of every process. -/
theorem reachF_inv {P : State → Action → Prop} {f : Option Inst} (h1 : ∀ s x, P s x → ∀ h, w h = true ∨ ¬ StrayFor h s x)
    (h2 : ∀ s x, P s x → ∀ h, w h = true ∨ sig = true ∨ ¬ LateSignalFor h s x) (R : ReachF sig P f s) : Inv w sig s := by
  induction R with
  | init a tid ht => exact init_inv a tid ht
  | step _ hp hs ih => exact step_inv (ih h1 h2) (h1 _ _ hp) (h2 _ _ hp) hs
  | fork hr hf _ => exact fork_inv (reachF_any hr) hf

/-- The thread that forked stays known. -/
theorem reachF_thr {P : State → Action → Prop} {h : Inst} (R : ReachF sig P (some h) s) : s.thr h ≠ none := by
  generalize hf : some h = f at R
  induction R with
  | init a tid ht => cases hf
  | step hr _ hs ih =>
    obtain ⟨T, hT⟩ := Option.ne_none_iff_exists'.mp (ih hf)
    obtain ⟨Y, hY, -⟩ := (step_forked (reachF_any hr).lt hs).keep h T hT
    rw [hY]; simp
  | @fork P f s t tid cl s' _ hfk _ =>
    obtain ⟨T0, r, -, -, -, -, -, e2, -⟩ := forkChild_spec hfk
    cases cl <;> simp at hf
    subst hf
    simp [e2]

/-- The index is the thread without `clear_child_tid`. -/
theorem reachF_forked {P : State → Action → Prop} {f : Option Inst} (R : ReachF sig P f s) :
    ∀ h T, s.thr h = some T → (T.forked = true ↔ f = some h) ∧ (f = some h → T.clear = false) := by
  induction R with
  | init a tid ht =>
    intro h T hT
    simp only [init] at hT
    split at hT
    · injection hT with hT; subst hT; simp
    · cases hT
  | @step P f s x s' hr _ hs ih =>
    intro h T hT
    have I := reachF_any hr
    have K := step_forked I.lt hs
    cases hy : s.thr h with
    | none =>
      have hn := K.new h T hT hy
      rw [hn]
      have hf : f ≠ some h := by
        rintro rfl
        exact reachF_thr hr hy
      simp [hf]
    | some Y =>
      obtain ⟨Y', a1, a2, -, -, a5⟩ := K.keep h Y hy
      rw [hT] at a1; injection a1 with a1; subst a1
      obtain ⟨b1, b2⟩ := ih h Y hy
      refine ⟨by rw [a2]; exact b1, fun hf => ?_⟩
      cases hc : T.clear
      · rfl
      · rw [b2 hf] at a5; exact absurd (a5 hc) (by simp)
  | fork _ hf _ =>
    intro h T hT
    obtain ⟨T0, r, -, -, -, -, -, e2, -⟩ := forkChild_spec hf
    rw [e2] at hT
    simp only at hT
    split at hT
    · next hh =>
      injection hT with hT; subst hT
      rename_i cl _ _ _
      cases cl <;> simp [hh]
    · cases hT

end Origin.Life
