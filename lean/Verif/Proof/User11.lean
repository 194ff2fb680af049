import Verif.Proof.User10
set_option linter.unusedSimpArgs false
/-! # User programs: programs that never wait; exploring the abstract machine -/

namespace Origin.User
open Proc (Frame Fn PFinished)
open Whole (userTop running news)

variable {σ C : Type} {pr : Prg σ C} {c : Proc.Cfg} {sig : Bool} {e : State σ C} {a : Abs σ C} {m : σ}

/-- A program that never calls `join` or `detach`. -/
def NoWait (pr : Prg σ C) : Prop := NoDetach pr ∧ ∀ cd u k, pr.op cd ≠ .join u k

theorem Reach.no_call {P : Life.State → Life.Action → Prop} (hn : NoWait pr) (R : Reach pr c sig m P e) (t : Nat) : e.w.l.call t = none := by
  induction R generalizing t with
  | init ad tid => rfl
  | step R hp hs ih =>
    rename_i e x e'
    rcases step_w hs with ⟨h, -⟩ | ⟨y, h1, h2⟩
    · rw [h]; exact ih t
    · have := whole_life h2
      split at this
      case h_2 => rw [this]; exact ih t
      next z hz =>
      obtain ⟨l', hl, hle⟩ := this
      rw [hle]
      by_cases hsy : z.sys = true
      · cases hc : l'.call t with
        | none => rfl
        | some cl =>
          obtain ⟨cl0, h0, -⟩ := (Life.step_eff hl hsy).call t cl hc
          rw [ih t] at h0; cases h0
      · have hjd : (∀ t v, z ≠ .join t v) ∧ ∀ t v, z ≠ .detach t v := by
          cases x with
          | sys x =>
            cases h1
            refine ⟨fun t v h => ?_, fun t v h => ?_⟩ <;> subst h <;> cases y <;> simp [Whole.Action.life?] at hz <;> subst hz <;> cases hs
          | user t' ad tid =>
            simp only [Action.whole, State.op, Option.bind_eq_some_iff, Option.map_eq_some_iff] at h1
            obtain ⟨o, ⟨cd, -, rfl⟩, ha⟩ := h1
            have h2' := hn.1 cd
            have h3 := hn.2 cd
            cases hop : pr.op cd <;> simp only [hop, Op.action, Option.some.injEq, reduceCtorEq] at ha
            case ret => subst ha; split at hz <;> simp [Whole.Action.life?] at hz; subst hz; exact ⟨by simp, by simp⟩
            case detach u' k => exact absurd hop (h2' _ _)
            case join u' k => exact absurd hop (h3 _ _)
            all_goals (subst ha; simp [Whole.Action.life?] at hz; try (subst hz; exact ⟨by simp, by simp⟩))
        have ht := ih t
        cases z <;> simp [Life.Action.sys] at hsy <;> simp only [Life.step] at hl
        case join t v => exact absurd rfl (hjd.1 t v)
        case detach t v => exact absurd rfl (hjd.2 t v)
        all_goals
          (repeat' split at hl) <;> cases hl <;> exact ht

/-- A program that never waits cannot meet a stray wake-up. -/
theorem Reach.free_step (hn : NoWait pr) (ih : Reach pr c sig m (Life.Orderly sig) e)
    {x : Action} {e' : State σ C} (hs : User.step pr c sig e x = some e') :
    ∀ y z, x.whole pr e = some y → y.life? = some z → Life.Orderly sig e.w.l z := by
  intro y z hy hz
  have K := ih.calm
  rcases step_w hs with ⟨-, h⟩ | ⟨y', h1, h2⟩
  · rw [h] at hy; cases hy
  rw [hy] at h1; cases h1
  have := whole_life h2
  rw [hz] at this
  obtain ⟨l', hl, -⟩ := this
  refine ⟨fun hst => ?_, .inr fun hla => ?_⟩
  · cases z <;> simp [Life.Stray] at hst
    rename_i t o
    cases o with
    | none => simp at hst
    | some j =>
      obtain ⟨k, ad, h, hc, -⟩ := hst
      rw [ih.no_call hn j] at hc; cases hc
  · obtain ⟨j, u, hd⟩ := Life.late_detached (K.for 0) hl hla
    exact ih.no_detach hn.1 j u hd

theorem Reach.free (hn : NoWait pr) (R : Reach pr c sig m (fun _ _ => True) e) : Reach pr c sig m (Life.Orderly sig) e := by
  induction R with
  | init ad tid ht => exact .init ad tid ht
  | step R hp hs ih => exact .step ih (ih.free_step hn hs) hs

/-! ## exploring -/

/-- The state without the threads' ids. -/
def Abs.erase (a : Abs σ C) : Abs σ C := { a with thr := a.thr.map fun T => { T with tid := 0 } }

/-- A program that does not ask for ids. -/
def NoId (pr : Prg σ C) : Prop := ∀ cd u k, pr.op cd ≠ .id u k

theorem erase_get (a : Abs σ C) (t : Nat) : a.erase.thr[t]? = (a.thr[t]?).map fun T => { T with tid := 0 } := List.getElem?_map

theorem erase_set (a : Abs σ C) (t : Nat) (T : AThr C) : (a.setThr t T).erase = a.erase.setThr t { T with tid := 0 } := by
  simp [Abs.erase, Abs.setThr, List.map_set, Function.comp_def]

theorem erase_erase_set (a : Abs σ C) (t : Nat) (T : AThr C) : (a.erase.setThr t T).erase = a.erase.setThr t { T with tid := 0 } := by
  rw [erase_set]
  simp [Abs.erase, Function.comp_def]

theorem erase_free (a : Abs σ C) : a.erase.tidFree 1 = true := by
  simp only [Abs.tidFree, Abs.erase, List.all_map, List.all_eq_true]
  intro T _
  simp only [Function.comp]
  split <;> rfl

/-- Ids make no difference to a program that does not ask for them. -/
theorem astep_erase (hn : NoId pr) {lk : Bool} {t x : Nat} {r : Option Nat} {a' : Abs σ C} (h : astep pr lk a t r x = some a') :
    (astep pr lk a.erase t none 1).map Abs.erase = some a'.erase := by
  unfold astep at h ⊢
  split at h
  · cases h
  next hst =>
  rw [if_neg (show ¬ a.erase.status.isSome = true from hst)]
  split at h
  · cases h
  next T hT =>
  rw [erase_get, hT]
  simp only [Option.map_some]
  split at h
  · next cd k hp =>
    simp only [hp]
    cases hop : pr.op cd <;> simp only [hop, opStep] at h ⊢
    case id u k => exact absurd hop (hn _ _ _)
    case create g cc =>
      split at h <;> cases h
      rw [if_pos ⟨by decide, erase_free a⟩]
      simp [Abs.erase, List.map_set, Function.comp_def]
    case join u cc =>
      rw [erase_get]
      split at h
      · next v f i hu =>
        cases h
        simp only [hu, Option.map_some]
        rw [erase_erase_set, erase_set]
      · cases h
    case atExitP g cc =>
      split at h <;> cases h
      next hcl =>
      rw [if_neg (show ¬ a.erase.closed = true from hcl)]
      simp [Abs.erase, Abs.setThr, List.map_set, Function.comp_def]
    all_goals
      cases h
      simp [Abs.erase, Abs.setThr, List.map_set, Function.comp_def]
  · next k hp =>
    simp only [hp]
    unfold nextStep at h ⊢
    split at h
    all_goals
      first
      | (cases h; done)
      | (cases h; simp [Abs.erase, Abs.setThr, List.map_set, Function.comp_def]; done)
      | (split at h <;> cases h <;> simp_all [Abs.erase, Abs.setThr, List.map_set, Function.comp_def]; done)
      | (split at h
         · cases h
         · next hcl =>
           rw [if_neg (show ¬ a.erase.closed = true from hcl)]
           rw [show a.erase.fns = a.fns from rfl]
           split at h <;> cases h <;> simp_all [Abs.erase, Abs.setThr, List.map_set, Function.comp_def])
  · cases h

/-- The states after the next step, ids left out. -/
def succs (pr : Prg σ C) (lk : Bool) (a : Abs σ C) : List (Abs σ C) :=
  (List.range a.thr.length).filterMap fun t => (astep pr lk a t none 1).map Abs.erase

/-- `P` holds of `a` and all states reachable from it, of which no path is longer than `n`. -/
def explore (pr : Prg σ C) (lk : Bool) (P : Abs σ C → Bool) : Nat → Abs σ C → Bool
  | 0, _ => false
  | n + 1, a => P a && (succs pr lk a).all (explore pr lk P n)

theorem explore_sound (hn : NoId pr) {lk : Bool} {P : Abs σ C → Bool} {n : Nat} (h : explore pr lk P n (ainit pr m 0) = true)
    (A : AReach pr lk m a) : P a.erase = true := by
  suffices hk : ∃ n, explore pr lk P n a.erase = true by
    obtain ⟨n, h⟩ := hk
    cases n with
    | zero => cases h
    | succ n => simp only [explore, Bool.and_eq_true] at h; exact h.1
  induction A with
  | init tid => exact ⟨n, h⟩
  | step A hs ih =>
    rename_i a t r x a'
    obtain ⟨n, h⟩ := ih
    cases n with
    | zero => cases h
    | succ n =>
      simp only [explore, Bool.and_eq_true, List.all_eq_true] at h
      refine ⟨n, h.2 _ ?_⟩
      refine List.mem_filterMap.mpr ⟨t, List.mem_range.mpr ?_, astep_erase hn hs⟩
      unfold astep at hs
      split at hs
      · cases hs
      · split at hs
        · cases hs
        · next T hT =>
          simp only [Abs.erase, List.length_map]
          exact (List.getElem?_eq_some_iff.mp hT).1

end Origin.User
