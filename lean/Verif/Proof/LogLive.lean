import Verif.Spec.LogLive
import Verif.Props.LogProc
import Verif.Props.FairProc
/-! # Liveness with messages, by way of the model without -/

namespace Origin.LogProc

open Proc (Cfg Fn Tid FnId Exit Ev Action)

variable {c : Cfg} {st : Nat → State} {act : Nat → Option Action}

theorem exists_seq {α : Type} {P : Nat → α → Prop} {R : Nat → α → α → Prop} (h0 : ∃ a, P 0 a) (hs : ∀ n a, P n a → ∃ b, P (n + 1) b ∧ R n a b) :
    ∃ f : Nat → α, ∀ n, P n (f n) ∧ R n (f n) (f (n + 1)) := by
  obtain ⟨a, ha⟩ := h0
  let g : (n : Nat) → { a // P n a } := fun n => Nat.rec ⟨a, ha⟩ (fun n x => ⟨(hs n x.1 x.2).choose, (hs n x.1 x.2).choose_spec.1⟩) n
  exact ⟨fun n => (g n).1, fun n => ⟨(g n).2, (hs n (g n).1 (g n).2).choose_spec.2⟩⟩

/-- An execution with messages, and the corresponding call stacks and actions without. -/
structure Lift (c : Cfg) (st : Nat → State) (act : Nat → Option Action) (k : Nat → Tid → List Proc.Frame) (xs : Nat → List Action) : Prop where
  sim : ∀ n, Sim c (st n) (k n)
  run : ∀ n, Proc.run c (view c (st n) (k n)) (xs n) = some (view c (st (n + 1)) (k (n + 1)))
  idle : ∀ n, act n = none → xs n = []
  next : ∀ n x, act n = some x → Follows x (st n) (k n) (xs n)
  start : view c (st 0) (k 0) = Proc.init

theorem IsLExec.lift (X : IsLExec c st act) : ∃ k xs, Lift c st act k xs := by
  obtain ⟨k, hk⟩ := exists_seq (P := fun n k => Sim c (st n) k ∧ (n = 0 → view c (st 0) k = Proc.init))
    (R := fun n k k' => ∃ xs, Proc.run c (view c (st n) k) xs = some (view c (st (n + 1)) k') ∧ (act n = none → xs = []) ∧ ∀ x, act n = some x → Follows x (st n) k xs)
    ⟨fun t => if t = 0 then [.entry] else [], by
      rw [X.start]
      refine ⟨⟨.init, fun _ t => ?_, fun t ht => ?_⟩, fun _ => rfl⟩
      · simp only [LogProc.init]
        split
        · exact .inr ⟨by simp, .entry .nil⟩
        · exact .inr ⟨by simp, .nil⟩
      · simp only [LogProc.init] at ht
        split at ht <;> simp at ht⟩
    (fun n k ⟨S, _⟩ => by
      cases ha : act n with
      | none => exact ⟨k, ⟨by rw [X.idle n ha]; exact S, by simp⟩, [], by rw [X.idle n ha]; rfl, fun _ => rfl, fun x h => by cases h⟩
      | some x =>
        obtain ⟨k', xs, h1, h2, h3⟩ := step_sim S (X.next n x ha).1 (X.next n x ha).2
        exact ⟨k', ⟨h1, by simp⟩, xs, h2, (fun h => by cases h), (fun y h => by cases h; exact h3)⟩)
  have hx : ∀ n, ∃ xs, Proc.run c (view c (st n) (k n)) xs = some (view c (st (n + 1)) (k (n + 1))) ∧ (act n = none → xs = []) ∧ ∀ x, act n = some x → Follows x (st n) (k n) xs :=
    fun n => (hk n).2
  obtain ⟨xs, hxs⟩ := Classical.axiomOfChoice hx
  exact ⟨k, xs, fun n => (hk n).1.1, fun n => (hxs n).1, fun n => (hxs n).2.1, fun n => (hxs n).2.2, (hk 0).1.2 rfl⟩

/-- The states of the execution without messages: two for each. -/
def PS (c : Cfg) (st : Nat → State) (k : Nat → Tid → List Proc.Frame) (xs : Nat → List Action) (j : Nat) : Proc.State :=
  if j % 2 = 0 then view c (st (j / 2)) (k (j / 2))
  else match xs (j / 2) with
    | [] => view c (st (j / 2)) (k (j / 2))
    | y :: _ => (Proc.step c (view c (st (j / 2)) (k (j / 2))) y).getD (view c (st (j / 2)) (k (j / 2)))

/-- Its actions. -/
def pact (xs : Nat → List Action) (j : Nat) : Option Action := (xs (j / 2))[j % 2]?

variable {k : Nat → Tid → List Proc.Frame} {xs : Nat → List Action}

theorem PS_even (n : Nat) : PS c st k xs (2 * n) = view c (st n) (k n) := by
  simp [PS]

theorem pact_even (n : Nat) : pact xs (2 * n) = (xs n)[0]? := by
  simp [pact]

theorem pact_odd (n : Nat) : pact xs (2 * n + 1) = (xs n)[1]? := by
  have h1 : (2 * n + 1) / 2 = n := by omega
  have h2 : (2 * n + 1) % 2 = 1 := by omega
  simp [pact, h1, h2]

theorem PS_odd (n : Nat) : PS c st k xs (2 * n + 1) = match xs n with
    | [] => view c (st n) (k n)
    | y :: _ => (Proc.step c (view c (st n) (k n)) y).getD (view c (st n) (k n)) := by
  have h1 : (2 * n + 1) / 2 = n := by omega
  have h2 : (2 * n + 1) % 2 = 1 := by omega
  simp [PS, h1, h2]

theorem par (j : Nat) : ∃ n, j = 2 * n ∨ j = 2 * n + 1 := ⟨j / 2, by omega⟩

theorem Follows.len {x : Action} {s : State} {k : Tid → List Proc.Frame} {l : List Action} (h : Follows x s k l) : l = [] ∨ (∃ y, l = [y]) ∨ ∃ y z, l = [y, z] := by
  cases h
  · exact .inl rfl
  · exact .inr (.inl ⟨_, rfl⟩)
  · exact .inr (.inl ⟨_, rfl⟩)
  · exact .inr (.inr ⟨_, _, rfl⟩)
  · exact .inr (.inr ⟨_, _, rfl⟩)

theorem Lift.len (L : Lift c st act k xs) (n : Nat) : xs n = [] ∨ (∃ y, xs n = [y]) ∨ ∃ y z, xs n = [y, z] := by
  cases ha : act n with
  | none => exact .inl (L.idle n ha)
  | some x => exact (L.next n x ha).len

theorem Lift.exec (L : Lift c st act k xs) : Proc.IsExec c (PS c st k xs) (pact xs) := by
  have e : ∀ n, 2 * n + 1 + 1 = 2 * (n + 1) := fun n => by omega
  refine ⟨⟨fun j h => ?_, fun j x h => ?_⟩, ?_⟩
  · obtain ⟨n, rfl | rfl⟩ := par j
    · rw [pact_even] at h
      rw [PS_even, PS_odd]
      rcases L.len n with h1 | ⟨y, h1⟩ | ⟨y, z, h1⟩ <;> simp [h1] at h ⊢
    · rw [pact_odd] at h
      have hr := L.run n
      rw [e, PS_even, PS_odd]
      rcases L.len n with h1 | ⟨y, h1⟩ | ⟨y, z, h1⟩ <;> simp [h1] at h ⊢
      · rw [h1] at hr; simp only [Proc.run, Option.some.injEq] at hr; exact hr.symm
      · rw [h1] at hr
        simp only [Proc.run, Option.bind_eq_some_iff, Option.some.injEq] at hr
        obtain ⟨b, hb, rfl⟩ := hr
        simp [hb]
  · obtain ⟨n, rfl | rfl⟩ := par j
    · rw [pact_even] at h
      have hr := L.run n
      rw [PS_even, PS_odd]
      rcases L.len n with h1 | ⟨y, h1⟩ | ⟨y, z, h1⟩ <;> simp [h1] at h ⊢
      all_goals
        subst h
        rw [h1] at hr
        simp only [Proc.run, Option.bind_eq_some_iff] at hr
        obtain ⟨b, hb, -⟩ := hr
        simp [hb]
    · rw [pact_odd] at h
      have hr := L.run n
      rw [e, PS_even, PS_odd]
      rcases L.len n with h1 | ⟨y, h1⟩ | ⟨y, z, h1⟩ <;> simp [h1] at h ⊢
      subst h
      rw [h1] at hr
      simp only [Proc.run, Option.bind_eq_some_iff, Option.some.injEq] at hr
      obtain ⟨b, hb, d, hd, rfl⟩ := hr
      simp [hb, hd]
  · rw [show (0 : Nat) = 2 * 0 from rfl, PS_even]; exact L.start

end Origin.LogProc
