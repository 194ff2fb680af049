import Verif.Model.Libc2
import Verif.Props.Libc
/-!
# C53, C54: libc backend: `sigaction`, stack queries and defaults
-/

namespace Origin.Libc
open Origin

/-! ## C53 -/

/-- **C53, what holds.**  Whatever libc answers: a query (no action) passes no action and returns libc's answer; and if what is left in the dead
variable is still the action, then the action is passed as given and libc's answer (the old action, or its error) is returned. -/
theorem C53_sigaction_partial {α : Type} (junk : α → α) (k : Nat → Option α → Except Nat α) (sig : Nat) :
    sigaction junk k sig none = k sig none ∧ ∀ act, junk act = act → sigaction junk k sig (some act) = k sig (some act) := by
  refine ⟨rfl, fun act h => ?_⟩
  show k sig (some (junk act)) = _
  rw [h]

/-- **C53 is false of the code**: the pointer given to libc is to a variable that no longer exists, so (there is more than one action, and) some compilation of
it passes another action. -/
theorem C53_false {α : Type} (x y : α) (hxy : x ≠ y) :
    ¬ ∀ (junk : α → α) (k : Nat → Option α → Except Nat α) (sig : Nat) (act : α), sigaction junk k sig (some act) = k sig (some act) := by
  classical
  intro h
  have h1 := h (fun _ => y) (fun _ a => match a with | some a => .ok a | none => .error 0) 0 x
  have h2 : (Except.ok y : Except Nat α) = .ok x := h1
  injection h2 with h2
  exact hxy h2.symm

/-- Exactly when the action arrives: when what is left in the dead variable is the action. -/
theorem C53_iff {α : Type} (junk : α → α) (act : α) :
    (∀ (k : Nat → Option α → Except Nat α) (sig : Nat), sigaction junk k sig (some act) = k sig (some act)) ↔ junk act = act := by
  constructor
  · intro h
    have h1 : (Except.ok (junk act) : Except Nat α) = .ok act := h (fun _ a => match a with | some a => .ok a | none => .error 0) 0
    injection h1
  · exact fun h k sig => (C53_sigaction_partial junk k sig).2 act h

/-! ## C54 -/

theorem getElem?_set_sizes {l : List Thread} {i j : Nat} {t t' u : Thread} (hi : l[i]? = some t) (hs : t'.stack = t.stack ∧ t'.guard = t.guard)
    (hj : l[j]? = some u) : ∃ u', (l.set i t')[j]? = some u' ∧ u'.stack = u.stack ∧ u'.guard = u.guard := by
  rw [List.getElem?_set]
  by_cases e : i = j
  · subst e
    have hlt : i < l.length := (List.getElem?_eq_some_iff.mp hi).1
    rw [if_pos rfl, if_pos hlt]
    rw [hi] at hj
    injection hj with hj
    subst hj
    exact ⟨t', rfl, hs⟩
  · rw [if_neg e]
    exact ⟨u, hj, rfl, rfl⟩

theorem step_sizes {e : Endian} {ws : Nat} {w w' : World} (s : Step e ws w w') {i : Nat} {t : Thread} (hi : w.threads[i]? = some t) :
    ∃ t', w'.threads[i]? = some t' ∧ t'.stack = t.stack ∧ t'.guard = t.guard := by
  cases s with
  | @create a fn args stack guard hlen hfn hargs hm =>
    have hlt : i < w.threads.length := (List.getElem?_eq_some_iff.mp hi).1
    unfold create
    split
    · exact ⟨t, hi, rfl, rfl⟩
    split
    · exact ⟨t, hi, rfl, rfl⟩
    split
    · exact ⟨t, hi, rfl, rfl⟩
    split
    · exact ⟨t, hi, rfl, rfl⟩
    dsimp only
    split
    · exact ⟨t, hi, rfl, rfl⟩
    · exact ⟨t, by show (w.threads ++ _)[i]? = _; rw [List.getElem?_append_left hlt]; exact hi, rfl, rfl⟩
  | begin hj ht => exact getElem?_set_sizes hj ⟨rfl, rfl⟩ hi
  | @finish j u rv hj ht hr =>
    have : (finish w j u rv).threads = w.threads.set j { u with st := .done (toRaw rv) } := by
      simp only [finish, free, setT]; split <;> rfl
    rw [this]
    exact getElem?_set_sizes hj ⟨rfl, rfl⟩ hi
  | join hj ht hd => exact getElem?_set_sizes hj ⟨rfl, rfl⟩ hi
  | detach hj hd ht => exact getElem?_set_sizes hj ⟨rfl, rfl⟩ hi
  | alloc hb h0 hd => exact ⟨t, hi, rfl, rfl⟩
  | dealloc hb hm => exact ⟨t, hi, rfl, rfl⟩
  | write h => exact ⟨t, hi, rfl, rfl⟩

/-- **C54 (`stack`).**  After a successful `create(.., stack_size, guard_size)`, in whatever state and whatever happens later: `stack` of the new thread
(number `w.threads.length`) reports libc's stack address for it and the requested sizes, stack size first. -/
theorem C54_stack {e : Endian} {ws : Nat} {w w' : World} {a : Answers} {fn : Nat} {args : List Nat} {ss gs h : Nat}
    (hok : (create e ws w a fn args ss gs).2 = .ok h) (hs : Steps e ws (create e ws w a fn args ss gs).1 w') (main : MainAttr) (addrOf : Nat → Nat) :
    stack w' main addrOf (some w.threads.length) = some (addrOf w.threads.length, ss, gs) := by
  have h0 : ∃ t, (create e ws w a fn args ss gs).1.threads[w.threads.length]? = some t ∧ t.stack = ss ∧ t.guard = gs := by
    revert hok
    unfold create
    split
    · intro h; cases h
    split
    · intro h; cases h
    split
    · intro h; cases h
    split
    · intro h; cases h
    dsimp only
    split
    · intro h; cases h
    · intro _
      exact ⟨_, List.getElem?_concat_length, rfl, rfl⟩
  have h1 : ∃ t, w'.threads[w.threads.length]? = some t ∧ t.stack = ss ∧ t.guard = gs := by
    clear hok
    induction hs with
    | refl => exact h0
    | tail _ s ih =>
      obtain ⟨t, q1, q2, q3⟩ := ih
      obtain ⟨t', p1, p2, p3⟩ := step_sizes s q1
      exact ⟨t', p1, p2.trans q2, p3.trans q3⟩
  obtain ⟨t, q1, q2, q3⟩ := h1
  simp [stack, getattr, q1, q2, q3]

/-- **C54 (the defaults), what holds**: on the main thread they are the main thread's sizes; on a created thread, that thread's own. -/
theorem C54_defaults_partial (w : World) (main : MainAttr) (addrOf : Nat → Nat) :
    defaultStackSize w main addrOf none = some main.stack ∧ defaultGuardSize w main addrOf none = some main.guard ∧
    ∀ i t, w.threads[i]? = some t → defaultStackSize w main addrOf (some i) = some t.stack ∧
      defaultGuardSize w main addrOf (some i) = some t.guard := by
  refine ⟨rfl, rfl, fun i t h => ?_⟩
  simp [defaultStackSize, defaultGuardSize, getattr, h]

/-- **C54 is false of the defaults**: they are not "the default sizes for new threads" but the caller's own, so two threads of one process get different
answers. -/
theorem C54_defaults_false : ∃ w, Reach .little 8 w ∧ ∀ (main : MainAttr) (addrOf : Nat → Nat), main.stack = 8388608 →
    defaultStackSize w main addrOf none ≠ defaultStackSize w main addrOf (some 0) ∧
    defaultStackSize w main addrOf (some 0) = some 65536 := by
  refine ⟨demo2, demo2_reach, fun main addrOf h => ?_⟩
  have hi : demo2.threads[0]? = some ⟨77, 0x1000, 65536, 4096, 0x4242, [5, 0, 7], false, .new⟩ := rfl
  have h0 := (C54_defaults_partial demo2 main addrOf).1
  have h1 := ((C54_defaults_partial demo2 main addrOf).2.2 0 _ hi).1
  rw [h0, h1, h]
  decide

/-- The second thread of `demo2`, after the first has started. -/
example (main : MainAttr) (addrOf : Nat → Nat) :
    stack (begin .little 8 demo2 0 ⟨77, 0x1000, 65536, 4096, 0x4242, [5, 0, 7], false, .new⟩) main addrOf (some 1) =
      some (addrOf 1, 65536, 4096) :=
  C54_stack (e := .little) (ws := 8) (w := demo1) (a := ⟨0, 0, 0, 0x2000, .ok 78⟩) (fn := 0x4343) (args := []) (h := 78) rfl
    ((Steps.refl _).tail (Step.begin rfl rfl)) main addrOf

/-- A compiler that has put zeros where the variable was: the action `5` installed is `0`. -/
example : sigaction (fun _ => 0) (fun _ a => .ok (a.getD 9)) 11 (some 5) = .ok 0 := rfl

end Origin.Libc
