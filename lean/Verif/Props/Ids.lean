import Verif.Props.User
set_option linter.unusedSimpArgs false
/-!
# C69: what `id` says, as programs see it

Two programs that end with status 1 if `id` says something it should not: an id again after `None`; the id that another thread has.
-/

namespace Origin.User

variable {c : Proc.Cfg} {sig : Bool}

/-- Asks for the id of a thread until it is `None`, then once more. -/
inductive At | m0 | m1 (u : Nat) | m2 (u : Nat) | ok | bad | f
deriving DecidableEq, Repr

def askTwice : Prg Unit At where
  op
    | .m0 => .create .f .m1
    | .m1 u => .id u fun r => if r = none then .m2 u else .m1 u
    | .m2 u => .id u fun r => if r = none then .ok else .bad
    | .ok => .exit 0
    | .bad => .exit 1
    | .f => .ret 0
  main := .m0
  ctors := []
  finis := []

/-- The main thread of `askTwice`. -/
inductive AtM (l : List Nat) : Pos At → Prop
  | ctors : AtM l (.next (.ctors []))
  | m0 : AtM l (.run .m0 .main)
  | m1 {u} : AtM l (.run (.m1 u) .main)
  | m2 {u} : u ∈ l → AtM l (.run (.m2 u) .main)
  | ok : AtM l (.run .ok .main)
  | t : AtM l (.next (.exitT 0))
  | p : AtM l (.next (.exitP 0))
  | f : AtM l (.next (.fini 0 []))
  | i : AtM l (.next (.imm 0))

/-- Its other thread. -/
inductive AtF : Pos At → Prop
  | f : AtF (.run .f .start)
  | e (v) : AtF (.next (.ending v))
  | d (v) : AtF (.done v)

structure AtInv (l : List Nat) (a : Abs Unit At) : Prop where
  main : ∃ x i, a.thr[0]? = some ⟨x, [], i⟩ ∧ AtM l x
  rest : ∀ t T, a.thr[t + 1]? = some T → T.fns = [] ∧ AtF T.pos
  fns : a.fns = []
  status : ∀ st, a.status = some st → st = 0

theorem AtM.mono {l l' : List Nat} {x : Pos At} (h : AtM l x) (hl : ∀ u ∈ l, u ∈ l') : AtM l' x := by
  cases h
  case m2 h => exact .m2 (hl _ h)
  all_goals constructor

theorem AtInv.main_step {l l' : List Nat} {a : Abs Unit At} (I : AtInv l a) {i : Nat} {y : Pos At} {x : Pos At} (hx : a.thr[0]? = some ⟨x, [], i⟩)
    (hy : AtM l' y) {a' : Abs Unit At} (ht : a'.thr = a.thr.set 0 ⟨y, [], i⟩) (hf : a'.fns = []) (hs : ∀ st, a'.status = some st → st = 0) : AtInv l' a' := by
  refine ⟨⟨y, i, ?_, hy⟩, ?_, hf, hs⟩
  · rw [ht, List.getElem?_set_self (List.getElem?_eq_some_iff.mp hx).1]
  · intro t T h; rw [ht, List.getElem?_set_ne (by omega)] at h; exact I.rest t T h

theorem atInv {lk : Bool} {l : List Nat} {a : Abs Unit At} (A : AReachI askTwice lk () l a) : AtInv l a := by
  induction A with
  | init tid => exact ⟨⟨_, _, rfl, .ctors⟩, by simp [ainit], rfl, by simp [ainit]⟩
  | @step l a t r x a' A h hr I =>
    obtain ⟨y, i, hy, hM⟩ := I.main
    have hst : a.status = none := by
      cases hs : a.status with
      | none => rfl
      | some v => simp [astep, hs] at h
    have sub : ∀ {g : List Nat}, ∀ u ∈ l, u ∈ g ++ l := fun u hu => List.mem_append_right _ hu
    cases t with
    | zero =>
      simp only [astep, hst, hy, Option.isSome_none, Bool.false_eq_true, if_false] at h
      cases hM
      case m0 =>
        simp only [opStep, askTwice] at h
        split at h <;> cases h
        refine ⟨⟨_, i, ?_, .m1 (u := a.thr.length)⟩, ?_, I.fns, by simp [hst]⟩
        · rw [List.getElem?_append_left (by rw [List.length_set]; exact (List.getElem?_eq_some_iff.mp hy).1),
            List.getElem?_set_self (List.getElem?_eq_some_iff.mp hy).1]
        · intro t T hT
          by_cases ht : t + 1 < a.thr.length
          · rw [List.getElem?_append_left (by rw [List.length_set]; exact ht), List.getElem?_set_ne (by omega)] at hT
            exact I.rest t T hT
          · rw [List.getElem?_append_right (by rw [List.length_set]; omega)] at hT
            cases hd : t + 1 - (a.thr.set 0 ⟨.run (.m1 a.thr.length) .main, [], i⟩).length with
            | zero => rw [hd] at hT; simp at hT; subst hT; exact ⟨rfl, .f⟩
            | succ n => rw [hd] at hT; simp at hT
      case m1 u =>
        have hask : a.asks askTwice 0 = some u := by simp [Abs.asks, hy, askTwice]
        simp only [opStep, askTwice] at h
        split at h
        · split at h
          · split at h <;> cases h
            exact I.main_step hy (.m1 (u := u)) (by simp [Abs.setThr]) I.fns (by simp [Abs.setThr, hst])
          · cases h
            exact I.main_step hy (.m2 (u := u) (by simp [Abs.gone, hask])) (by simp [Abs.setThr]) I.fns (by simp [Abs.setThr, hst])
          · cases h
        · cases h
      case m2 u hu =>
        have hask : a.asks askTwice 0 = some u := by simp [Abs.asks, hy, askTwice]
        have := hr u hu hask
        subst this
        simp only [opStep, askTwice] at h
        split at h
        · split at h <;> first | contradiction | (cases h; done) | skip
          cases h
          exact I.main_step hy .ok (by simp [Abs.setThr]) I.fns (by simp [Abs.setThr, hst])
        · cases h
      case ctors => cases h; exact I.main_step hy .m0 (by simp [Abs.setThr, askTwice]) I.fns (by simp [Abs.setThr, hst])
      case ok => cases h; exact I.main_step hy .t (by simp [Abs.setThr]) I.fns (by simp [Abs.setThr, hst])
      case t => cases h; exact I.main_step hy .p (by simp [Abs.setThr]) I.fns (by simp [Abs.setThr, hst])
      case p =>
        simp only [nextStep, I.fns] at h
        split at h <;> cases h
        exact I.main_step hy .f (by simp [Abs.setThr, askTwice]) rfl (by simp [Abs.setThr, hst])
      case f => cases h; exact I.main_step hy .i (by simp [Abs.setThr]) I.fns (by simp [Abs.setThr, hst])
      case i =>
        cases h
        exact ⟨⟨_, _, hy, .i⟩, I.rest, I.fns, fun st h => by simpa using h.symm⟩
    | succ t =>
      simp only [astep, hst, Option.isSome_none, Bool.false_eq_true, if_false] at h
      split at h
      · cases h
      next T hT =>
      obtain ⟨p, fs, j⟩ := T
      obtain ⟨hfs, hF⟩ := I.rest t _ hT
      simp only at hfs hF h
      subst hfs
      have key : ∀ q, AtF q → AtInv (a.gone askTwice (t + 1) r x ++ l) (a.setThr (t + 1) ⟨q, [], j⟩) := by
        intro q hq
        refine ⟨⟨y, i, ?_, hM.mono sub⟩, ?_, I.fns, by simp [Abs.setThr, hst]⟩
        · simp only [Abs.setThr]; rw [List.getElem?_set_ne (by omega)]; exact hy
        · intro t' T' h'
          simp only [Abs.setThr] at h'
          by_cases ht : t = t'
          · subst ht
            rw [List.getElem?_set_self (List.getElem?_eq_some_iff.mp hT).1] at h'
            cases h'; exact ⟨rfl, hq⟩
          · rw [List.getElem?_set_ne (by omega)] at h'; exact I.rest t' T' h'
      cases hF with
      | f => cases h; exact key _ (.e _)
      | e v => cases h; exact key _ (.d v)
      | d v => cases h

/-- **C69 (`id` after `None`).** In every schedule: a program that has found a thread's `id` to be `None` does not get its id again. -/
theorem C69_id_stays_none (hok : c.Ok 0 0) {e : State Unit At} (R : Reach askTwice c sig () (fun _ _ => True) e) :
    ¬ Crashed e ∧ ∀ st, Ended e st → st = 0 := by
  have hn : NoWait askTwice := ⟨by intro cd u k; cases cd <;> simp [askTwice], by intro cd u k; cases cd <;> simp [askTwice]⟩
  obtain ⟨h1, a, ⟨l, A⟩, -, h4⟩ := C69_refines_no_wait (pr := askTwice) hok hn R
  exact ⟨h1, fun st hst => (atInv A).status st ((h4 st).mpr hst)⟩

/-- A run of `askTwice` to its end; the id is first there, then `None`. -/
example : ∃ e, Reach askTwice plain false () (fun _ _ => True) e ∧ Ended e 0 ∧ true = true :=
  ends_run (a := 100) (tid := 1) (by decide)
  [ps 0, ps 0, us 0 200 2, us 0, st 1, us 1, .sys (.release 1), st 1, us 0, st 1, st 1, st 1, us 0, us 0, us 0, ps 0, ps 0, ps 0, ps 0, ps 0]
    (fun _ => true) (by decide)

/-- Makes two threads, and asks for the id of the second, then of the first. -/
inductive Sa | m0 | m1 (u : Nat) | m2 (u v : Nat) | m3 (u j : Nat) | ok | bad | f
deriving DecidableEq, Repr

def sameId : Prg Unit Sa where
  op
    | .m0 => .create .f .m1
    | .m1 u => .create .f (.m2 u)
    | .m2 u v => .id v fun r => match r with | some j => .m3 u j | none => .ok
    | .m3 u j => .id u fun r => if r = some j then .bad else .ok
    | .ok => .exit 0
    | .bad => .exit 1
    | .f => .ret 0
  main := .m0
  ctors := []
  finis := []

/-- The main thread of `sameId`; there are `n` threads. -/
inductive SaM (l : List Nat) (n : Nat) (id : Nat → Option Nat) : Pos Sa → Prop
  | ctors : n = 1 → SaM l n id (.next (.ctors []))
  | m0 : n = 1 → SaM l n id (.run .m0 .main)
  | m1 : n = 2 → SaM l n id (.run (.m1 1) .main)
  | m2 : (∀ i, id 1 = some i → id 2 = some i → 1 ∈ l) → SaM l n id (.run (.m2 1 2) .main)
  | m3 {j} : (∀ i, id 1 = some i → i = j → 1 ∈ l) → SaM l n id (.run (.m3 1 j) .main)
  | ok : SaM l n id (.run .ok .main)
  | t : SaM l n id (.next (.exitT 0))
  | p : SaM l n id (.next (.exitP 0))
  | f : SaM l n id (.next (.fini 0 []))
  | i : SaM l n id (.next (.imm 0))

/-- Its other threads. -/
inductive SaF : Pos Sa → Prop
  | f : SaF (.run .f .start)
  | e (v) : SaF (.next (.ending v))
  | d (v) : SaF (.done v)

def ids (a : Abs Unit Sa) (u : Nat) : Option Nat := (a.thr[u]?).map (·.tid)

structure SaInv (l : List Nat) (a : Abs Unit Sa) : Prop where
  main : ∃ x i, a.thr[0]? = some ⟨x, [], i⟩ ∧ SaM l a.thr.length (ids a) x
  rest : ∀ t T, a.thr[t + 1]? = some T → T.fns = [] ∧ SaF T.pos
  fns : a.fns = []
  status : ∀ st, a.status = some st → st = 0

theorem SaM.mono {l l' : List Nat} {n : Nat} {id : Nat → Option Nat} {x : Pos Sa} (h : SaM l n id x) (hl : ∀ u ∈ l, u ∈ l') : SaM l' n id x := by
  cases h
  case m2 h => exact .m2 fun i h1 h2 => hl _ (h i h1 h2)
  case m3 h => exact .m3 fun i h1 h2 => hl _ (h i h1 h2)
  all_goals constructor <;> assumption

theorem ids_set {a a' : Abs Unit Sa} {t i : Nat} {x y : Pos Sa} {fs fs' : List Sa} (hx : a.thr[t]? = some ⟨x, fs, i⟩)
    (ht : a'.thr = a.thr.set t ⟨y, fs', i⟩) : ids a' = ids a := by
  funext u
  simp only [ids, ht]
  by_cases hu : t = u
  · subst hu; rw [List.getElem?_set_self (List.getElem?_eq_some_iff.mp hx).1, hx]; rfl
  · rw [List.getElem?_set_ne hu]

theorem SaInv.main_step {l l' : List Nat} {a : Abs Unit Sa} (I : SaInv l a) {i : Nat} {y : Pos Sa} {x : Pos Sa} (hx : a.thr[0]? = some ⟨x, [], i⟩)
    (hy : SaM l' a.thr.length (ids a) y) {a' : Abs Unit Sa} (ht : a'.thr = a.thr.set 0 ⟨y, [], i⟩) (hf : a'.fns = [])
    (hs : ∀ st, a'.status = some st → st = 0) : SaInv l' a' := by
  refine ⟨⟨y, i, ?_, ?_⟩, ?_, hf, hs⟩
  · rw [ht, List.getElem?_set_self (List.getElem?_eq_some_iff.mp hx).1]
  · rw [ids_set hx ht, ht, List.length_set]; exact hy
  · intro t T h; rw [ht, List.getElem?_set_ne (by omega)] at h; exact I.rest t T h

theorem SaInv.spawn {l l' : List Nat} {a : Abs Unit Sa} (I : SaInv l a) {i x : Nat} {y z : Pos Sa} (hx : a.thr[0]? = some ⟨z, [], i⟩) (hst : a.status = none)
    (hy : SaM l' (a.thr.length + 1) (fun u => if u = a.thr.length then some x else ids a u) y) :
    SaInv l' { a with thr := a.thr.set 0 ⟨y, [], i⟩ ++ [⟨.run .f .start, [], x⟩] } := by
  have hlt := (List.getElem?_eq_some_iff.mp hx).1
  refine ⟨⟨y, i, ?_, ?_⟩, ?_, I.fns, by simp [hst]⟩
  · rw [List.getElem?_append_left (by rw [List.length_set]; exact hlt), List.getElem?_set_self hlt]
  · have : ids { a with thr := a.thr.set 0 ⟨y, [], i⟩ ++ [⟨.run .f .start, [], x⟩] } = fun u => if u = a.thr.length then some x else ids a u := by
      funext u
      simp only [ids]
      by_cases hu : u < a.thr.length
      · rw [List.getElem?_append_left (by rw [List.length_set]; exact hu), if_neg (by omega)]
        by_cases hu0 : 0 = u
        · subst hu0; rw [List.getElem?_set_self hlt, hx]; rfl
        · rw [List.getElem?_set_ne hu0]
      · rw [List.getElem?_append_right (by rw [List.length_set]; omega), List.length_set]
        split
        · next h => subst h; simp
        · next h =>
          rw [List.getElem?_eq_none (by simp; omega), List.getElem?_eq_none (by omega)]
    rw [this]
    simpa using hy
  · intro t T hT
    by_cases ht : t + 1 < a.thr.length
    · rw [List.getElem?_append_left (by rw [List.length_set]; exact ht), List.getElem?_set_ne (by omega)] at hT
      exact I.rest t T hT
    · rw [List.getElem?_append_right (by rw [List.length_set]; omega), List.length_set] at hT
      cases hd : t + 1 - a.thr.length with
      | zero => rw [hd] at hT; simp at hT; subst hT; exact ⟨rfl, .f⟩
      | succ n => rw [hd] at hT; simp at hT

theorem saInv {lk : Bool} {l : List Nat} {a : Abs Unit Sa} (A : AReachI sameId lk () l a) : SaInv l a := by
  induction A with
  | init tid => exact ⟨⟨_, _, rfl, .ctors rfl⟩, by simp [ainit], rfl, by simp [ainit]⟩
  | @step l a t r x a' A h hr I =>
    obtain ⟨y, i, hy, hM⟩ := I.main
    have hst : a.status = none := by
      cases hs : a.status with
      | none => rfl
      | some v => simp [astep, hs] at h
    have sub : ∀ {g : List Nat}, ∀ u ∈ l, u ∈ g ++ l := fun u hu => List.mem_append_right _ hu
    cases t with
    | zero =>
      simp only [astep, hst, hy, Option.isSome_none, Bool.false_eq_true, if_false] at h
      cases hM
      case m0 hn =>
        simp only [opStep, sameId] at h
        split at h <;> cases h
        rw [hn]
        exact I.spawn hy hst (.m1 (by omega))
      case m1 hn =>
        have hcr : a.creates sameId 0 = true := by simp [Abs.creates, hy, sameId]
        simp only [opStep, sameId] at h
        split at h <;> cases h
        rw [hn]
        refine I.spawn hy hst (.m2 fun j h1 h2 => List.mem_append_left _ ?_)
        rw [hn] at h1 h2
        simp only [if_true, Option.some.injEq] at h2
        subst h2
        simp only [show (1 : Nat) ≠ 2 by decide, if_false, ids, Option.map_eq_some_iff] at h1
        obtain ⟨U, hU, hx⟩ := h1
        simp only [Abs.gone, hcr, if_true]
        refine List.mem_append_right _ (List.mem_filter.mpr ⟨List.mem_range.mpr (by omega), ?_⟩)
        rw [hU]; simpa using hx
      case m2 hd =>
        simp only [opStep, sameId] at h
        split at h
        · next U hU =>
          split at h
          · next _ _ j =>
            split at h
            case isFalse => cases h
            next hi =>
            cases h
            refine I.main_step hy (.m3 (j := j) fun i' h1 h2 => sub _ (hd i' h1 ?_)) (by simp [Abs.setThr]) I.fns (by simp [Abs.setThr, hst])
            simp [ids, hU, h2, hi]
          · cases h
            exact I.main_step hy .ok (by simp [Abs.setThr]) I.fns (by simp [Abs.setThr, hst])
          · cases h
        · cases h
      case m3 j hd =>
        have hask : a.asks sameId 0 = some 1 := by simp [Abs.asks, hy, sameId]
        simp only [opStep, sameId] at h
        split at h
        · next U hU =>
          split at h
          · next _ _ i' =>
            split at h
            case isFalse => cases h
            next hi =>
            cases h
            have : i' ≠ j := by
              intro he
              have := hr 1 (hd i' (by simp [ids, hU, hi]) he) hask
              cases this
            exact I.main_step hy .ok (by simp [Abs.setThr, this]) I.fns (by simp [Abs.setThr, hst])
          · cases h
            exact I.main_step hy .ok (by simp [Abs.setThr]) I.fns (by simp [Abs.setThr, hst])
          · cases h
        · cases h
      case ctors hn => cases h; exact I.main_step hy (.m0 hn) (by simp [Abs.setThr, sameId]) I.fns (by simp [Abs.setThr, hst])
      case ok => cases h; exact I.main_step hy .t (by simp [Abs.setThr]) I.fns (by simp [Abs.setThr, hst])
      case t => cases h; exact I.main_step hy .p (by simp [Abs.setThr]) I.fns (by simp [Abs.setThr, hst])
      case p =>
        simp only [nextStep, I.fns] at h
        split at h <;> cases h
        exact I.main_step hy .f (by simp [Abs.setThr, sameId]) rfl (by simp [Abs.setThr, hst])
      case f => cases h; exact I.main_step hy .i (by simp [Abs.setThr]) I.fns (by simp [Abs.setThr, hst])
      case i =>
        cases h
        exact ⟨⟨_, _, hy, .i⟩, I.rest, I.fns, fun st h => by simpa using h.symm⟩
    | succ t =>
      simp only [astep, hst, Option.isSome_none, Bool.false_eq_true, if_false] at h
      split at h
      · cases h
      next T hT =>
      obtain ⟨p, fs, j⟩ := T
      obtain ⟨hfs, hF⟩ := I.rest t _ hT
      simp only at hfs hF h
      subst hfs
      have key : ∀ q, SaF q → SaInv (a.gone sameId (t + 1) r x ++ l) (a.setThr (t + 1) ⟨q, [], j⟩) := by
        intro q hq
        refine ⟨⟨y, i, ?_, ?_⟩, ?_, I.fns, by simp [Abs.setThr, hst]⟩
        · simp only [Abs.setThr]; rw [List.getElem?_set_ne (by omega)]; exact hy
        · rw [ids_set hT (show (a.setThr (t + 1) ⟨q, [], j⟩).thr = _ from rfl)]
          simp only [Abs.setThr, List.length_set]
          exact hM.mono sub
        · intro t' T' h'
          simp only [Abs.setThr] at h'
          by_cases ht : t = t'
          · subst ht
            rw [List.getElem?_set_self (List.getElem?_eq_some_iff.mp hT).1] at h'
            cases h'; exact ⟨rfl, hq⟩
          · rw [List.getElem?_set_ne (by omega)] at h'; exact I.rest t' T' h'
      cases hF with
      | f => cases h; exact key _ (.e _)
      | e v => cases h; exact key _ (.d v)
      | d v => cases h

/-- **C69 (`id`s differ).** In every schedule: a program that has got the id of a thread does not then get the same id from an older one. -/
theorem C69_ids_differ (hok : c.Ok 0 0) {e : State Unit Sa} (R : Reach sameId c sig () (fun _ _ => True) e) :
    ¬ Crashed e ∧ ∀ st, Ended e st → st = 0 := by
  have hn : NoWait sameId := ⟨by intro cd u k; cases cd <;> simp [sameId], by intro cd u k; cases cd <;> simp [sameId]⟩
  obtain ⟨h1, a, ⟨l, A⟩, -, h4⟩ := C69_refines_no_wait (pr := sameId) hok hn R
  exact ⟨h1, fun st hst => (saInv A).status st ((h4 st).mpr hst)⟩

/-- A run of `sameId` to its end, in which the second thread gets the id of the first. -/
example : ∃ e, Reach sameId plain false () (fun _ _ => True) e ∧ Ended e 0 ∧
    (decide ((e.w.l.thr 1).map (·.tid) = some 2) && decide ((e.w.l.thr 2).map (·.tid) = some 2)) = true :=
  ends_run (a := 100) (tid := 1) (by decide)
  [ps 0, ps 0, us 0 200 2, st 1, us 1, .sys (.release 1), st 1, st 1, st 1, st 1, .sys (.life (.wake 1 none)), us 0 300 2, us 0, us 0, us 0, ps 0, ps 0, ps 0, ps 0, ps 0]
    (fun e => decide ((e.w.l.thr 1).map (·.tid) = some 2) && decide ((e.w.l.thr 2).map (·.tid) = some 2)) (by decide)

end Origin.User
