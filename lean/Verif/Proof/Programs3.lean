import Verif.Proof.Programs2
set_option linter.unusedSimpArgs false
/-! # The `thread-id` test ends in every fair schedule -/

namespace Origin.Programs
open User

/-- Steps left at a program point, waiting not counted; `b`: one more before asking again. -/
def tiW (b : Nat) : Ti → Nat
  | .as1 _ k => tiW b k + 3
  | .as2 _ _ k => tiW b k + 2
  | .as3 _ _ k => tiW b k + 1
  | .m27 => 52 | .m30 => 46 | .m37 => 40
  | .m77 _ => 13 | .m77' _ _ => 12 | .m83 _ _ => 11 | .m83' _ _ _ => 10 | .m91 _ _ => 9
  | .m101 _ => 7 | .m101' _ (some _) => 7 + b | .m101' _ none => 6 | .m108 _ => 5 | .m111 => 1
  | .c40 => 15 | .c53 => 9 | .c57 _ => 8 | .c57' _ _ => 7 | .c63 => 6 | .c63' _ => 5
  | .ret => 1 | .bad => 0

def afW : After Ti → Nat
  | .ctors _ => 60 | .main => 4 | .start => 1 | .ending _ => 1 | .exitT _ => 4 | .exitP _ => 3 | .fini _ _ => 2 | .imm _ => 1

def posW (b : Nat) : Pos Ti → Nat
  | .run c A => tiW b c + afW A
  | .next A => afW A
  | .done _ => 0

/-- Steps left. -/
def idW (b : Nat) (a : Abs (Option Id) Ti) : Nat := (a.thr.map fun T => posW b T.pos + 5 * T.fns.length).sum + 5 * a.fns.length

/-- Functions to be registered. -/
def tiG : Ti → Nat
  | .as1 _ k | .as2 _ _ k | .as3 _ _ k => tiG k
  | .m27 => 3 | .m30 => 2 | .m37 => 1 | .c40 => 1
  | _ => 0

def posG : Pos Ti → Nat
  | .run c _ => tiG c
  | .next (.ctors _) => 3
  | _ => 0

def idG (a : Abs (Option Id) Ti) : Nat := (a.thr.map fun T => posG T.pos).sum

/-- The child is done. -/
def kDone (a : Abs (Option Id) Ti) : Bool :=
  match a.thr with
  | [_, ⟨.done _, _, _⟩] => true
  | _ => false

/-- The thread for whose steps the test waits, until the child is done. -/
def idHelp (a : Abs (Option Id) Ti) : Nat :=
  match a.thr with
  | [_, ⟨.run .c53 _, _, _⟩] => if a.mem = none then 0 else 1
  | [_, _] => 1
  | _ => 0

/-- The main thread has joined the child. -/
def past : Pos Ti → Bool
  | .run (.as1 _ k) _ | .run (.as2 _ _ k) _ | .run (.as3 _ _ k) _ => k != .m27
  | .run .m111 _ => true
  | .run .ret _ => true
  | .next (.ctors _) => false
  | .next _ => true
  | _ => false

structure IdU (l : List Nat) (a : Abs (Option Id) Ti) : Prop where
  used : ∀ M, a.thr[0]? = some M → (l = [] ∨ past M.pos = true) ∧ (a.closed = true → M.pos = .next (.fini 201 []) ∨ M.pos = .next (.imm 201))

structure IdFacts (l : List Nat) (a : Abs (Option Id) Ti) (t : Nat) (r : Option Nat) (a' : Abs (Option Id) Ti) : Prop where
  used : IdU ((a.uses idPrg t).toList ++ l) a'
  regs : idG a' + (if a.registers idPrg t then 1 else 0) ≤ idG a
  rank : kDone a = false → a'.status.isSome = true ∨ idW 0 a' < idW 0 a ∨ (idW 0 a' = idW 0 a ∧ idHelp a' = idHelp a ∧ t ≠ idHelp a)
  rank' : kDone a = true → (a.asks idPrg t = some 1 → r = none) → a'.status.isSome = true ∨ idW 1 a' < idW 1 a

theorem idFacts_one {lk : Bool} {a a' : Abs (Option Id) Ti} {t x : Nat} {r : Option Nat} {p : Nat} {l : List Ti} {y : Pos Ti} {us : List Nat}
    (ht : a.thr = [⟨y, l, p⟩]) (hm : a.mem = none) (hy : MPre p y) (hU : IdU us a)
    (hst : a.status = none) (h : astep idPrg lk a t r x = some a') : IdFacts us a t r a' := by
  obtain ⟨mem, thr, fns, closed, status⟩ := a
  simp only at ht hm hst
  subst ht hm hst
  match t, h with
  | n + 1, h => simp [astep] at h
  | 0, h =>
  obtain ⟨hU⟩ := hU
  have hU := hU _ rfl
  simp only [astep, Option.isSome_none, Bool.false_eq_true, if_false, List.getElem?_cons_zero] at h
  have us0 : us = [] ∨ past y = true := hU.1
  have cl : closed = true → y = .next (.fini 201 []) ∨ y = .next (.imm 201) := hU.2
  cases hy with
  | ctors =>
    simp [nextStep] at h; subst h
    refine ⟨⟨?_⟩, ?_, ?_, ?_⟩ <;> simp_all [Abs.setThr, Abs.uses, Abs.registers, Abs.asks, idPrg, check, idW, posW, tiW, afW, idG, tiG, posG, kDone, idHelp, past]
  | as ha =>
    cases ha <;> simp [opStep, idPrg, check] at h
    · cases r <;> simp at h
      obtain ⟨rfl, rfl⟩ := h
      refine ⟨⟨?_⟩, ?_, ?_, ?_⟩ <;> simp_all [Abs.setThr, Abs.uses, Abs.registers, Abs.asks, idPrg, check, idW, posW, tiW, afW, idG, tiG, posG, kDone, idHelp, past]
    · cases r <;> simp at h
      obtain ⟨rfl, rfl⟩ := h
      refine ⟨⟨?_⟩, ?_, ?_, ?_⟩ <;> simp_all [Abs.setThr, Abs.uses, Abs.registers, Abs.asks, idPrg, check, idW, posW, tiW, afW, idG, tiG, posG, kDone, idHelp, past]
    · subst h
      refine ⟨⟨?_⟩, ?_, ?_, ?_⟩ <;> simp_all [Abs.setThr, Abs.uses, Abs.registers, Abs.asks, idPrg, check, idW, posW, tiW, afW, idG, tiG, posG, kDone, idHelp, past]
  | m27 =>
    simp [opStep, idPrg] at h
    obtain ⟨-, rfl⟩ := h
    refine ⟨⟨?_⟩, ?_, ?_, ?_⟩ <;> simp_all [Abs.setThr, Abs.uses, Abs.registers, Abs.asks, idPrg, check, idW, posW, tiW, afW, idG, tiG, posG, kDone, idHelp, past] <;> omega
  | m30 =>
    simp [opStep, idPrg] at h
    subst h
    refine ⟨⟨?_⟩, ?_, ?_, ?_⟩ <;> simp_all [Abs.setThr, Abs.uses, Abs.registers, Abs.asks, idPrg, check, idW, posW, tiW, afW, idG, tiG, posG, kDone, idHelp, past] <;> omega
  | m37 =>
    simp [opStep, idPrg, Abs.tidFree] at h
    obtain ⟨⟨-, hne⟩, rfl⟩ := h
    refine ⟨⟨?_⟩, ?_, ?_, ?_⟩ <;> simp_all [Abs.setThr, Abs.uses, Abs.registers, Abs.asks, idPrg, check, idW, posW, tiW, afW, idG, tiG, posG, kDone, idHelp, past] <;> omega

theorem idHelp_some {i : Id} {T U : AThr Ti} {fns : List Ti} {cl : Bool} {st : Option Int} :
    idHelp { mem := some i, thr := [T, U], fns := fns, closed := cl, status := st } = 1 := by
  unfold idHelp
  simp only
  split <;> simp_all

theorem kDone_eq {mem : Option Id} {T : AThr Ti} {z : Pos Ti} {k : List Ti} {q : Nat} {fns : List Ti} {cl : Bool} {st : Option Int} :
    kDone { mem := mem, thr := [T, ⟨z, k, q⟩], fns := fns, closed := cl, status := st } = match z with | .done _ => true | _ => false := by
  cases z <;> rfl

/-- What a step of the main thread has to do. -/
theorem idFacts_main {mem mem' : Option Id} {y y' z : Pos Ti} {l k l' : List Ti} {p q : Nat} {fns fns' : List Ti} {cl cl' : Bool} {st' : Option Int}
    {us : List Nat} {r : Option Nat} {a : Abs (Option Id) Ti} (ha : a = { mem := mem, thr := [⟨y, l, p⟩, ⟨z, l', q⟩], fns := fns, closed := cl, status := none })
    (h1 : (a.uses idPrg 0).toList ++ us = [] ∨ past y' = true) (h2 : cl' = true → y' = .next (.fini 201 []) ∨ y' = .next (.imm 201))
    (h3 : posG y' + (if a.registers idPrg 0 then 1 else 0) ≤ posG y)
    (h4 : st'.isSome = true ∨ posW 0 y' + 5 * k.length + 5 * fns'.length < posW 0 y + 5 * l.length + 5 * fns.length ∨
      (posW 0 y' + 5 * k.length + 5 * fns'.length = posW 0 y + 5 * l.length + 5 * fns.length ∧ mem' = mem ∧ ∃ i, mem = some i))
    (h5 : (∃ v, z = .done v) → (a.asks idPrg 0 = some 1 → r = none) → st'.isSome = true ∨
      posW 1 y' + 5 * k.length + 5 * fns'.length < posW 1 y + 5 * l.length + 5 * fns.length) :
    IdFacts us a 0 r { mem := mem', thr := [⟨y', k, p⟩, ⟨z, l', q⟩], fns := fns', closed := cl', status := st' } := by
  subst ha
  refine ⟨⟨?_⟩, ?_, fun _ => ?_, fun hd hr => ?_⟩
  · intro M hM
    cases hM
    exact ⟨h1, h2⟩
  · simp only [idG, List.map_cons, List.map_nil, List.sum_cons, List.sum_nil]; omega
  · rcases h4 with h | h | ⟨h, rfl, i, rfl⟩
    · exact .inl h
    · exact .inr (.inl (by simp only [idW, List.map_cons, List.map_nil, List.sum_cons, List.sum_nil]; omega))
    · exact .inr (.inr ⟨by simp only [idW, List.map_cons, List.map_nil, List.sum_cons, List.sum_nil]; omega, by rw [idHelp_some, idHelp_some],
        by rw [idHelp_some]; decide⟩)
  · have hz : ∃ v, z = .done v := by
      rw [kDone_eq] at hd
      cases z <;> simp at hd
      exact ⟨_, rfl⟩
    rcases h5 hz hr with h | h
    · exact .inl h
    · exact .inr (by simp only [idW, List.map_cons, List.map_nil, List.sum_cons, List.sum_nil]; omega)

/-- What a step of the child has to do. -/
theorem idFacts_child {mem mem' : Option Id} {y z z' : Pos Ti} {l k l' : List Ti} {p q : Nat} {fns : List Ti} {cl : Bool}
    {us : List Nat} {r : Option Nat} {a : Abs (Option Id) Ti} (ha : a = { mem := mem, thr := [⟨y, l, p⟩, ⟨z, l', q⟩], fns := fns, closed := cl, status := none })
    (hU : IdU us a) (h1 : a.uses idPrg 1 = none) (hz : ∀ v, z ≠ .done v)
    (h3 : posG z' + (if a.registers idPrg 1 then 1 else 0) ≤ posG z)
    (h4 : posW 0 z' + 5 * k.length < posW 0 z + 5 * l'.length ∨ (z' = z ∧ k = l' ∧ z = .run .c53 .start ∧ mem = none ∧ mem' = none)) :
    IdFacts us a 1 r { mem := mem', thr := [⟨y, l, p⟩, ⟨z', k, q⟩], fns := fns, closed := cl, status := none } := by
  subst ha
  refine ⟨⟨?_⟩, ?_, fun _ => ?_, fun h => ?_⟩
  · intro M hM
    cases hM
    have := hU.used _ rfl
    rw [h1]
    exact this
  · simp only [idG, List.map_cons, List.map_nil, List.sum_cons, List.sum_nil]; omega
  · rcases h4 with h | ⟨rfl, rfl, rfl, rfl, rfl⟩
    · exact .inr (.inl (by simp only [idW, List.map_cons, List.map_nil, List.sum_cons, List.sum_nil]; omega))
    · exact .inr (.inr ⟨rfl, rfl, by simp [idHelp]⟩)
  · rw [kDone_eq] at h
    cases z <;> simp at h
    exact absurd rfl (hz _)

set_option maxHeartbeats 4000000 in
/-- Two threads; the main one's step. -/
theorem idFacts_two0 {lk : Bool} {a a' : Abs (Option Id) Ti} {x : Nat} {r : Option Nat} {p q : Nat} {l l' : List Ti} {y z : Pos Ti} {us : List Nat}
    (ht : a.thr = [⟨y, l, p⟩, ⟨z, l', q⟩]) (hy : Two p q a.mem y z) (hl : ∀ g ∈ l, g = .as1 0 .ret)
    (hf : ∀ g ∈ a.fns, g = .as1 0 .ret) (hU : IdU us a)
    (hst : a.status = none) (h : astep idPrg lk a 0 r x = some a') : IdFacts us a 0 r a' := by
  obtain ⟨mem, thr, fns, closed, status⟩ := a
  simp only at ht hy hf hst
  subst ht hst
  obtain ⟨us0, cl⟩ := hU.used _ rfl
  simp only at us0 cl
  clear hU
  simp only [astep, Option.isSome_none, Bool.false_eq_true, if_false, List.getElem?_cons_zero] at h
  cases hy with
  | told1 hK =>
    simp [past] at us0 cl
    simp [opStep, idPrg] at h
    subst h
    refine idFacts_main rfl ?_ ?_ ?_ ?_ ?_
    · simp [Abs.setThr, Abs.uses, Abs.registers, Abs.asks, idPrg, check, posW, tiW, afW, tiG, posG, past, us0, cl]
    · simp [Abs.setThr, Abs.uses, Abs.registers, Abs.asks, idPrg, check, posW, tiW, afW, tiG, posG, past, us0, cl]
    · simp [Abs.setThr, Abs.uses, Abs.registers, Abs.asks, idPrg, check, posW, tiW, afW, tiG, posG, past, us0, cl]
    · simp [Abs.setThr, Abs.uses, Abs.registers, Abs.asks, idPrg, check, posW, tiW, afW, tiG, posG, past, us0, cl]
    · rintro ⟨v, rfl⟩; exact absurd rfl (hK.not_done v)
  | told2 hK =>
    simp [past] at us0 cl
    simp [opStep, idPrg] at h
    subst h
    refine idFacts_main rfl ?_ ?_ ?_ ?_ ?_
    · simp [Abs.setThr, Abs.uses, Abs.registers, Abs.asks, idPrg, check, posW, tiW, afW, tiG, posG, past, us0, cl]
    · simp [Abs.setThr, Abs.uses, Abs.registers, Abs.asks, idPrg, check, posW, tiW, afW, tiG, posG, past, us0, cl]
    · simp [Abs.setThr, Abs.uses, Abs.registers, Abs.asks, idPrg, check, posW, tiW, afW, tiG, posG, past, us0, cl]
    · simp [Abs.setThr, Abs.uses, Abs.registers, Abs.asks, idPrg, check, posW, tiW, afW, tiG, posG, past, us0, cl]
    · rintro ⟨v, rfl⟩; cases hK
  | heard1 hK =>
    simp [past] at us0 cl
    simp [opStep, idPrg] at h
    subst h
    refine idFacts_main rfl ?_ ?_ ?_ ?_ ?_
    · simp [Abs.setThr, Abs.uses, Abs.registers, Abs.asks, idPrg, check, posW, tiW, afW, tiG, posG, past, us0, cl]
    · simp [Abs.setThr, Abs.uses, Abs.registers, Abs.asks, idPrg, check, posW, tiW, afW, tiG, posG, past, us0, cl]
    · simp [Abs.setThr, Abs.uses, Abs.registers, Abs.asks, idPrg, check, posW, tiW, afW, tiG, posG, past, us0, cl]
    · simp [Abs.setThr, Abs.uses, Abs.registers, Abs.asks, idPrg, check, posW, tiW, afW, tiG, posG, past, us0, cl]
    · simp [Abs.setThr, Abs.uses, Abs.registers, Abs.asks, idPrg, check, posW, tiW, afW, tiG, posG, past, us0, cl]
  | none hM hK =>
    cases hM <;> simp [opStep, idPrg, check] at h <;> simp [past] at us0 cl
    · cases r with
      | none => cases hz : z <;> simp [hz] at h; exact absurd hz (hK.not_done _)
      | some i =>
        simp at h
        obtain ⟨rfl, rfl⟩ := h
        refine idFacts_main rfl ?_ ?_ ?_ ?_ ?_ <;> simp [us0, cl, Abs.setThr, Abs.uses, Abs.registers, Abs.asks, idPrg, check, posW, tiW, afW, tiG, posG, past]
    · subst h
      refine idFacts_main rfl ?_ ?_ ?_ ?_ ?_ <;> simp [us0, cl, Abs.setThr, Abs.uses, Abs.registers, Abs.asks, idPrg, check, posW, tiW, afW, tiG, posG, past]
    · cases r <;> simp at h
      obtain ⟨rfl, rfl⟩ := h
      refine idFacts_main rfl ?_ ?_ ?_ ?_ ?_ <;> simp [us0, cl, Abs.setThr, Abs.uses, Abs.registers, Abs.asks, idPrg, check, posW, tiW, afW, tiG, posG, past]
    · subst h
      refine idFacts_main rfl ?_ ?_ ?_ ?_ ?_ <;> simp [us0, cl, Abs.setThr, Abs.uses, Abs.registers, Abs.asks, idPrg, check, posW, tiW, afW, tiG, posG, past]
  | heard2 hM hK =>
    cases hM with
    | as ha =>
      cases ha <;> simp [opStep, idPrg, check] at h <;> simp [past] at cl
      · cases r <;> simp at h
        obtain ⟨rfl, rfl⟩ := h
        refine idFacts_main rfl ?_ ?_ ?_ ?_ ?_ <;> simp [us0, cl, Abs.setThr, Abs.uses, Abs.registers, Abs.asks, idPrg, check, posW, tiW, afW, tiG, posG, past]
      · cases r <;> simp at h
        obtain ⟨rfl, rfl⟩ := h
        refine idFacts_main rfl ?_ ?_ ?_ ?_ ?_ <;> simp [us0, cl, Abs.setThr, Abs.uses, Abs.registers, Abs.asks, idPrg, check, posW, tiW, afW, tiG, posG, past]
      · subst h
        refine idFacts_main rfl ?_ ?_ ?_ ?_ ?_ <;> simp [us0, cl, Abs.setThr, Abs.uses, Abs.registers, Abs.asks, idPrg, check, posW, tiW, afW, tiG, posG, past]
    | hT ha =>
      cases ha <;> simp [opStep, idPrg, check] at h <;> simp [past] at cl
      · cases r <;> simp at h
        obtain ⟨rfl, rfl⟩ := h
        refine idFacts_main rfl ?_ ?_ ?_ ?_ ?_ <;> simp [us0, cl, Abs.setThr, Abs.uses, Abs.registers, Abs.asks, idPrg, check, posW, tiW, afW, tiG, posG, past]
      · cases r <;> simp at h
        obtain ⟨rfl, rfl⟩ := h
        refine idFacts_main rfl ?_ ?_ ?_ ?_ ?_ <;> simp [us0, cl, Abs.setThr, Abs.uses, Abs.registers, Abs.asks, idPrg, check, posW, tiW, afW, tiG, posG, past]
      · subst h
        refine idFacts_main rfl ?_ ?_ ?_ ?_ ?_ <;> simp [us0, cl, Abs.setThr, Abs.uses, Abs.registers, Abs.asks, idPrg, check, posW, tiW, afW, tiG, posG, past]
    | hP ha =>
      cases ha <;> simp [opStep, idPrg, check] at h <;> simp [past] at cl
      · cases r <;> simp at h
        obtain ⟨rfl, rfl⟩ := h
        refine idFacts_main rfl ?_ ?_ ?_ ?_ ?_ <;> simp [us0, cl, Abs.setThr, Abs.uses, Abs.registers, Abs.asks, idPrg, check, posW, tiW, afW, tiG, posG, past]
      · cases r <;> simp at h
        obtain ⟨rfl, rfl⟩ := h
        refine idFacts_main rfl ?_ ?_ ?_ ?_ ?_ <;> simp [us0, cl, Abs.setThr, Abs.uses, Abs.registers, Abs.asks, idPrg, check, posW, tiW, afW, tiG, posG, past]
      · subst h
        refine idFacts_main rfl ?_ ?_ ?_ ?_ ?_ <;> simp [us0, cl, Abs.setThr, Abs.uses, Abs.registers, Abs.asks, idPrg, check, posW, tiW, afW, tiG, posG, past]
    | m101 =>
      simp [opStep, idPrg] at h
      simp [past] at us0 cl
      split at h
      · split at h <;> cases h
        refine idFacts_main rfl ?_ ?_ ?_ ?_ ?_ <;> simp [us0, cl, Abs.setThr, Abs.uses, Abs.registers, Abs.asks, idPrg, check, posW, tiW, afW, tiG, posG, past]
      · cases h
        refine idFacts_main rfl ?_ ?_ ?_ ?_ ?_ <;> simp [us0, cl, Abs.setThr, Abs.uses, Abs.registers, Abs.asks, idPrg, check, posW, tiW, afW, tiG, posG, past]
      · cases h
    | m101' r' =>
      simp [past] at us0 cl
      cases r' <;> simp [opStep, idPrg] at h <;> subst h
      · refine idFacts_main rfl ?_ ?_ ?_ ?_ ?_ <;> simp [us0, cl, Abs.setThr, Abs.uses, Abs.registers, Abs.asks, idPrg, check, posW, tiW, afW, tiG, posG, past]
      · refine idFacts_main rfl ?_ ?_ ?_ ?_ ?_ <;> simp [us0, cl, Abs.setThr, Abs.uses, Abs.registers, Abs.asks, idPrg, check, posW, tiW, afW, tiG, posG, past]
    | m108 =>
      simp [past] at us0 cl
      simp [opStep, idPrg] at h
      split at h <;> cases h
      refine idFacts_main rfl ?_ ?_ ?_ ?_ ?_ <;> simp [us0, cl, Abs.setThr, Abs.uses, Abs.registers, Abs.asks, idPrg, check, posW, tiW, afW, tiG, posG, past]
    | m111 =>
      simp [opStep, idPrg] at h; subst h
      simp at cl
      refine idFacts_main rfl ?_ ?_ ?_ ?_ ?_ <;> simp [us0, cl, Abs.setThr, Abs.uses, Abs.registers, Abs.asks, idPrg, check, posW, tiW, afW, tiG, posG, past]
    | exitT =>
      simp only [nextStep] at h
      simp at cl
      split at h <;> cases h
      · next _ g k =>
        obtain rfl := hl g (by simp)
        refine idFacts_main rfl ?_ ?_ ?_ ?_ ?_ <;> simp [us0, cl, Abs.setThr, Abs.uses, Abs.registers, Abs.asks, idPrg, check, posW, tiW, afW, tiG, posG, past] <;> omega
      · refine idFacts_main rfl ?_ ?_ ?_ ?_ ?_ <;> simp [us0, cl, Abs.setThr, Abs.uses, Abs.registers, Abs.asks, idPrg, check, posW, tiW, afW, tiG, posG, past]
    | rT =>
      simp [opStep, idPrg] at h; subst h
      simp at cl
      refine idFacts_main rfl ?_ ?_ ?_ ?_ ?_ <;> simp [us0, cl, Abs.setThr, Abs.uses, Abs.registers, Abs.asks, idPrg, check, posW, tiW, afW, tiG, posG, past]
    | exitP =>
      simp only [nextStep] at h
      simp at cl
      split at h
      · cases h
      split at h <;> cases h
      · next _ g k =>
        obtain rfl := hf g (by simp)
        refine idFacts_main rfl ?_ ?_ ?_ ?_ ?_ <;> simp [us0, cl, Abs.setThr, Abs.uses, Abs.registers, Abs.asks, idPrg, check, posW, tiW, afW, tiG, posG, past] <;> omega
      · refine idFacts_main rfl ?_ ?_ ?_ ?_ ?_ <;> simp [us0, cl, Abs.setThr, Abs.uses, Abs.registers, Abs.asks, idPrg, check, posW, tiW, afW, tiG, posG, past]
    | rP =>
      simp [opStep, idPrg] at h; subst h
      simp at cl
      refine idFacts_main rfl ?_ ?_ ?_ ?_ ?_ <;> simp [us0, cl, Abs.setThr, Abs.uses, Abs.registers, Abs.asks, idPrg, check, posW, tiW, afW, tiG, posG, past]
    | fini =>
      simp [nextStep] at h; subst h
      refine idFacts_main rfl ?_ ?_ ?_ ?_ ?_ <;> simp [us0, cl, Abs.setThr, Abs.uses, Abs.registers, Abs.asks, idPrg, check, posW, tiW, afW, tiG, posG, past]
    | imm =>
      simp [nextStep] at h; subst h
      refine idFacts_main rfl ?_ ?_ ?_ ?_ ?_ <;> simp [us0, cl, Abs.setThr, Abs.uses, Abs.registers, Abs.asks, idPrg, check, posW, tiW, afW, tiG, posG, past]

/-- Two threads; the child's step. -/
theorem idFacts_two1 {lk : Bool} {a a' : Abs (Option Id) Ti} {x : Nat} {r : Option Nat} {p q : Nat} {l l' : List Ti} {y z : Pos Ti} {us : List Nat}
    (hpq : p ≠ q) (ht : a.thr = [⟨y, l, p⟩, ⟨z, l', q⟩]) (hy : Two p q a.mem y z) (hl' : ∀ g ∈ l', g = .as1 1 .ret) (hU : IdU us a)
    (hst : a.status = none) (h : astep idPrg lk a 1 r x = some a') : IdFacts us a 1 r a' := by
  obtain ⟨mem, thr, fns, closed, status⟩ := a
  simp only at ht hy hst
  subst ht hst
  have hk : KA q z ∨ (KB p q z) ∨ KC q z := by
    cases hy with
    | told1 hK => exact .inl hK
    | told2 hK => exact .inr (.inl hK)
    | heard1 hK => exact .inr (.inr hK)
    | none hM hK => exact .inl hK
    | heard2 hM hK => exact .inr (.inr hK)
  clear hy
  simp only [astep, Option.isSome_none, Bool.false_eq_true, if_false, List.getElem?_cons_succ, List.getElem?_cons_zero] at h
  rcases hk with hK | hK | hK
  · cases hK with
    | as ha =>
      cases ha <;> simp [opStep, idPrg, check] at h
      · cases r <;> simp at h
        obtain ⟨rfl, rfl⟩ := h
        refine idFacts_child rfl hU ?_ ?_ ?_ ?_ <;> simp [Abs.setThr, Abs.uses, Abs.registers, Abs.asks, idPrg, check, posW, tiW, afW, tiG, posG, past]
      · cases r <;> simp at h
        obtain ⟨rfl, rfl⟩ := h
        refine idFacts_child rfl hU ?_ ?_ ?_ ?_ <;> simp [Abs.setThr, Abs.uses, Abs.registers, Abs.asks, idPrg, check, posW, tiW, afW, tiG, posG, past]
      · subst h
        refine idFacts_child rfl hU ?_ ?_ ?_ ?_ <;> simp [Abs.setThr, Abs.uses, Abs.registers, Abs.asks, idPrg, check, posW, tiW, afW, tiG, posG, past]
    | c40 =>
      simp [opStep, idPrg] at h; subst h
      refine idFacts_child rfl hU ?_ ?_ ?_ ?_ <;> simp [Abs.setThr, Abs.uses, Abs.registers, Abs.asks, idPrg, check, posW, tiW, afW, tiG, posG, past]
      omega
    | c53 =>
      simp [opStep, idPrg] at h; subst h
      cases mem with
      | none => refine idFacts_child rfl hU ?_ ?_ ?_ (.inr ⟨rfl, rfl, rfl, rfl, rfl⟩) <;> simp [Abs.setThr, Abs.uses, Abs.registers, Abs.asks, idPrg, check, posW, tiW, afW, tiG, posG, past]
      | some i => refine idFacts_child rfl hU ?_ ?_ ?_ ?_ <;> simp [Abs.setThr, Abs.uses, Abs.registers, Abs.asks, idPrg, check, posW, tiW, afW, tiG, posG, past]
  · cases hK <;> simp [opStep, idPrg, check] at h
    · cases r <;> simp at h
      obtain ⟨rfl, rfl⟩ := h
      refine idFacts_child rfl hU ?_ ?_ ?_ ?_ <;> simp [Abs.setThr, Abs.uses, Abs.registers, Abs.asks, idPrg, check, posW, tiW, afW, tiG, posG, past]
    · rw [if_neg hpq] at h
      subst h
      refine idFacts_child rfl hU ?_ ?_ ?_ ?_ <;> simp [Abs.setThr, Abs.uses, Abs.registers, Abs.asks, idPrg, check, posW, tiW, afW, tiG, posG, past]
    · cases r <;> simp at h
      obtain ⟨rfl, rfl⟩ := h
      refine idFacts_child rfl hU ?_ ?_ ?_ ?_ <;> simp [Abs.setThr, Abs.uses, Abs.registers, Abs.asks, idPrg, check, posW, tiW, afW, tiG, posG, past]
    · subst h
      refine idFacts_child rfl hU ?_ ?_ ?_ ?_ <;> simp [Abs.setThr, Abs.uses, Abs.registers, Abs.asks, idPrg, check, posW, tiW, afW, tiG, posG, past]
  · cases hK with
    | as ha =>
      cases ha <;> simp [opStep, idPrg, check] at h
      · cases r <;> simp at h
        obtain ⟨rfl, rfl⟩ := h
        refine idFacts_child rfl hU ?_ ?_ ?_ ?_ <;> simp [Abs.setThr, Abs.uses, Abs.registers, Abs.asks, idPrg, check, posW, tiW, afW, tiG, posG, past]
      · cases r <;> simp at h
        obtain ⟨rfl, rfl⟩ := h
        refine idFacts_child rfl hU ?_ ?_ ?_ ?_ <;> simp [Abs.setThr, Abs.uses, Abs.registers, Abs.asks, idPrg, check, posW, tiW, afW, tiG, posG, past]
      · subst h
        refine idFacts_child rfl hU ?_ ?_ ?_ ?_ <;> simp [Abs.setThr, Abs.uses, Abs.registers, Abs.asks, idPrg, check, posW, tiW, afW, tiG, posG, past]
    | hE v ha =>
      cases ha <;> simp [opStep, idPrg, check] at h
      · cases r <;> simp at h
        obtain ⟨rfl, rfl⟩ := h
        refine idFacts_child rfl hU ?_ ?_ ?_ ?_ <;> simp [Abs.setThr, Abs.uses, Abs.registers, Abs.asks, idPrg, check, posW, tiW, afW, tiG, posG, past]
      · cases r <;> simp at h
        obtain ⟨rfl, rfl⟩ := h
        refine idFacts_child rfl hU ?_ ?_ ?_ ?_ <;> simp [Abs.setThr, Abs.uses, Abs.registers, Abs.asks, idPrg, check, posW, tiW, afW, tiG, posG, past]
      · subst h
        refine idFacts_child rfl hU ?_ ?_ ?_ ?_ <;> simp [Abs.setThr, Abs.uses, Abs.registers, Abs.asks, idPrg, check, posW, tiW, afW, tiG, posG, past]
    | ret =>
      simp [opStep, idPrg] at h; subst h
      refine idFacts_child rfl hU ?_ ?_ ?_ ?_ <;> simp [Abs.setThr, Abs.uses, Abs.registers, Abs.asks, idPrg, check, posW, tiW, afW, tiG, posG, past]
    | rE v =>
      simp [opStep, idPrg] at h; subst h
      refine idFacts_child rfl hU ?_ ?_ ?_ ?_ <;> simp [Abs.setThr, Abs.uses, Abs.registers, Abs.asks, idPrg, check, posW, tiW, afW, tiG, posG, past]
    | ending v =>
      simp only [nextStep] at h
      split at h <;> cases h
      · next _ g k =>
        obtain rfl := hl' g (by simp)
        refine idFacts_child rfl hU ?_ ?_ ?_ ?_ <;> simp [Abs.setThr, Abs.uses, Abs.registers, Abs.asks, idPrg, check, posW, tiW, afW, tiG, posG, past]
        omega
      · refine idFacts_child rfl hU ?_ ?_ ?_ ?_ <;> simp [Abs.setThr, Abs.uses, Abs.registers, Abs.asks, idPrg, check, posW, tiW, afW, tiG, posG, past]
    | done v => cases h

theorem idFacts {lk : Bool} {a a' : Abs (Option Id) Ti} {t x : Nat} {r : Option Nat} {us : List Nat} (I : IdInv a) (hU : IdU us a)
    (h : astep idPrg lk a t r x = some a') : IdFacts us a t r a' := by
  have hst : a.status = none := by
    cases hh : a.status with
    | none => rfl
    | some st => simp [astep, hh] at h
  rcases I.thr with ⟨p, y, l, h1, h2, h3, h4⟩ | ⟨p, q, y, z, l, l', hpq, h1, h2, h3, h4⟩
  · exact idFacts_one h1 h2 h3 hU hst h
  · match t, h with
    | 0, h => exact idFacts_two0 h1 h2 h3 I.fns hU hst h
    | 1, h => exact idFacts_two1 hpq h1 h2 h4 hU hst h
    | n + 2, h => have := astep_lt h; simp [h1] at this; omega

end Origin.Programs
