import Verif.Spec.User
import Verif.Model.Programs
set_option linter.unusedSimpArgs false
/-! # The test programs that cannot be explored: `thread-id` (loops, ids) and `detach` (many threads) -/

namespace Origin.Programs
open User

/-! ## thread-id -/

/-- In the assertion about thread `t`, whose id is `p`, going on at `k`. -/
inductive As (t p : Nat) (k : Ti) : Ti → Prop
  | one : As t p k (.as1 t k)
  | two : As t p k (.as2 t (some p) k)
  | three : As t p k (.as3 (some p) (some p) k)

/-- The main thread, with id `p`, before creating the other. -/
inductive MPre (p : Nat) : Pos Ti → Prop
  | ctors : MPre p (.next (.ctors []))
  | as {c} : As 0 p .m27 c → MPre p (.run c .main)
  | m27 : MPre p (.run .m27 .main)
  | m30 : MPre p (.run .m30 .main)
  | m37 : MPre p (.run .m37 .main)

/-- Before telling its id; the child's is `q`. -/
inductive MA (p q : Nat) : Pos Ti → Prop
  | m77 : MA p q (.run (.m77 1) .main)
  | m77' : MA p q (.run (.m77' 1 (some q)) .main)
  | m83 : MA p q (.run (.m83 1 q) .main)
  | m83' : MA p q (.run (.m83' 1 q (some p)) .main)

/-- After having heard the child's id. -/
inductive MC (p : Nat) : Pos Ti → Prop
  | m101 : MC p (.run (.m101 1) .main)
  | m101' (r) : MC p (.run (.m101' 1 r) .main)
  | m108 : MC p (.run (.m108 1) .main)
  | as {c} : As 0 p .m111 c → MC p (.run c .main)
  | m111 : MC p (.run .m111 .main)
  | exitT : MC p (.next (.exitT 201))
  | hT {c} : As 0 p .ret c → MC p (.run c (.exitT 201))
  | rT : MC p (.run .ret (.exitT 201))
  | exitP : MC p (.next (.exitP 201))
  | hP {c} : As 0 p .ret c → MC p (.run c (.exitP 201))
  | rP : MC p (.run .ret (.exitP 201))
  | fini : MC p (.next (.fini 201 []))
  | imm : MC p (.next (.imm 201))

/-- The child, before it has heard. -/
inductive KA (q : Nat) : Pos Ti → Prop
  | as {c} : As 1 q .c40 c → KA q (.run c .start)
  | c40 : KA q (.run .c40 .start)
  | c53 : KA q (.run .c53 .start)

/-- Before it tells. -/
inductive KB (p q : Nat) : Pos Ti → Prop
  | c57 : KB p q (.run (.c57 (.parent p)) .start)
  | c57' : KB p q (.run (.c57' (.parent p) (some q)) .start)
  | c63 : KB p q (.run .c63 .start)
  | c63' : KB p q (.run (.c63' (some q)) .start)

/-- After. -/
inductive KC (q : Nat) : Pos Ti → Prop
  | as {c} : As 1 q .ret c → KC q (.run c .start)
  | ret : KC q (.run .ret .start)
  | ending (v) : KC q (.next (.ending v))
  | hE {c} (v) : As 1 q .ret c → KC q (.run c (.ending v))
  | rE (v) : KC q (.run .ret (.ending v))
  | done (v) : KC q (.done v)

/-- What the memory says about where the two are. -/
inductive Two (p q : Nat) : Option Id → Pos Ti → Pos Ti → Prop
  | none {x y} : MA p q x → KA q y → Two p q none x y
  | told1 {y} : KA q y → Two p q (some (.parent p)) (.run (.m91 1 q) .main) y
  | told2 {y} : KB p q y → Two p q (some (.parent p)) (.run (.m91 1 q) .main) y
  | heard1 {y} : KC q y → Two p q (some (.child q)) (.run (.m91 1 q) .main) y
  | heard2 {x y} : MC p x → KC q y → Two p q (some (.child q)) x y

structure IdInv (a : Abs (Option Id) Ti) : Prop where
  thr : (∃ p x l, a.thr = [⟨x, l, p⟩] ∧ a.mem = none ∧ MPre p x ∧ ∀ g ∈ l, g = .as1 0 .ret) ∨
    ∃ p q x y l l', p ≠ q ∧ a.thr = [⟨x, l, p⟩, ⟨y, l', q⟩] ∧ Two p q a.mem x y ∧ (∀ g ∈ l, g = .as1 0 .ret) ∧ ∀ g ∈ l', g = .as1 1 .ret
  fns : ∀ g ∈ a.fns, g = .as1 0 .ret
  status : ∀ st, a.status = some st → st = 201

theorem idInv_init (tid : Nat) : IdInv (ainit idPrg none tid) :=
  ⟨.inl ⟨tid, _, _, rfl, rfl, .ctors, by simp⟩, by simp [ainit], by simp [ainit]⟩

theorem KA.not_done {q : Nat} {y : Pos Ti} (h : KA q y) (v : Nat) : y ≠ .done v := by cases h <;> simp
theorem MPre.not_done {q : Nat} {y : Pos Ti} (h : MPre q y) (v : Nat) : y ≠ .done v := by cases h <;> simp

/-- One thread. -/
theorem idInv_one {lk : Bool} {a a' : Abs (Option Id) Ti} {t x : Nat} {r : Option Nat} {p : Nat} {l : List Ti} {y : Pos Ti}
    (ht : a.thr = [⟨y, l, p⟩]) (hm : a.mem = none) (hy : MPre p y) (hl : ∀ g ∈ l, g = .as1 0 .ret) (hf : ∀ g ∈ a.fns, g = .as1 0 .ret)
    (hst : a.status = none) (h : astep idPrg lk a t r x = some a') : IdInv a' := by
  obtain ⟨mem, thr, fns, closed, status⟩ := a
  simp only at ht hm hf hst
  subst ht hm hst
  match t, h with
  | n + 1, h => simp [astep] at h
  | 0, h =>
  simp only [astep, Option.isSome_none, Bool.false_eq_true, if_false, List.getElem?_cons_zero] at h
  cases hy with
  | ctors =>
    simp [nextStep] at h; subst h
    exact ⟨.inl ⟨p, _, _, rfl, rfl, .as .one, hl⟩, hf, by simp [Abs.setThr]⟩
  | as ha =>
    cases ha <;> simp [opStep, idPrg, check] at h
    · cases r <;> simp at h
      obtain ⟨rfl, rfl⟩ := h
      exact ⟨.inl ⟨_, _, _, rfl, rfl, .as .two, hl⟩, hf, by simp [Abs.setThr]⟩
    · cases r <;> simp at h
      obtain ⟨rfl, rfl⟩ := h
      exact ⟨.inl ⟨_, _, _, rfl, rfl, .as .three, hl⟩, hf, by simp [Abs.setThr]⟩
    · subst h
      exact ⟨.inl ⟨_, _, _, rfl, rfl, .m27, hl⟩, hf, by simp [Abs.setThr]⟩
  | m27 =>
    simp [opStep, idPrg] at h
    obtain ⟨-, rfl⟩ := h
    exact ⟨.inl ⟨_, _, _, rfl, rfl, .m30, hl⟩, by simpa [Abs.setThr] using hf, by simp [Abs.setThr]⟩
  | m30 =>
    simp [opStep, idPrg] at h
    subst h
    exact ⟨.inl ⟨_, _, _, rfl, rfl, .m37, by simpa using hl⟩, hf, by simp [Abs.setThr]⟩
  | m37 =>
    simp [opStep, idPrg, Abs.tidFree] at h
    obtain ⟨⟨-, hne⟩, rfl⟩ := h
    exact ⟨.inr ⟨_, _, _, _, _, _, hne, rfl, .none .m77 (.as .one), hl, by simp⟩, hf, by simp⟩

/-- Two threads. -/
theorem idInv_two {lk : Bool} {a a' : Abs (Option Id) Ti} {t x : Nat} {r : Option Nat} {p q : Nat} {l l' : List Ti} {y z : Pos Ti} (hpq : p ≠ q)
    (ht : a.thr = [⟨y, l, p⟩, ⟨z, l', q⟩]) (hy : Two p q a.mem y z) (hl : ∀ g ∈ l, g = .as1 0 .ret) (hl' : ∀ g ∈ l', g = .as1 1 .ret)
    (hf : ∀ g ∈ a.fns, g = .as1 0 .ret)
    (hst : a.status = none) (h : astep idPrg lk a t r x = some a') : IdInv a' := by
  obtain ⟨mem, thr, fns, closed, status⟩ := a
  simp only at ht hy hf hst
  subst ht hst
  match t, h with
  | n + 2, h => simp [astep] at h
  | 0, h =>
    simp only [astep, Option.isSome_none, Bool.false_eq_true, if_false, List.getElem?_cons_zero] at h
    cases hy with
    | none hM hK =>
      cases hM <;> simp [opStep, idPrg, check] at h
      · cases r with
        | none => cases hz : z <;> simp [hz] at h; exact absurd hz (hK.not_done _)
        | some i =>
          simp at h
          obtain ⟨rfl, rfl⟩ := h
          exact ⟨.inr ⟨_, _, _, _, _, _, hpq, rfl, .none .m77' hK, hl, hl'⟩, hf, by simp [Abs.setThr]⟩
      · subst h
        exact ⟨.inr ⟨_, _, _, _, _, _, hpq, rfl, .none .m83 hK, hl, hl'⟩, hf, by simp [Abs.setThr]⟩
      · cases r <;> simp at h
        obtain ⟨rfl, rfl⟩ := h
        exact ⟨.inr ⟨_, _, _, _, _, _, hpq, rfl, .none .m83' hK, hl, hl'⟩, hf, by simp [Abs.setThr]⟩
      · subst h
        exact ⟨.inr ⟨_, _, _, _, _, _, hpq, rfl, .told1 hK, hl, hl'⟩, hf, by simp [Abs.setThr]⟩
    | told1 hK =>
      simp [opStep, idPrg] at h
      subst h
      exact ⟨.inr ⟨_, _, _, _, _, _, hpq, rfl, .told1 hK, hl, hl'⟩, hf, by simp [Abs.setThr]⟩
    | told2 hK =>
      simp [opStep, idPrg] at h
      subst h
      exact ⟨.inr ⟨_, _, _, _, _, _, hpq, rfl, .told2 hK, hl, hl'⟩, hf, by simp [Abs.setThr]⟩
    | heard1 hK =>
      simp [opStep, idPrg] at h
      subst h
      exact ⟨.inr ⟨_, _, _, _, _, _, hpq, rfl, .heard2 .m101 hK, hl, hl'⟩, hf, by simp [Abs.setThr]⟩
    | heard2 hM hK =>
      have fin : ∀ {b : Abs (Option Id) Ti} {y' k}, b.thr = [⟨y', k, p⟩, ⟨z, l', q⟩] → b.mem = some (.child q) → MC p y' → (∀ g ∈ k, g = .as1 0 .ret) →
          (∀ g ∈ b.fns, g = .as1 0 .ret) → (∀ st, b.status = some st → st = 201) → IdInv b := by
        intro b y' k h1 h2 h3 h4 h5 h6
        exact ⟨.inr ⟨_, _, _, _, _, _, hpq, h1, h2 ▸ .heard2 h3 hK, h4, hl'⟩, h5, h6⟩
      have as : ∀ {k c} {A : After Ti}, As 0 p k c → (∀ c, As 0 p k c → MC p (.run c A)) → MC p (.run k A) →
          (opStep { mem := some (Id.child q), thr := [⟨.run c A, l, p⟩, ⟨z, l', q⟩], fns, closed, status := none } 0 ⟨.run c A, l, p⟩ A r x (idPrg.op c) = some a') →
          IdInv a' := by
        intro k c A ha h1 h2 h
        cases ha <;> simp [opStep, idPrg, check] at h
        · cases r <;> simp at h
          obtain ⟨rfl, rfl⟩ := h
          exact fin rfl rfl (h1 _ .two) hl hf (by simp [Abs.setThr])
        · cases r <;> simp at h
          obtain ⟨rfl, rfl⟩ := h
          exact fin rfl rfl (h1 _ .three) hl hf (by simp [Abs.setThr])
        · subst h
          exact fin rfl rfl h2 hl hf (by simp [Abs.setThr])
      cases hM with
      | as ha => exact as ha (fun _ => .as) .m111 h
      | hT ha => exact as ha (fun _ => .hT) .rT h
      | hP ha => exact as ha (fun _ => .hP) .rP h
      | m101 =>
        simp [opStep, idPrg] at h
        split at h
        · split at h <;> cases h
          exact fin rfl rfl (.m101' _) hl hf (by simp [Abs.setThr])
        · cases h
          exact fin rfl rfl (.m101' _) hl hf (by simp [Abs.setThr])
        · cases h
      | m101' r' =>
        cases r' <;> simp [opStep, idPrg] at h <;> subst h
        · exact fin rfl rfl .m108 hl hf (by simp [Abs.setThr])
        · exact fin rfl rfl .m101 hl hf (by simp [Abs.setThr])
      | m108 =>
        simp [opStep, idPrg] at h
        split at h <;> cases h
        exact fin rfl rfl (.as .one) hl hf (by simp [Abs.setThr])
      | m111 =>
        simp [opStep, idPrg] at h; subst h
        exact fin rfl rfl .exitT hl hf (by simp [Abs.setThr])
      | exitT =>
        simp only [nextStep] at h
        split at h <;> cases h
        · next _ g k =>
          obtain rfl := hl g (by simp)
          exact fin rfl rfl (.hT .one) (fun g hg => hl g (by simp [hg])) hf (by simp [Abs.setThr])
        · exact fin rfl rfl .exitP hl hf (by simp [Abs.setThr])
      | rT =>
        simp [opStep, idPrg] at h; subst h
        exact fin rfl rfl .exitT hl hf (by simp [Abs.setThr])
      | exitP =>
        simp only [nextStep] at h
        split at h
        · cases h
        split at h <;> cases h
        · next _ g k =>
          obtain rfl := hf g (by simp)
          exact fin rfl rfl (.hP .one) hl (fun g hg => hf g (List.mem_cons_of_mem _ hg)) (by simp [Abs.setThr])
        · exact fin rfl rfl .fini hl (by simp [Abs.setThr]) (by simp [Abs.setThr])
      | rP =>
        simp [opStep, idPrg] at h; subst h
        exact fin rfl rfl .exitP hl hf (by simp [Abs.setThr])
      | fini =>
        simp [nextStep] at h; subst h
        exact fin rfl rfl .imm hl hf (by simp [Abs.setThr])
      | imm =>
        simp [nextStep] at h; subst h
        exact fin rfl rfl .imm hl hf (by simp)
  | 1, h =>
    simp only [astep, Option.isSome_none, Bool.false_eq_true, if_false, List.getElem?_cons_succ, List.getElem?_cons_zero] at h
    have fin : ∀ {b : Abs (Option Id) Ti} {z' k}, b.thr = [⟨y, l, p⟩, ⟨z', k, q⟩] → Two p q b.mem y z' → (∀ g ∈ k, g = .as1 1 .ret) →
        (∀ g ∈ b.fns, g = .as1 0 .ret) → b.status = none → IdInv b := by
      intro b y' k h1 h2 h4 h5 h6
      exact ⟨.inr ⟨_, _, _, _, _, _, hpq, h1, h2, hl, h4⟩, h5, by simp [h6]⟩
    have as : ∀ {k c} {A : After Ti}, As 1 q k c → (∀ c, As 1 q k c → Two p q mem y (.run c A)) → Two p q mem y (.run k A) →
        (opStep { mem, thr := [⟨y, l, p⟩, ⟨.run c A, l', q⟩], fns, closed, status := none } 1 ⟨.run c A, l', q⟩ A r x (idPrg.op c) = some a') →
        IdInv a' := by
      intro k c A ha h1 h2 h
      cases ha <;> simp [opStep, idPrg, check] at h
      · cases r <;> simp at h
        obtain ⟨rfl, rfl⟩ := h
        exact fin rfl (h1 _ .two) hl' hf rfl
      · cases r <;> simp at h
        obtain ⟨rfl, rfl⟩ := h
        exact fin rfl (h1 _ .three) hl' hf rfl
      · subst h
        exact fin rfl h2 hl' hf rfl
    have ka : KA q z → (∀ z', KA q z' → Two p q mem y z') → (∀ i, mem = some i → i = .parent p ∧ Two p q mem y (.run (.c57 i) .start)) →
        IdInv a' := by
      intro hK hT hi
      cases hK with
      | as ha => exact as ha (fun _ h => hT _ (.as h)) (hT _ .c40) h
      | c40 =>
        simp [opStep, idPrg] at h; subst h
        exact fin rfl (hT _ .c53) (by simpa using hl') hf rfl
      | c53 =>
        simp [opStep, idPrg] at h; subst h
        cases mem with
        | none => exact fin rfl (hT _ .c53) hl' hf rfl
        | some i => exact fin rfl (hi i rfl).2 hl' hf rfl
    have kc : KC q z → (∀ z', KC q z' → Two p q mem y z') → IdInv a' := by
      intro hK hT
      cases hK with
      | as ha => exact as ha (fun _ h => hT _ (.as h)) (hT _ .ret) h
      | hE v ha => exact as ha (fun _ h => hT _ (.hE v h)) (hT _ (.rE v)) h
      | ret =>
        simp [opStep, idPrg] at h; subst h
        exact fin rfl (hT _ (.ending _)) hl' hf rfl
      | rE v =>
        simp [opStep, idPrg] at h; subst h
        exact fin rfl (hT _ (.ending _)) hl' hf rfl
      | ending v =>
        simp only [nextStep] at h
        split at h <;> cases h
        · next _ g k =>
          obtain rfl := hl' g (by simp)
          exact fin rfl (hT _ (.hE v .one)) (fun g hg => hl' g (by simp [hg])) hf rfl
        · exact fin rfl (hT _ (.done _)) hl' hf rfl
      | done v => cases h
    cases hy with
    | none hM hK => exact ka hK (fun _ h => .none hM h) (by simp)
    | told1 hK =>
      refine ka hK (fun _ h => .told1 h) ?_
      rintro i ⟨⟩
      exact ⟨rfl, .told2 .c57⟩
    | told2 hK =>
      cases hK <;> simp [opStep, idPrg, check] at h
      · cases r <;> simp at h
        obtain ⟨rfl, rfl⟩ := h
        exact fin rfl (.told2 .c57') hl' hf rfl
      · rw [if_neg hpq] at h
        subst h
        exact fin rfl (.told2 .c63) hl' hf rfl
      · cases r <;> simp at h
        obtain ⟨rfl, rfl⟩ := h
        exact fin rfl (.told2 .c63') hl' hf rfl
      · subst h
        exact fin rfl (.heard1 (.as .one)) hl' hf rfl
    | heard1 hK => exact kc hK fun _ h => .heard1 h
    | heard2 hM hK => exact kc hK fun _ h => .heard2 hM h

theorem idInv {lk : Bool} {a : Abs (Option Id) Ti} (A : AReach idPrg lk none a) : IdInv a := by
  induction A with
  | init tid => exact idInv_init tid
  | step A hs ih =>
    rename_i a t r x a'
    have hst : a.status = none := by
      cases h : a.status with
      | none => rfl
      | some st => simp [astep, h] at hs
    rcases ih.thr with ⟨p, y, l, h1, h2, h3, h4⟩ | ⟨p, q, y, z, l, l', hpq, h1, h2, h3, h4⟩
    · exact idInv_one h1 h2 h3 h4 ih.fns hst hs
    · exact idInv_two hpq h1 h2 h3 h4 ih.fns hst hs

theorem IdInv.len {a : Abs (Option Id) Ti} (I : IdInv a) : a.thr.length ≤ 2 := by
  rcases I.thr with ⟨p, x, l, h, -⟩ | ⟨p, q, x, y, l, l', -, h, -⟩ <;> simp [h]

/-! ## detach -/

/-- Where the main thread can be, when there are so many threads, and there were so many at the first `detach`. -/
inductive DMain : Nat → Option Nat → Pos De → Prop
  | ctors : DMain 1 none (.next (.ctors []))
  | m15 : DMain 1 none (.run .m15 .main)
  | m23 : DMain 2 none (.run (.m23 1) .main)
  | m30 : DMain 3 none (.run (.m30 1 2) .main)
  | m32 : DMain 3 (some 3) (.run (.m32 1) .main)
  | m43 : DMain 4 (some 3) (.run (.m43 1) .main)
  | m45 : DMain 4 (some 3) (.run .m45 .main)
  | exitT : DMain 4 (some 3) (.next (.exitT 202))
  | exitP : DMain 4 (some 3) (.next (.exitP 202))
  | fini : DMain 4 (some 3) (.next (.fini 202 []))
  | imm : DMain 4 (some 3) (.next (.imm 202))

/-- Where the others can be. -/
inductive DChild (t : Nat) : Pos De → Prop
  | f : DChild t (.run .f .start)
  | g : t = 3 → DChild t (.run .g .start)
  | g1 : DChild t (.run .g1 .start)
  | ending (v) : DChild t (.next (.ending v))
  | done (v) : DChild t (.done v)

structure DInv (w : Option Nat) (a : Abs Unit De) : Prop where
  main : ∃ T, a.thr[0]? = some T ∧ T.fns = [] ∧ DMain a.thr.length w T.pos
  child : ∀ t T, a.thr[t]? = some T → t ≠ 0 → T.fns = [] ∧ DChild t T.pos
  fns : a.fns = []
  status : ∀ st, a.status = some st → st = 202

/-- The main thread moves. -/
theorem DInv.set {w w' : Option Nat} {a b : Abs Unit De} (I : DInv w a) {T : AThr De} (hb : b.thr = a.thr.set 0 T) (hT : T.fns = [])
    (hp : DMain a.thr.length w' T.pos) (hf : b.fns = []) (hs : ∀ st, b.status = some st → st = 202) : DInv w' b := by
  obtain ⟨T0, h0, -⟩ := I.main
  have hlt := (List.getElem?_eq_some_iff.mp h0).1
  refine ⟨⟨T, by rw [hb]; simp [hlt], hT, by rw [hb, List.length_set]; exact hp⟩, fun u U hu hne => ?_, hf, hs⟩
  rw [hb, List.getElem?_set_ne (Ne.symm hne)] at hu
  exact I.child u U hu hne

/-- Another thread moves. -/
theorem DInv.setC {w : Option Nat} {a b : Abs Unit De} (I : DInv w a) {t : Nat} {T : AThr De} (ht : t ≠ 0) (hb : b.thr = a.thr.set t T) (hT : T.fns = [])
    (hp : DChild t T.pos) (hf : b.fns = []) (hs : ∀ st, b.status = some st → st = 202) : DInv w b := by
  obtain ⟨T0, h0, h1, h2⟩ := I.main
  refine ⟨⟨T0, by rw [hb, List.getElem?_set_ne ht]; exact h0, h1, by rw [hb, List.length_set]; exact h2⟩, fun u U hu hne => ?_, hf, hs⟩
  rw [hb, List.getElem?_set] at hu
  split at hu
  · next he =>
    subst he
    split at hu <;> cases hu
    exact ⟨hT, hp⟩
  · exact I.child u U hu hne

/-- The main thread creates one. -/
theorem DInv.add {w w' : Option Nat} {a b : Abs Unit De} (I : DInv w a) {x : Nat} {T : AThr De} {cd : De}
    (hb : b.thr = a.thr.set 0 T ++ [⟨.run cd .start, [], x⟩]) (hT : T.fns = []) (hp : DMain (a.thr.length + 1) w' T.pos)
    (hg : DChild a.thr.length (.run cd .start)) (hf : b.fns = []) (hs : ∀ st, b.status = some st → st = 202) : DInv w' b := by
  obtain ⟨T0, h0, -⟩ := I.main
  have hlt := (List.getElem?_eq_some_iff.mp h0).1
  refine ⟨⟨T, ?_, hT, by rw [hb, List.length_append, List.length_set]; exact hp⟩, fun u U hu hne => ?_, hf, hs⟩
  · rw [hb, List.getElem?_append_left (by simpa using hlt)]; simp [hlt]
  · rw [hb, List.getElem?_append] at hu
    split at hu
    · rw [List.getElem?_set_ne (Ne.symm hne)] at hu
      exact I.child u U hu hne
    · next hl =>
      simp only [List.length_set] at hl hu
      rw [List.getElem?_singleton] at hu
      split at hu <;> cases hu
      have : u = a.thr.length := by omega
      subst this
      exact ⟨rfl, hg⟩

theorem noteWait_eq {w : Option Nat} {b : Bool} {n : Nat} (h : w = none → b = false) : noteWait w b n = w := by
  cases w with
  | some n => rfl
  | none => simp [noteWait, h rfl]

theorem dinv {lk : Bool} {w : Option Nat} {a : Abs Unit De} (A : AReachW detachPrg lk () w a) : DInv w a := by
  induction A with
  | init tid =>
    refine ⟨⟨_, rfl, rfl, .ctors⟩, fun t T h h0 => ?_, rfl, by simp [ainit]⟩
    cases t with
    | zero => exact absurd rfl h0
    | succ t => simp [ainit] at h
  | step A hs ih =>
    rename_i w a t r x a'
    unfold astep at hs
    split at hs
    · cases hs
    next hst =>
    have hst : a.status = none := by cases h : a.status <;> simp [h] at hst; rfl
    have hno : ∀ st, a.status = some st → st = 202 := by simp [hst]
    split at hs
    · cases hs
    next T hT =>
    have hlt := (List.getElem?_eq_some_iff.mp hT).1
    obtain ⟨T0, hT0, hf0, hp0⟩ := ih.main
    by_cases h0 : t = 0
    · subst h0
      rw [hT0] at hT
      cases hT
      obtain ⟨pos, fns, tid⟩ := T
      simp only at hf0 hp0 hs
      subst hf0
      generalize hlen : a.thr.length = n at hp0
      cases hp0 <;> simp only [opStep, nextStep, detachPrg, List.reverse_nil, ih.fns] at hs
      case ctors => cases hs; simp only [noteWait, Abs.waits, hT0, detachPrg, Bool.false_eq_true, if_false]; exact ih.set rfl rfl (hlen ▸ .m15) ih.fns hno
      case m15 =>
        split at hs <;> cases hs
        simp only [noteWait, Abs.waits, hT0, detachPrg, Bool.false_eq_true, if_false]
        exact ih.add rfl rfl (by rw [hlen]; exact .m23) .f rfl hno
      case m23 =>
        split at hs <;> cases hs
        simp only [noteWait, Abs.waits, hT0, detachPrg, Bool.false_eq_true, if_false]
        exact ih.add rfl rfl (by rw [hlen]; exact .m30) .f rfl hno
      case m30 =>
        cases hs
        simp only [noteWait, Abs.waits, hT0, detachPrg, if_true]
        exact ih.set rfl rfl (by rw [hlen]; exact .m32) ih.fns hno
      case m32 =>
        split at hs <;> cases hs
        exact ih.add rfl rfl (by rw [hlen]; exact .m43) (.g hlen) rfl hno
      case m43 => cases hs; exact ih.set rfl rfl (hlen ▸ .m45) ih.fns hno
      case m45 => cases hs; exact ih.set rfl rfl (hlen ▸ .exitT) ih.fns hno
      case exitT => cases hs; exact ih.set rfl rfl (hlen ▸ .exitP) ih.fns hno
      case exitP =>
        split at hs <;> cases hs
        exact ih.set rfl rfl (hlen ▸ .fini) rfl hno
      case fini => cases hs; exact ih.set rfl rfl (hlen ▸ .imm) ih.fns hno
      case imm => cases hs; exact ⟨⟨_, hT0, rfl, hlen ▸ .imm⟩, ih.child, rfl, by simp⟩
    · obtain ⟨hf, hp⟩ := ih.child t T hT h0
      obtain ⟨pos, fns, tid⟩ := T
      simp only at hf hp hs
      subst hf
      have hnw : w = none → a.waits detachPrg t = false := by
        intro hn
        subst hn
        have h3 : a.thr.length ≤ 3 := by
          generalize a.thr.length = n at hp0
          generalize T0.pos = p0 at hp0
          cases hp0 <;> omega
        unfold Abs.waits
        rw [hT]
        cases hp <;> simp only [detachPrg]
        omega
      rw [noteWait_eq hnw]
      cases hp <;> simp only [opStep, nextStep, detachPrg] at hs
      case f => cases hs; exact ih.setC h0 rfl rfl (.ending _) ih.fns hno
      case g => cases hs; exact ih.setC h0 rfl rfl .g1 ih.fns hno
      case g1 => cases hs; exact ih.setC h0 rfl rfl (.ending _) ih.fns hno
      case ending v => cases hs; exact ih.setC h0 rfl rfl (.done _) ih.fns hno
      case done => cases hs

/-- The test only detaches threads it created before (and the third thread itself). -/
theorem detach_early (lk : Bool) : EarlyOnly detachPrg lk () := by
  intro n a t A
  have I := dinv A
  unfold Abs.early
  split
  · next cd k fns tid hT =>
    by_cases h0 : t = 0
    · subst h0
      obtain ⟨T0, hT0, -, hp0⟩ := I.main
      rw [hT] at hT0
      cases hT0
      generalize a.thr.length = len at *
      cases hp0 <;> simp [detachPrg]
    · obtain ⟨-, hp⟩ := I.child t _ hT h0
      cases hp <;> simp only [detachPrg]
      omega
  · trivial

end Origin.Programs
