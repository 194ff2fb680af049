import Verif.Spec.Relocate
import Verif.Proof.Fields
import Verif.Proof.Usize
/-! # Loops over ELF tables -/

namespace Origin.Elf

theorem umul_eq (ws a b : Nat) : umul ws a b = (a * b) % umax ws := by
  simp [umul, umax, BitVec.toNat_mul]

theorem ld_lt (i : Image) (m : Mem) (a : Nat) : i.ld m a < 2 ^ (8 * i.ws) := (wordAt i.endian i.ws m a).isLt

/-! ## rows -/

def rowsLen (rs : List (List Nat)) : Nat := rs.flatten.length

theorem WordsAt.frame {i : Image} {m m' : Mem} {l : List Nat} : ∀ {a : Nat}, WordsAt i m a l →
    (∀ x, a ≤ x → x < a + l.length * i.ws → m' x = m x) → WordsAt i m' a l := by
  induction l with
  | nil => intro a _ _; trivial
  | cons y ys ih =>
    intro a ⟨h1, h2⟩ hm
    rw [List.length_cons, Nat.add_mul] at hm
    refine ⟨?_, ih h2 (by intro x h3 h4; exact hm x (by omega) (by omega))⟩
    rw [← h1]
    apply ldN_congr
    intro k hk
    exact hm _ (by omega) (by omega)

theorem Rows.frame {i : Image} {m m' : Mem} {a : Nat} {rs : List (List Nat)} (h : Rows i m a rs)
    (hm : ∀ x, a ≤ x → x < a + rowsLen rs * i.ws → m' x = m x) : Rows i m' a rs := WordsAt.frame h hm

theorem rowsLen_map {α : Type} (f : α → List Nat) (n : Nat) (hf : ∀ a, (f a).length = n) (l : List α) :
    rowsLen (l.map f) = l.length * n := by
  induction l with
  | nil => simp [rowsLen]
  | cons a l ih =>
    have : rowsLen ((a :: l).map f) = (f a).length + rowsLen (l.map f) := by
      simp only [rowsLen, List.map_cons, List.flatten_cons, List.length_append]
    rw [this, ih, hf, List.length_cons, Nat.add_mul]; omega

/-! ## relocation operations -/

def runOp (i : Image) (s : State) (o : Op) : State := s.store i o.addr (o.value (i.ld s.mem o.addr))
def runOps (i : Image) (s : State) (os : List Op) : State := os.foldl (runOp i) s

theorem runOps_cons (i : Image) (s : State) (o : Op) (os : List Op) : runOps i s (o :: os) = runOps i (runOp i s o) os := rfl
theorem runOps_append (i : Image) (s : State) (os os' : List Op) : runOps i s (os ++ os') = runOps i (runOps i s os) os' := by
  simp [runOps, List.foldl_append]

theorem runOp_frame {i : Image} {s : State} {o : Op} {x : Nat} (h : x < o.addr ∨ o.addr + i.ws ≤ x) : (runOp i s o).mem x = s.mem x :=
  stN_frame h

theorem runOps_frame {i : Image} {s : State} {os : List Op} {x : Nat} (h : ∀ o ∈ os, x < o.addr ∨ o.addr + i.ws ≤ x) :
    (runOps i s os).mem x = s.mem x := by
  induction os generalizing s with
  | nil => rfl
  | cons o os ih =>
    rw [runOps_cons, ih (fun o' h' => h o' (List.mem_cons_of_mem _ h')), runOp_frame (h o List.mem_cons_self)]

theorem runOps_ld {i : Image} {s : State} {os : List Op} {a : Nat} (h : ∀ o ∈ os, Apart o.addr i.ws a i.ws) :
    i.ld (runOps i s os).mem a = i.ld s.mem a := by
  apply ldN_congr
  intro k hk
  apply runOps_frame
  intro o ho
  have := h o ho
  unfold Apart at this
  omega

theorem runOps_range {i : Image} {s : State} {os : List Op} {a n : Nat} (h : ∀ o ∈ os, Apart o.addr i.ws a n) :
    ∀ x, a ≤ x → x < a + n → (runOps i s os).mem x = s.mem x := by
  intro x h1 h2
  apply runOps_frame
  intro o ho
  have := h o ho
  unfold Apart at this
  omega

theorem runOps_prots (i : Image) (s : State) (os : List Op) : (runOps i s os).prots = s.prots := by
  induction os generalizing s with
  | nil => rfl
  | cons o os ih => rw [runOps_cons, ih]; rfl

/-- What relocating words that do not overlap does. -/
theorem runOps_content {i : Image} {os : List Op} (hsep : Separate i.ws os) (hv : ∀ o ∈ os, ∀ v, o.value v < 2 ^ (8 * i.ws)) :
    ∀ s : State, (∀ o ∈ os, i.ld (runOps i s os).mem o.addr = o.value (i.ld s.mem o.addr)) ∧
      (runOps i s os).stores = (os.map fun o => (o.addr, o.value (i.ld s.mem o.addr))).reverse ++ s.stores := by
  induction os with
  | nil => intro s; exact ⟨by simp, rfl⟩
  | cons o os ih =>
    intro s
    obtain ⟨h1, h2⟩ := List.pairwise_cons.mp hsep
    have hv' : ∀ o' ∈ os, ∀ v, o'.value v < 2 ^ (8 * i.ws) := fun o' h' => hv o' (List.mem_cons_of_mem _ h')
    obtain ⟨ih1, ih2⟩ := ih h2 hv' (runOp i s o)
    have hld : ∀ o' ∈ os, i.ld (runOp i s o).mem o'.addr = i.ld s.mem o'.addr := by
      intro o' h'
      have := h1 o' h'
      unfold Apart at this
      exact ldN_stN_disj (by omega)
    rw [runOps_cons]
    constructor
    · intro o' h'
      rcases List.mem_cons.mp h' with rfl | h'
      · rw [runOps_ld]
        · exact ldN_stN_of_lt (hv _ List.mem_cons_self _)
        · intro o'' h''
          have := h1 o'' h''
          unfold Apart at this ⊢
          omega
      · rw [ih1 o' h', hld o' h']
    · rw [ih2]
      have : (os.map fun o' => (o'.addr, o'.value (i.ld (runOp i s o).mem o'.addr))) =
          os.map fun o' => (o'.addr, o'.value (i.ld s.mem o'.addr)) := by
        apply List.map_congr_left
        intro o' h'; rw [hld o' h']
      rw [this]
      simp [runOp, State.store]

/-! ## RELA -/

def relaOp (ws b : Nat) (r : Rela) : Op := ⟨(r.offset + b) % 2 ^ (8 * ws), fun _ => (r.addend + b) % 2 ^ (8 * ws)⟩
def relOp (ws b : Nat) (r : Rel) : Op := ⟨(r.offset + b) % 2 ^ (8 * ws), fun v => (v + b) % 2 ^ (8 * ws)⟩
def wordOp (ws b a : Nat) : Op := ⟨a % 2 ^ (8 * ws), fun v => (v + b) % 2 ^ (8 * ws)⟩

theorem Tables.ops_eq (ws b : Nat) (t : Tables) :
    t.ops ws b = t.rela.map (relaOp ws b) ++ t.rel.map (relOp ws b) ++ (relrWords ws b 0 t.relr).map (wordOp ws b) := rfl

theorem ops_lt {ws b : Nat} {t : Tables} : ∀ o ∈ t.ops ws b, ∀ v, o.value v < 2 ^ (8 * ws) := by
  intro o ho v
  rw [Tables.ops_eq] at ho
  simp only [List.mem_append, List.mem_map] at ho
  rcases ho with (⟨r, -, rfl⟩ | ⟨r, -, rfl⟩) | ⟨r, -, rfl⟩ <;> exact Nat.mod_lt _ (Nat.two_pow_pos _)

/-- The rows after the first, after an operation which leaves the table alone. -/
theorem rows_next {i : Image} {s : State} {o : Op} {a k n : Nat} {f : List (List Nat)} (h : Rows i s.mem (a + k) f)
    (hn : k + rowsLen f * i.ws ≤ n) (ha : Apart o.addr i.ws a n) : Rows i (runOp i s o).mem (a + k) f := by
  refine h.frame (fun x h1 h2 => runOp_frame ?_)
  unfold Apart at ha; omega

theorem relaLoop_ok {i : Image} (hws : 0 < i.ws) (b : Nat) (bad : List Rela) : ∀ (l : List Rela) (p fuel : Nat) (s : State),
    RelaAt i s.mem p (l ++ bad) → (∀ r ∈ l, relType i.ws r.info = i.rRelative) →
    (∀ o ∈ l.map (relaOp i.ws b), Apart o.addr i.ws p ((l.length + bad.length) * (3 * i.ws))) →
    relaLoop i b (p + (l.length + bad.length) * (3 * i.ws)) (fuel + l.length) p s =
      relaLoop i b (p + (l.length + bad.length) * (3 * i.ws)) fuel (p + l.length * (3 * i.ws)) (runOps i s (l.map (relaOp i.ws b))) := by
  intro l
  induction l with
  | nil => intro p fuel s _ _ _; simp [runOps]
  | cons r l ih =>
    intro p fuel s hrows hty hap
    obtain ⟨e1, e2, e3, hrest⟩ := hrows
    have hrest : Rows i s.mem (p + 3 * i.ws) ((l ++ bad).map fun r => [r.offset, r.info, r.addend]) := by
      rw [show p + i.ws + i.ws + i.ws = p + 3 * i.ws by omega] at hrest; exact hrest
    have e3 : i.ld s.mem (p + 2 * i.ws) = r.addend := by rw [← e3]; congr 1; omega
    have hlen : (r :: l).length + bad.length = (l.length + bad.length) + 1 := by simp; omega
    rw [hlen] at hap ⊢
    have hmul : (l.length + bad.length + 1) * (3 * i.ws) = 3 * i.ws + (l.length + bad.length) * (3 * i.ws) := by
      rw [Nat.add_mul]; omega
    have hne : p ≠ p + (l.length + bad.length + 1) * (3 * i.ws) := by omega
    rw [show fuel + (r :: l).length = (fuel + l.length) + 1 by simp; omega]
    rw [relaLoop, if_neg hne]
    simp only [e1, e2, e3]
    rw [if_pos (hty r List.mem_cons_self)]
    have hst : s.store i (uadd i.ws r.offset b) (uadd i.ws r.addend b) = runOp i s (relaOp i.ws b r) := by
      rw [uadd_eq, uadd_eq]; rfl
    rw [hst, hmul]
    have hlast : p + (r :: l).length * (3 * i.ws) = p + 3 * i.ws + l.length * (3 * i.ws) := by
      simp only [List.length_cons, Nat.add_mul]; omega
    rw [hlast, ← Nat.add_assoc p]
    have := ih (p + 3 * i.ws) fuel (runOp i s (relaOp i.ws b r)) ?_ (fun r' h' => hty r' (List.mem_cons_of_mem _ h')) ?_
    · rw [this]; rfl
    · refine rows_next (n := 3 * i.ws + (l.length + bad.length) * (3 * i.ws)) hrest ?_ (by
        have := hap _ (List.mem_map_of_mem (f := relaOp i.ws b) (List.mem_cons_self (a := r) (l := l)))
        rw [hmul] at this; exact this)
      rw [rowsLen_map _ 3 (by simp), List.length_append, Nat.mul_assoc]; omega
    · intro o ho
      have := hap o (List.mem_cons_of_mem _ ho)
      rw [hmul] at this
      unfold Apart at this ⊢; omega

theorem relLoop_ok {i : Image} (hws : 0 < i.ws) (b : Nat) (bad : List Rel) : ∀ (l : List Rel) (p fuel : Nat) (s : State),
    RelAt i s.mem p (l ++ bad) → (∀ r ∈ l, relType i.ws r.info = i.rRelative) →
    (∀ o ∈ l.map (relOp i.ws b), Apart o.addr i.ws p ((l.length + bad.length) * (2 * i.ws))) →
    relLoop i b (p + (l.length + bad.length) * (2 * i.ws)) (fuel + l.length) p s =
      relLoop i b (p + (l.length + bad.length) * (2 * i.ws)) fuel (p + l.length * (2 * i.ws)) (runOps i s (l.map (relOp i.ws b))) := by
  intro l
  induction l with
  | nil => intro p fuel s _ _ _; simp [runOps]
  | cons r l ih =>
    intro p fuel s hrows hty hap
    obtain ⟨e1, e2, hrest⟩ := hrows
    have hrest : Rows i s.mem (p + 2 * i.ws) ((l ++ bad).map fun r => [r.offset, r.info]) := by
      rw [show p + i.ws + i.ws = p + 2 * i.ws by omega] at hrest; exact hrest
    have hlen : (r :: l).length + bad.length = (l.length + bad.length) + 1 := by simp; omega
    rw [hlen] at hap ⊢
    have hmul : (l.length + bad.length + 1) * (2 * i.ws) = 2 * i.ws + (l.length + bad.length) * (2 * i.ws) := by
      rw [Nat.add_mul]; omega
    have hne : p ≠ p + (l.length + bad.length + 1) * (2 * i.ws) := by omega
    rw [show fuel + (r :: l).length = (fuel + l.length) + 1 by simp; omega]
    rw [relLoop, if_neg hne]
    simp only [e1, e2]
    rw [if_pos (hty r List.mem_cons_self)]
    have hst : s.store i (uadd i.ws r.offset b) (uadd i.ws (i.ld s.mem (uadd i.ws r.offset b)) b) = runOp i s (relOp i.ws b r) := by
      rw [uadd_eq, uadd_eq]; rfl
    rw [hst, hmul]
    have hlast : p + (r :: l).length * (2 * i.ws) = p + 2 * i.ws + l.length * (2 * i.ws) := by
      simp only [List.length_cons, Nat.add_mul]; omega
    rw [hlast, ← Nat.add_assoc p]
    have := ih (p + 2 * i.ws) fuel (runOp i s (relOp i.ws b r)) ?_ (fun r' h' => hty r' (List.mem_cons_of_mem _ h')) ?_
    · rw [this]; rfl
    · refine rows_next (n := 2 * i.ws + (l.length + bad.length) * (2 * i.ws)) hrest ?_ (by
        have := hap _ (List.mem_map_of_mem (f := relOp i.ws b) (List.mem_cons_self (a := r) (l := l)))
        rw [hmul] at this; exact this)
      rw [rowsLen_map _ 2 (by simp), List.length_append, Nat.mul_assoc]; omega
    · intro o ho
      have := hap o (List.mem_cons_of_mem _ ho)
      rw [hmul] at this
      unfold Apart at this ⊢; omega

end Origin.Elf
