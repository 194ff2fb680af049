import Verif.Props.Mem
import Verif.Model.MemX86Asm
/-!
# C65: the x86-64 inline assembly keeps its contract with the compiler

The `asm!` blocks behind `memcpy`, `memmove` and `memset` use the direction flag, which every other piece of code in the
process (the System V ABI, the compiler, the other blocks) takes to be clear.
-/

namespace Origin.X86
open Origin Spec

/-! ### Specification -/

/-- The `asm!` blocks of `src/mem/x86_64.rs` that write memory, for all operand values and all choices of `in(reg)` registers. -/
inductive SourceBlock : Block → Prop
  | movsb (n d r) : SourceBlock (movsbBlock n d r)
  | movsq (n d r) : SourceBlock (movsqBlock n d r)
  | backward (ra rb p q b d r) : Choosable ra → Choosable rb → SourceBlock (backwardBlock ra rb p q b d r)
  | stosbErmsb (n d v) : SourceBlock (stosbErmsbBlock n d v)
  | stosb (n d v) : SourceBlock (stosbBlock n d v)
  | stosq (n d v) : SourceBlock (stosqBlock n d v)

/-- A state in which the compiler may enter the block: operands in place, direction flag clear (asm! guarantees it). -/
def Block.Entry (b : Block) (e : Machine) : Prop := e.df = false ∧ ∀ o, o ∈ b.ins → o.holds e

/-- What the block promises about registers and the direction flag: it leaves every register it does not declare as an
output as it was, and the direction flag clear. -/
def Block.KeepsRegisters (b : Block) : Prop :=
  ∀ e, b.Entry e → (∀ r, r ∉ b.outs → (execAll b.code e).reg r = e.reg r) ∧ (execAll b.code e).df = false

/-- What `preserves_flags` promises: the six status flags are as they were. -/
def Block.KeepsFlags (b : Block) : Prop :=
  b.preservesFlags = true → ∀ e, b.Entry e → (execAll b.code e).fl = e.fl

/-- What a call does to memory, in terms of the specification of the C functions. -/
def MemCall.spec (m : Mem) : MemCall → Mem
  | .memcpy dest src n => moved m dest src n
  | .memmove dest src n => moved m dest src n
  | .memset p c n => filled m p n (c.setWidth 8)

/-- The caller's obligations: ranges in the address space; for `memcpy`, not overlapping. -/
def MemCall.Legal : MemCall → Prop
  | .memcpy dest src n => dest + n < 2 ^ 64 ∧ src + n < 2 ^ 64 ∧ (dest + n ≤ src ∨ src + n ≤ dest)
  | .memmove dest src n => dest + n < 2 ^ 64 ∧ src + n < 2 ^ 64
  | .memset p _ n => p + n < 2 ^ 64

/-! ### Proof -/

theorem repStosDf_false (sz : Nat) (w : BitVec (8 * sz)) (n : Nat) : ∀ (s : St) (d : Nat),
    repStosDf false sz w n s d = repStos sz w n s d := by
  induction n with
  | zero => intro s d; rfl
  | succ n ih => intro s d; simp only [repStosDf, repStos]; exact ih _ _

/-- The state after `copy_backward`'s block. -/
theorem backward_exec (ra rb : GReg) (ha : Choosable ra) (hb : Choosable rb) (p q b d r : Nat) (e : Machine)
    (he : ∀ o, o ∈ (backwardBlock ra rb p q b d r).ins → o.holds e) :
    let x := repMovs true 1 b e.st d r
    let y := repMovs true 8 q x.1 (idx true x.2.1 7) (idx true x.2.2 7)
    let z := repMovs true 1 (p % 2 ^ 32) y.1 (idx false y.2.1 7) (idx false y.2.2 7)
    let e' := execAll (backwardBlock ra rb p q b d r).code e
    e'.df = false ∧ e'.st = z.1 ∧ e'.fl = addFlags y.2.1 7 ∧
    ∀ t, t ≠ rcx → t ≠ rdi → t ≠ rsi → e'.reg t = e.reg t := by
  obtain ⟨a1, a2, a3, -⟩ := ha
  obtain ⟨b1, b2, b3, -⟩ := hb
  have h1 : e.reg ra = p := he (.whole ra p) (by simp [backwardBlock])
  have h2 : e.reg rb = q := he (.whole rb q) (by simp [backwardBlock])
  have h3 : e.reg rcx = b := he (.whole rcx b) (by simp [backwardBlock])
  have h4 : e.reg rdi = d := he (.whole rdi d) (by simp [backwardBlock])
  have h5 : e.reg rsi = r := he (.whole rsi r) (by simp [backwardBlock])
  have c1 : rdi ≠ rcx := by decide
  have c2 : rsi ≠ rcx := by decide
  have c3 : rdi ≠ rsi := by decide
  have c4 : rcx ≠ rdi := by decide
  have c5 : rcx ≠ rsi := by decide
  have c6 : rsi ≠ rdi := by decide
  intro x y z e'
  refine ⟨rfl, ?_, ?_, ?_⟩
  · simp only [e', z, y, x, execAll, backwardBlock, List.foldl, Op.exec, Machine.set, a1, a2, a3, b1, b2, b3, h1, h2, h3, h4, h5,
      c1, c2, c3, c4, c5, c6, if_true, if_false]
  · simp only [e', y, x, execAll, backwardBlock, List.foldl, Op.exec, Machine.set, b1, b2, b3, h2, h3, h4, h5,
      c1, c2, c3, c4, c5, c6, if_true, if_false]
  · intro t t1 t2 t3
    simp only [e', execAll, backwardBlock, List.foldl, Op.exec, Machine.set, t1, t2, t3, if_false]

/-- **C65.** Every one of the blocks, whatever its operands, leaves all registers but its declared outputs as they were and the
direction flag clear. -/
theorem C65_registers (b : Block) (hb : SourceBlock b) : b.KeepsRegisters := by
  intro e ⟨hdf, he⟩
  cases hb with
  | backward ra rb p q b d r ha hb =>
    obtain ⟨h1, -, -, h2⟩ := backward_exec ra rb ha hb p q b d r e he
    refine ⟨fun t ht => ?_, h1⟩
    simp only [backwardBlock, List.mem_cons, List.not_mem_nil, or_false, not_or] at ht
    exact h2 t ht.1 ht.2.1 ht.2.2
  | movsb n d r =>
    refine ⟨fun t ht => ?_, hdf⟩
    simp only [movsbBlock, List.mem_cons, List.not_mem_nil, or_false, not_or] at ht
    simp only [movsbBlock, execAll, List.foldl, Op.exec, Machine.set, ht, if_false]
  | movsq n d r =>
    refine ⟨fun t ht => ?_, hdf⟩
    simp only [movsqBlock, List.mem_cons, List.not_mem_nil, or_false, not_or] at ht
    simp only [movsqBlock, execAll, List.foldl, Op.exec, Machine.set, ht, if_false]
  | stosbErmsb n d v =>
    refine ⟨fun t ht => ?_, hdf⟩
    simp only [stosbErmsbBlock, List.mem_cons, List.not_mem_nil, or_false, not_or] at ht
    simp only [stosbErmsbBlock, execAll, List.foldl, Op.exec, Machine.set, ht, if_false]
  | stosb n d v =>
    refine ⟨fun t ht => ?_, hdf⟩
    simp only [stosbBlock, List.mem_cons, List.not_mem_nil, or_false, not_or] at ht
    simp only [stosbBlock, execAll, List.foldl, Op.exec, Machine.set, ht, if_false]
  | stosq n d v =>
    refine ⟨fun t ht => ?_, hdf⟩
    simp only [stosqBlock, List.mem_cons, List.not_mem_nil, or_false, not_or] at ht
    simp only [stosqBlock, execAll, List.foldl, Op.exec, Machine.set, ht, if_false]

/-- **C65, partial.** Every block but the one of `copy_backward` (the one that sets the direction flag) leaves the status flags as
they were, as its `preserves_flags` promises.  Missing: `copy_backward`'s block, for which it is false
(`C65_flags_false`). -/
theorem C65_flags_partial (b : Block) (hb : SourceBlock b) (hc : Op.std ∉ b.code) : b.KeepsFlags := by
  intro _ e _
  cases hb with
  | backward => exact absurd (by simp [backwardBlock]) hc
  | movsb | movsq | stosbErmsb | stosb | stosq => rfl

/-- Two states that differ in the status flags only and enter `copy_backward`'s block. -/
def enterBackward (ra rb : GReg) (p q b d r : Nat) (f : Flags) (s : St) : Machine :=
  { reg := fun x => if x = rcx then b else if x = rdi then d else if x = rsi then r else if x = ra then p else
      if x = rb then q else 0
    df := false, fl := f, st := s }

theorem enterBackward_ok (ra rb : GReg) (ha : Choosable ra) (hb : Choosable rb) (p q b d r : Nat) (f : Flags) (s : St)
    (hne : ra ≠ rb ∨ p = q) : (backwardBlock ra rb p q b d r).Entry (enterBackward ra rb p q b d r f s) := by
  obtain ⟨a1, a2, a3, -⟩ := ha
  obtain ⟨b1, b2, b3, -⟩ := hb
  refine ⟨rfl, ?_⟩
  intro o ho
  simp only [backwardBlock, List.mem_cons, List.not_mem_nil, or_false] at ho
  have c1 : rdi ≠ rcx := by decide
  have c2 : rsi ≠ rcx := by decide
  have c3 : rsi ≠ rdi := by decide
  rcases ho with rfl | rfl | rfl | rfl | rfl
  · simp only [Operand.holds, enterBackward, a1, a2, a3, if_true, if_false]
  · simp only [Operand.holds, enterBackward, b1, b2, b3, if_true, if_false]
    split
    · rename_i h; rcases hne with h' | h'
      · exact absurd h.symm h'
      · exact h'
    · rfl
  · simp only [Operand.holds, enterBackward, if_true]
  · simp only [Operand.holds, enterBackward, c1, if_true, if_false]
  · simp only [Operand.holds, enterBackward, c2, c3, if_true, if_false]

/-- **C65, the exception.** `copy_backward`'s block declares `preserves_flags` but, for every operand values and every choice of
registers, does not preserve the status flags: what it leaves there does not depend on what was there. -/
theorem C65_flags_false (ra rb : GReg) (ha : Choosable ra) (hb : Choosable rb) (hne : ra ≠ rb) (p q b d r : Nat) :
    ¬ (backwardBlock ra rb p q b d r).KeepsFlags := by
  intro h
  have h1 := h rfl _ (enterBackward_ok ra rb ha hb p q b d r ⟨true, true, true, true, true, true⟩ demoSt (.inl hne))
  have h2 := h rfl _ (enterBackward_ok ra rb ha hb p q b d r ⟨false, false, false, false, false, false⟩ demoSt (.inl hne))
  rw [(backward_exec ra rb ha hb p q b d r _ (enterBackward_ok ra rb ha hb p q b d r _ demoSt (.inl hne)).2).2.2.1] at h1 h2
  have : (⟨true, true, true, true, true, true⟩ : Flags) = ⟨false, false, false, false, false, false⟩ := h1.symm.trans h2
  exact absurd this (by decide)

theorem movsb_runs {n d r : Nat} {c c' : Machine} (h : (movsbBlock n d r).Runs c c') (hdf : c.df = false) :
    c'.df = false ∧ c'.st = (repMovs false 1 n c.st d r).1 ∧
    c'.reg rdi = (repMovs false 1 n c.st d r).2.1 ∧ c'.reg rsi = (repMovs false 1 n c.st d r).2.2 := by
  obtain ⟨e, ⟨g1, g2⟩, he, rfl⟩ := h
  have h3 : e.reg rcx = n := he (.whole rcx n) (by simp [movsbBlock])
  have h4 : e.reg rdi = d := he (.whole rdi d) (by simp [movsbBlock])
  have h5 : e.reg rsi = r := he (.whole rsi r) (by simp [movsbBlock])
  have c6 : rdi ≠ rsi := by decide
  refine ⟨by rw [← hdf, ← g1]; rfl, ?_⟩
  simp only [movsbBlock, execAll, List.foldl, Op.exec, Machine.set, h3, h4, h5, g1, g2, hdf, c6, if_true, if_false, and_self]

theorem movsq_runs {n d r : Nat} {c c' : Machine} (h : (movsqBlock n d r).Runs c c') (hdf : c.df = false) :
    c'.df = false ∧ c'.st = (repMovs false 8 n c.st d r).1 ∧
    c'.reg rdi = (repMovs false 8 n c.st d r).2.1 ∧ c'.reg rsi = (repMovs false 8 n c.st d r).2.2 := by
  obtain ⟨e, ⟨g1, g2⟩, he, rfl⟩ := h
  have h3 : e.reg rcx = n := he (.whole rcx n) (by simp [movsqBlock])
  have h4 : e.reg rdi = d := he (.whole rdi d) (by simp [movsqBlock])
  have h5 : e.reg rsi = r := he (.whole rsi r) (by simp [movsqBlock])
  have c6 : rdi ≠ rsi := by decide
  refine ⟨by rw [← hdf, ← g1]; rfl, ?_⟩
  simp only [movsqBlock, execAll, List.foldl, Op.exec, Machine.set, h3, h4, h5, g1, g2, hdf, c6, if_true, if_false, and_self]

theorem stosbErmsb_runs {n d : Nat} {v : Byte} {c c' : Machine} (h : (stosbErmsbBlock n d v).Runs c c') (hdf : c.df = false) :
    c'.df = false ∧ c'.st = (repStos 1 v n c.st d).1 := by
  obtain ⟨e, ⟨g1, g2⟩, he, rfl⟩ := h
  have h3 : e.reg rcx = n := he (.whole rcx n) (by simp [stosbErmsbBlock])
  have h4 : e.reg rdi = d := he (.whole rdi d) (by simp [stosbErmsbBlock])
  have h5 : BitVec.ofNat 8 (e.reg rax) = v := he (.lowByte rax v) (by simp [stosbErmsbBlock])
  refine ⟨by rw [← hdf, ← g1]; rfl, ?_⟩
  simp only [stosbErmsbBlock, execAll, List.foldl, Op.exec, Machine.set, h3, h4, g1, g2, hdf]
  rw [repStosDf_false, h5]

theorem stosb_runs {n d : Nat} {v : BitVec 64} {c c' : Machine} (h : (stosbBlock n d v).Runs c c') (hdf : c.df = false) :
    c'.df = false ∧ c'.st = (repStos 1 (v.setWidth 8) n c.st d).1 ∧ c'.reg rdi = (repStos 1 (v.setWidth 8) n c.st d).2 := by
  obtain ⟨e, ⟨g1, g2⟩, he, rfl⟩ := h
  have h3 : e.reg rcx = n := he (.whole rcx n) (by simp [stosbBlock])
  have h4 : e.reg rdi = d := he (.whole rdi d) (by simp [stosbBlock])
  have h5 : e.reg rax = v.toNat := he (.whole rax v.toNat) (by simp [stosbBlock])
  have h6 : BitVec.ofNat 8 (e.reg rax) = v.setWidth 8 := by
    rw [h5]; exact BitVec.ofNat_toNat 8 v
  refine ⟨by rw [← hdf, ← g1]; rfl, ?_⟩
  simp only [stosbBlock, execAll, List.foldl, Op.exec, Machine.set, h3, h4, g1, g2, hdf, if_true]
  rw [repStosDf_false, h6]
  exact ⟨rfl, rfl⟩

theorem stosq_runs {n d : Nat} {v : BitVec 64} {c c' : Machine} (h : (stosqBlock n d v).Runs c c') (hdf : c.df = false) :
    c'.df = false ∧ c'.st = (repStos 8 v n c.st d).1 ∧ c'.reg rdi = (repStos 8 v n c.st d).2 := by
  obtain ⟨e, ⟨g1, g2⟩, he, rfl⟩ := h
  have h3 : e.reg rcx = n := he (.whole rcx n) (by simp [stosqBlock])
  have h4 : e.reg rdi = d := he (.whole rdi d) (by simp [stosqBlock])
  have h5 : e.reg rax = v.toNat := he (.whole rax v.toNat) (by simp [stosqBlock])
  have h6 : BitVec.ofNat 64 (e.reg rax) = v := by
    rw [h5, BitVec.ofNat_toNat, BitVec.setWidth_eq]
  refine ⟨by rw [← hdf, ← g1]; rfl, ?_⟩
  simp only [stosqBlock, execAll, List.foldl, Op.exec, Machine.set, h3, h4, g1, g2, hdf, if_true]
  rw [repStosDf_false, h6]
  exact ⟨rfl, rfl⟩

theorem copyForward_refines {ermsb : Bool} {d r n : Nat} {c c' : Machine} (h : CopyForward ermsb d r n c c')
    (hdf : c.df = false) : c'.df = false ∧ c'.st = copyForward ermsb c.st d r n := by
  unfold CopyForward at h
  unfold copyForward
  split at h
  · rename_i he; rw [if_pos he]; exact ⟨(movsb_runs h hdf).1, (movsb_runs h hdf).2.1⟩
  · rename_i he; rw [if_neg he]
    obtain ⟨c1, c2, h1, h2, h3⟩ := h
    obtain ⟨a1, a2, a3, a4⟩ := movsb_runs h1 hdf
    obtain ⟨b1, b2, b3, b4⟩ := movsq_runs h2 a1
    obtain ⟨e1, e2, -, -⟩ := movsb_runs h3 b1
    refine ⟨e1, ?_⟩
    rw [e2, b2, b3, b4, a2, a3, a4]
    rfl

theorem copyBackward_refines {d r n : Nat} {c c' : Machine} (h : CopyBackward d r n c c') :
    c'.df = false ∧ c'.st = copyBackward c.st d r n := by
  obtain ⟨ra, rb, ha, hb, e, ⟨g1, g2⟩, he, rfl⟩ := h
  obtain ⟨h1, h2, -, -⟩ := backward_exec ra rb ha hb _ _ _ _ _ e he
  refine ⟨h1, ?_⟩
  rw [h2, g2]
  rfl

theorem setBytes_refines {ermsb : Bool} {d n : Nat} {v : Byte} {c c' : Machine} (h : SetBytes ermsb d v n c c')
    (hdf : c.df = false) : c'.df = false ∧ c'.st = setBytes ermsb c.st d v n := by
  unfold SetBytes at h
  unfold setBytes
  split at h
  · rename_i he; rw [if_pos he]; exact stosbErmsb_runs h hdf
  · rename_i he; rw [if_neg he]
    obtain ⟨c1, c2, h1, h2, h3⟩ := h
    obtain ⟨a1, a2, a3⟩ := stosb_runs h1 hdf
    obtain ⟨b1, b2, b3⟩ := stosq_runs h2 a1
    obtain ⟨e1, e2, -⟩ := stosb_runs h3 b1
    refine ⟨e1, ?_⟩
    rw [e2, b2, b3, a2, a3]
    rfl

/-- **C65.** A call entered with the direction flag clear leaves it clear, and does to memory what the specification says,
whatever the compiler left in the registers and the status flags and whichever registers it chose. -/
theorem C65_call (ermsb : Bool) (m : MemCall) (hl : m.Legal) (c c' : Machine) (h : m.Runs ermsb c c') (hdf : c.df = false) :
    c'.df = false ∧ c'.st.mem = m.spec c.st.mem := by
  cases m with
  | memcpy d r n =>
    obtain ⟨h1, h2, h3⟩ := hl
    obtain ⟨g1, g2⟩ := copyForward_refines h hdf
    exact ⟨g1, by rw [g2]; exact (x86_copyForward_runs ermsb c.st d r n h1 h2 (by omega)).mem⟩
  | memmove d r n =>
    obtain ⟨h1, h2⟩ := hl
    have hd := uwsub_eq 8 d r (by omega) (by omega)
    simp only [MemCall.Runs] at h
    split at h
    · rename_i hge
      obtain ⟨g1, g2⟩ := copyForward_refines h hdf
      refine ⟨g1, ?_⟩
      rw [g2]
      exact (x86_copyForward_runs ermsb c.st d r n h1 h2 (by rw [hd] at hge; split at hge <;> omega)).mem
    · rename_i hge
      obtain ⟨g1, g2⟩ := copyBackward_refines h
      refine ⟨g1, ?_⟩
      rw [g2]
      exact (x86_copyBackward_runs c.st d r n (by omega) h1 h2 (by rw [hd] at hge; split at hge <;> omega)).mem
  | memset p x n =>
    obtain ⟨g1, g2⟩ := setBytes_refines h hdf
    exact ⟨g1, by rw [g2]; exact (x86_setBytes_runs ermsb c.st p _ n hl).mem⟩

/-- **C65.** Any sequence of calls, started with the direction flag clear: every call does what the specification says, and the
direction flag is clear at the end. -/
theorem C65_calls (ermsb : Bool) (ms : List MemCall) : ∀ (c c' : Machine), (∀ m, m ∈ ms → m.Legal) →
    CallsRun ermsb ms c c' → c.df = false → c'.df = false ∧ c'.st.mem = ms.foldl MemCall.spec c.st.mem := by
  induction ms with
  | nil => intro c c' _ h hdf; exact ⟨by rw [h.1, hdf], by rw [h.2]; rfl⟩
  | cons m ms ih =>
    intro c c' hl h hdf
    obtain ⟨c1, h1, h2⟩ := h
    obtain ⟨g1, g2⟩ := C65_call ermsb m (hl m (by simp)) c c1 h1 hdf
    obtain ⟨k1, k2⟩ := ih c1 c' (fun x hx => hl x (by simp [hx])) h2 g1
    refine ⟨k1, ?_⟩
    rw [k2, g2]; rfl

/-! ### The hypotheses can be met: every sequence of calls has a run from every state -/

/-- The compiler loading operands. -/
def withRegs (c : Machine) (f : GReg → Nat) : Machine := { c with reg := f }

theorem three (a b d : Nat) (c : Machine) (b' : Block) (h : b'.ins = [.whole rcx a, .whole rdi b, .whole rsi d]) :
    ∃ c', b'.Runs c c' := by
  refine ⟨_, withRegs c (fun x => if x = rcx then a else if x = rdi then b else d), ⟨rfl, rfl⟩, ?_, rfl⟩
  intro o ho
  rw [h] at ho
  simp only [List.mem_cons, List.not_mem_nil, or_false] at ho
  rcases ho with rfl | rfl | rfl <;> rfl

theorem threeS (a b d : Nat) (c : Machine) (b' : Block) (h : b'.ins = [.whole rcx a, .whole rdi b, .whole rax d]) :
    ∃ c', b'.Runs c c' := by
  refine ⟨_, withRegs c (fun x => if x = rcx then a else if x = rdi then b else d), ⟨rfl, rfl⟩, ?_, rfl⟩
  intro o ho
  rw [h] at ho
  simp only [List.mem_cons, List.not_mem_nil, or_false] at ho
  rcases ho with rfl | rfl | rfl <;> rfl

theorem copyForward_total (ermsb : Bool) (d r n : Nat) (c : Machine) : ∃ c', CopyForward ermsb d r n c c' := by
  unfold CopyForward
  cases ermsb with
  | true => exact three _ _ _ c _ rfl
  | false =>
    obtain ⟨c1, h1⟩ := three (repParam d n).1 d r c (movsbBlock _ d r) rfl
    obtain ⟨c2, h2⟩ := three (repParam d n).2.1 (c1.reg rdi) (c1.reg rsi) c1 (movsqBlock _ _ _) rfl
    obtain ⟨c3, h3⟩ := three (repParam d n).2.2 (c2.reg rdi) (c2.reg rsi) c2 (movsbBlock _ _ _) rfl
    exact ⟨c3, c1, c2, h1, h2, h3⟩

theorem setBytes_total (ermsb : Bool) (d n : Nat) (v : Byte) (c : Machine) : ∃ c', SetBytes ermsb d v n c c' := by
  unfold SetBytes
  cases ermsb with
  | true =>
    refine ⟨_, withRegs c (fun x => if x = rcx then n else if x = rdi then d else v.toNat), ⟨rfl, rfl⟩, ?_, rfl⟩
    intro o ho
    simp only [stosbErmsbBlock, List.mem_cons, List.not_mem_nil, or_false] at ho
    rcases ho with rfl | rfl | rfl
    · rfl
    · rfl
    · exact (BitVec.ofNat_toNat 8 v).trans (BitVec.setWidth_eq v)
  | false =>
    obtain ⟨c1, h1⟩ := threeS (repParam d n).1 d _ c (stosbBlock _ d (v.setWidth 64 * 0x0101010101010101#64)) rfl
    obtain ⟨c2, h2⟩ := threeS (repParam d n).2.1 (c1.reg rdi) _ c1 (stosqBlock _ _ (v.setWidth 64 * 0x0101010101010101#64)) rfl
    obtain ⟨c3, h3⟩ := threeS (repParam d n).2.2 (c2.reg rdi) _ c2 (stosbBlock _ _ (v.setWidth 64 * 0x0101010101010101#64)) rfl
    exact ⟨c3, c1, c2, h1, h2, h3⟩

theorem copyBackward_total (d r n : Nat) (c : Machine) : ∃ c', CopyBackward d r n c c' := by
  have h := (enterBackward_ok 8 9 (by unfold Choosable; decide) (by unfold Choosable; decide) (repParam d n).1 (repParam d n).2.1 (repParam d n).2.2
    (d + (n - 1)) (r + (n - 1)) c.fl c.st (.inl (by decide))).2
  exact ⟨_, 8, 9, by unfold Choosable; decide, by unfold Choosable; decide, withRegs c (enterBackward 8 9 _ _ _ _ _ c.fl c.st).reg,
    ⟨rfl, rfl⟩, fun o ho => by have := h o ho; cases o <;> exact this, rfl⟩

theorem calls_total (ermsb : Bool) (ms : List MemCall) : ∀ c, ∃ c', CallsRun ermsb ms c c' := by
  induction ms with
  | nil => intro c; exact ⟨c, rfl, rfl⟩
  | cons m ms ih =>
    intro c
    have : ∃ c1, m.Runs ermsb c c1 := by
      cases m with
      | memcpy d r n => exact copyForward_total ermsb d r n c
      | memmove d r n =>
        simp only [MemCall.Runs]
        split
        · exact copyForward_total ermsb d r n c
        · exact copyBackward_total d r n c
      | memset p x n => exact setBytes_total ermsb p n _ c
    obtain ⟨c1, h1⟩ := this
    obtain ⟨c2, h2⟩ := ih c1
    exact ⟨c2, c1, h1, h2⟩

/-- A start state. -/
def exMachine : Machine := { reg := fun _ => 5, df := false, fl := ⟨false, true, false, true, false, false⟩, st := demoSt }
/-- A backward `memmove` (so `std` is executed), then a `memcpy` that reads what it wrote, then a `memset`. -/
def exCalls : List MemCall := [.memmove 1003 1000 50, .memcpy 2001 1003 50, .memset 3005 0x141#32 20]

example : ∃ c', CallsRun false exCalls exMachine c' ∧ c'.df = false ∧ c'.st.mem 2010 = demoSt.mem 1009 ∧
    c'.st.mem 3010 = 0x41#8 ∧ ∃ c1, CopyBackward 1003 1000 50 exMachine c1 := by
  obtain ⟨c', h⟩ := calls_total false exCalls exMachine
  have hl : ∀ m, m ∈ exCalls → m.Legal := by
    intro m hm
    simp only [exCalls, List.mem_cons, List.not_mem_nil, or_false] at hm
    rcases hm with rfl | rfl | rfl <;> simp [MemCall.Legal]
  obtain ⟨h1, h2⟩ := C65_calls false exCalls exMachine c' hl h rfl
  refine ⟨c', h, h1, ?_, ?_, copyBackward_total _ _ _ _⟩ <;> rw [h2] <;> rfl

-- Each kind of block has an entry state, and the flags that `copy_backward` leaves are those of its last addition.
example : SourceBlock (backwardBlock 8 9 5 5 5 1052 1049) ∧
    (backwardBlock 8 9 5 5 5 1052 1049).Entry (enterBackward 8 9 5 5 5 1052 1049 ⟨true, false, true, false, true, false⟩ demoSt) :=
  ⟨.backward 8 9 5 5 5 1052 1049 (by unfold Choosable; decide) (by unfold Choosable; decide),
   enterBackward_ok 8 9 (by unfold Choosable; decide) (by unfold Choosable; decide) _ _ _ _ _ _ _ (.inl (by decide))⟩
example : Op.std ∉ (movsqBlock 3 4096 8192).code := by decide
-- The hypothesis on the direction flag matters: with it set, `rep movsb` copies the bytes below `src`, not those above.
example : ∃ c', (MemCall.memcpy 4096 8200 3).Runs true { exMachine with df := true } c' ∧
    c'.st.mem 4097 ≠ (MemCall.memcpy 4096 8200 3).spec exMachine.st.mem 4097 := by
  refine ⟨_, ⟨withRegs { exMachine with df := true } (fun x => if x = rcx then 3 else if x = rdi then 4096 else 8200),
    ⟨rfl, rfl⟩, ?_, rfl⟩, ?_⟩
  · intro o ho
    simp only [movsbBlock, List.mem_cons, List.not_mem_nil, or_false] at ho
    rcases ho with rfl | rfl | rfl <;> rfl
  · decide

end Origin.X86
