import Verif.Model.ThreadPtr
import Verif.Props.Asm
import Verif.Props.Bridge
/-!
# C51: the thread pointer
-/

namespace Origin.Asm
open Origin Origin.Spec Origin.Asm.Spec

/-- A descriptor with the given base as the code writes it. -/
theorem desc_seg {m : Mem} {a : Nat} (h8 : ldN .little 4 m (a + 8) = 0xfffff) (h12 : ldN .little 4 m (a + 12) = descBits) :
    (descAt m a).okay = true ∧ (descAt m a).seg = some ⟨ldN .little 4 m (a + 4), 2 ^ 32 - 1, true⟩ := by
  have hb : descBits = 81 := by decide
  have t0 : Nat.testBit 81 0 = true := by decide
  have t3 : Nat.testBit 81 3 = false := by decide
  have t4 : Nat.testBit 81 4 = true := by decide
  have t5 : Nat.testBit 81 5 = false := by decide
  have t6 : Nat.testBit 81 6 = true := by decide
  have hn : (descAt m a).none? = false := by
    simp [descAt, UserDesc.none?, h12, hb, t0]
  constructor
  · simp [UserDesc.okay, hn]
    simp [descAt, h12, hb, t0, t5]
  · simp [UserDesc.seg, hn]
    simp [descAt, h8, h12, hb, t3, t4]

theorem sel_of (i : Nat) (h : i < 8192) : ((i <<< 3) % 2 ^ 32 ||| 3) % 2 ^ 16 = 8 * i + 3 := by
  rw [Nat.shiftLeft_eq, Nat.mod_eq_of_lt (show i * 2 ^ 3 < 2 ^ 32 by omega)]
  have : i * 2 ^ 3 ||| 3 = i * 2 ^ 3 + 3 := by
    rw [Nat.mul_comm]; exact (Nat.two_pow_add_eq_or_of_lt (by decide) i).symm
  rw [this]; omega

/-- x86: a selector of a slot with the code's descriptor. -/
theorem x86_pointsTo {tp : Tp} {i p : Nat} (hg : tp.gs = 8 * i + 3) (hs : tp.slots i = some ⟨p, 2 ^ 32 - 1, true⟩) : PointsTo .x86 tp p := by
  intro off ho
  have h1 : tp.gs % 8 = 3 := by omega
  have h2 : tp.gs / 8 = i := by omega
  simp only [Arch.ws] at ho ⊢
  simp only [tlsAccess, h1, h2, hs, if_true, and_true]
  rw [if_pos (by omega)]

/-- What holds of every thread's selector on x86. -/
def Selects (a : Arch) (lo : Nat) (tp : Tp) : Prop := a = .x86 → ∃ i, slotOk lo i = true ∧ tp.gs = 8 * i + 3

theorem set_x86 {lo free tmp : Nat} {m : Mem} {tp : Tp} {ptr : Nat} (hlo : lo + 3 ≤ 8192) (hf : slotOk lo free = true) (hp : ptr < 2 ^ 32) :
    let r := setThreadPointer .x86 lo free tmp m tp ptr
    r.1.gs = 8 * free + 3 ∧ r.1.slots = (fun j => if j = free then some ⟨ptr, 2 ^ 32 - 1, true⟩ else tp.slots j) ∧
      ∀ x, x < tmp ∨ tmp + 16 ≤ x → r.2 x = m x := by
  have hfl : free < 8192 := by simp [slotOk] at hf; omega
  let m1 := stDesc m tmp 0xffffffff (ptr % 2 ^ 32)
  have q0 : ldN .little 4 m1 tmp = 0xffffffff := by
    simp only [m1, stDesc, st2]
    rw [ldN_stN_disj (by omega), ldN_stN_disj (by omega), ldN_stN_disj (by omega), ldN_stN_of_lt (by decide)]
  have q4 : ldN .little 4 m1 (tmp + 4) = ptr := by
    simp only [m1, stDesc, st2]
    rw [ldN_stN_disj (by omega), ldN_stN_disj (by omega), ldN_stN_of_lt (by omega)]; omega
  have q8 : ldN .little 4 m1 (tmp + 8) = 0xfffff := by
    simp only [m1, stDesc, st2]
    rw [ldN_stN_disj (by omega), ldN_stN_of_lt (by decide)]
  have q12 : ldN .little 4 m1 (tmp + 12) = descBits := by
    simp only [m1, stDesc, st2]
    rw [show tmp + 8 + 4 = tmp + 12 by omega, ldN_stN_of_lt (by decide)]
  obtain ⟨d1, d2⟩ := desc_seg q8 q12
  have harea : setThreadArea lo true free tp.slots (descAt m1 tmp) =
      some (free, fun j => if j = free then some ⟨ptr, 2 ^ 32 - 1, true⟩ else tp.slots j) := by
    have e : (descAt m1 tmp).entry = 2 ^ 32 - 1 := q0
    simp only [setThreadArea, d1, if_true, e, and_self, hf, d2, q4]
  intro r
  have hr : r = (⟨tp.base, ((ldN .little 4 (stN .little 4 m1 tmp free) tmp <<< 3) % 2 ^ 32 ||| 3) % 2 ^ 16,
      fun j => if j = free then some ⟨ptr, 2 ^ 32 - 1, true⟩ else tp.slots j⟩, stN .little 4 m1 tmp free) := by
    show setThreadPointer .x86 lo free tmp m tp ptr = _
    simp only [setThreadPointer]
    rw [show stDesc m tmp 0xffffffff (ptr % 2 ^ 32) = m1 from rfl, harea]
  rw [hr]
  refine ⟨?_, rfl, ?_⟩
  · show ((ldN .little 4 (stN .little 4 m1 tmp free) tmp <<< 3) % 2 ^ 32 ||| 3) % 2 ^ 16 = _
    rw [ldN_stN_of_lt (by omega)]; exact sel_of free hfl
  · intro x hx
    show stN .little 4 m1 tmp free x = m x
    simp only [m1, stDesc, st2]
    repeat rw [stN_frame (by omega)]

/-- **C51 (startup).** On every architecture, for every pointer, and on x86 whichever descriptor slot the kernel chooses: after
`set_thread_pointer(ptr)` accesses at every offset from the thread pointer, negative ones included, reach the byte at that offset from `ptr`;
memory (other than x86's local variable) is unchanged; and `thread_pointer()` returns `ptr`, on x86 and x86-64 if the word at `ptr` holds
`ptr` (as it does: `C14_main_self_pointer`). -/
theorem C51_set_thread_pointer (a : Arch) (lo free tmp : Nat) (m : Mem) (tp : Tp) (ptr : Nat) (hlo : lo + 3 ≤ 8192)
    (hf : slotOk lo free = true) (hp : ptr < 2 ^ (8 * a.ws)) :
    let r := setThreadPointer a lo free tmp m tp ptr
    PointsTo a r.1 ptr ∧ (∀ x, a ≠ .x86 ∨ x < tmp ∨ tmp + 16 ≤ x → r.2 x = m x) ∧
      ((a = .x86_64 ∨ a = .x86 → ldN .little a.ws r.2 ptr = ptr) → threadPointer a r.2 r.1 = some ptr) := by
  cases a with
  | x86 =>
    obtain ⟨h1, h2, h3⟩ := set_x86 (tmp := tmp) (m := m) (tp := tp) hlo hf hp
    intro r
    have hpt : PointsTo .x86 r.1 ptr := x86_pointsTo h1 (by rw [h2]; simp)
    refine ⟨hpt, fun x hx => h3 x (by rcases hx with h | h; exact absurd rfl h; exact h), fun h => ?_⟩
    simp only [threadPointer, hpt 0 (Nat.two_pow_pos _), Option.map_some, Nat.add_zero, Nat.mod_eq_of_lt hp, h (Or.inr rfl)]
  | x86_64 =>
    intro r
    have hpt : PointsTo .x86_64 r.1 ptr := fun _ _ => rfl
    refine ⟨hpt, fun _ _ => rfl, fun h => ?_⟩
    simp only [threadPointer, hpt 0 (Nat.two_pow_pos _), Option.map_some, Nat.add_zero, Nat.mod_eq_of_lt hp, h (Or.inl rfl)]
  | aarch64 => exact ⟨fun _ _ => rfl, fun _ _ => rfl, fun _ => rfl⟩
  | arm => exact ⟨fun _ _ => rfl, fun _ _ => rfl, fun _ => rfl⟩
  | riscv64 => exact ⟨fun _ _ => rfl, fun _ _ => rfl, fun _ => rfl⟩

/-- The kernel sees the bit of `CLONE_SETTLS`. -/
theorem settls_seen {f v : Nat} (h : v % 2 ^ 32 = f) (hb : f.testBit 19 = true) : ¬ v.testBit 19 = false := by
  rw [← h, Nat.testBit_mod_two_pow] at hb
  simpa using hb

/-- What `clone` leads to in a thread whose selector is as every thread's is. -/
theorem clone_child_tp (a : Arch) (lo : Nat) (rf rn : Reg) (g : CloneArgs) (hi desc arr : Nat) (c : Cpu)
    (k : Cpu → (Reg → Nat) × Mem) (tp : Tp) (hlo : lo + 3 ≤ 8192) (hs : Selects a lo tp)
    (h : Operands a rf rn g desc arr c) (hb : g.flags.testBit 19 = true) :
    ∃ r tp', (run a.ws (spReg a) k (cloneCode a rf rn) (cloneSetup a rf rn g hi (readGs tp) desc arr c)).cpu.calls = r :: c.calls ∧
      childTp a lo tp r.1 r.2 = some tp' ∧ PointsTo a tp' g.newtls ∧ Selects a lo tp' := by
  by_cases ha : a = .x86
  · subst ha
    obtain ⟨i, hi1, hi2⟩ := hs rfl
    have hil : i < 8192 := by simp [slotOk] at hi1; omega
    obtain ⟨c1, e1, e2, -, -, -, e3, ⟨d0, d8, d12⟩, -, e4⟩ := x86_pre (hi := hi) (gs := readGs tp) h k
    obtain ⟨o1, o2⟩ := desc_seg d8 d12
    rw [e3] at o2
    have en : (descAt c1.mem desc).entry = i := by
      show ldN .little 4 c1.mem desc = i
      rw [d0, readGs, hi2, Nat.mod_eq_of_lt (by omega), Nat.shiftRight_eq_div_pow]; omega
    have har : setThreadArea lo false 0 tp.slots (descAt c1.mem desc) =
        some (i, fun j => if j = i then some ⟨g.newtls, 2 ^ 32 - 1, true⟩ else tp.slots j) := by
      simp [setThreadArea, o1, en, hi1, o2]
    refine ⟨(c1.reg, c1.mem), { tp with slots := fun j => if j = i then some ⟨g.newtls, 2 ^ 32 - 1, true⟩ else tp.slots j },
      ?_, ?_, x86_pointsTo hi2 (by simp), fun _ => ⟨i, hi1, hi2⟩⟩
    · show (run 4 4 k _ _).cpu.calls = _
      rw [e4, ← e2]
      show (run 4 4 k (.syscall :: .bnz 0 32 :: .pop 7 :: .mov 6 4 :: .push 0 :: .push 5 :: .push 6 :: .push 7 :: .li 5 0 :: .push 0 ::
        [.jmp]) _).cpu.calls = _
      simp only [run]
      split <;> rfl
    · have : c1.reg (argReg .x86 3) = desc := by rw [e1]; rfl
      have hfl : c1.reg (argReg .x86 0) = g.flags := by rw [e1]; rfl
      simp only [childTp, this, har, Option.map_some]
      rw [if_neg (by rw [hfl, hb]; decide)]
  · obtain ⟨r, h1, h2, hfl, -, h3⟩ := C43_clone_request a rf rn g hi (readGs tp) desc arr c k h
    refine ⟨r, { tp with base := g.newtls }, h1, ?_, ?_, fun hx => absurd hx ha⟩
    · unfold childTp
      rw [if_neg (settls_seen hfl hb)]
      cases a <;> first | exact absurd rfl ha | (simp only; rw [h3.2.1]) | (simp only; rw [h3.2.2])
    · cases a <;> first | exact absurd rfl ha | exact fun _ _ => rfl

/-- The threads of a process: the main thread after `set_thread_pointer(p)`, and each thread that `clone` makes (with the thread pointer
`newtls`) in one of them.  `tp`: its thread-pointer state. -/
inductive Started (a : Arch) (lo : Nat) : Tp → Nat → Prop where
  | main {tp0 : Tp} {m : Mem} {tmp free ptr : Nat} (hf : slotOk lo free = true) (hp : ptr < 2 ^ (8 * a.ws)) :
      Started a lo (setThreadPointer a lo free tmp m tp0 ptr).1 ptr
  | child {tp tp' : Tp} {p : Nat} {rf rn : Reg} {g : CloneArgs} {hi desc arr : Nat} {c : Cpu} {k : Cpu → (Reg → Nat) × Mem}
      {r : (Reg → Nat) × Mem} {rest : List ((Reg → Nat) × Mem)} (parent : Started a lo tp p) (ho : Operands a rf rn g desc arr c) (hb : g.flags.testBit 19 = true)
      (hr : (run a.ws (spReg a) k (cloneCode a rf rn) (cloneSetup a rf rn g hi (readGs tp) desc arr c)).cpu.calls = r :: rest)
      (hc : childTp a lo tp r.1 r.2 = some tp') : Started a lo tp' g.newtls

theorem Started.inv {a : Arch} {lo : Nat} (hlo : lo + 3 ≤ 8192) {tp : Tp} {p : Nat} (h : Started a lo tp p) :
    PointsTo a tp p ∧ Selects a lo tp := by
  induction h with
  | @main tp0 m tmp free ptr hf hp =>
    refine ⟨(C51_set_thread_pointer a lo free tmp m tp0 ptr hlo hf hp).1, ?_⟩
    rintro rfl
    exact ⟨free, hf, (set_x86 hlo hf hp).1⟩
  | @child tp tp' p rf rn g hi desc arr c k r rest _ ho hb hr hc ih =>
    obtain ⟨r', tp'', h1, h2, h3, h4⟩ := clone_child_tp a lo rf rn g hi desc arr c k tp hlo ih.2 ho hb
    rw [hr] at h1
    injection h1 with h1 _
    subst h1
    rw [hc] at h2
    injection h2 with h2
    subst h2
    exact ⟨h3, h4⟩

theorem Started.base {a : Arch} {lo : Nat} {tp : Tp} {p : Nat} (h : Started a lo tp p) (ha : a ≠ .x86) : tp.base = p := by
  induction h with
  | main hf hp => cases a <;> first | exact absurd rfl ha | rfl
  | @child tp tp' p rf rn g hi desc arr c k r rest _ ho hb hr hc ih =>
    obtain ⟨r', h1, -, hfl, -, h3⟩ := C43_clone_request a rf rn g hi (readGs tp) desc arr c k ho
    rw [hr] at h1
    injection h1 with h1 _
    subst h1
    unfold childTp at hc
    rw [if_neg (settls_seen hfl hb)] at hc
    cases a <;> first
      | exact absurd rfl ha
      | (simp only [Option.some.injEq] at hc; rw [← hc]; exact h3.2.1)
      | (simp only [Option.some.injEq] at hc; rw [← hc]; exact h3.2.2)

/-- **C51 (every thread).** On every architecture, whatever slot the kernel chose at startup: in every thread of the process, however many
threads were created and by whichever of them, accesses at every offset from the thread pointer reach the byte at that offset from the address
that this thread was given (by `set_thread_pointer` or as `newtls`). -/
theorem C51_thread_pointer {a : Arch} {lo : Nat} (hlo : lo + 3 ≤ 8192) {tp : Tp} {p : Nat} (h : Started a lo tp p) : PointsTo a tp p :=
  (h.inv hlo).1

/-- **C51 (`clone` is not refused).** In every thread, `clone`'s request for a thread pointer is one that the kernel accepts, and then the caller's own
thread pointer is as before. -/
theorem C51_clone_accepted {a : Arch} {lo : Nat} (hlo : lo + 3 ≤ 8192) {tp : Tp} {p : Nat} (hs : Started a lo tp p) (rf rn : Reg) (g : CloneArgs)
    (hi desc arr : Nat) (c : Cpu) (k : Cpu → (Reg → Nat) × Mem) (h : Operands a rf rn g desc arr c) (hb : g.flags.testBit 19 = true) :
    ∃ r tp', (run a.ws (spReg a) k (cloneCode a rf rn) (cloneSetup a rf rn g hi (readGs tp) desc arr c)).cpu.calls = r :: c.calls ∧
      childTp a lo tp r.1 r.2 = some tp' ∧ Started a lo tp' g.newtls ∧ PointsTo a tp p := by
  obtain ⟨r, tp', h1, h2, -, -⟩ := clone_child_tp a lo rf rn g hi desc arr c k tp hlo (hs.inv hlo).2 h hb
  exact ⟨r, tp', h1, h2, .child hs h hb h1 h2, (hs.inv hlo).1⟩

/-- **C51, C19 (a created thread).** With `create`'s own `clone` arguments: in the new thread `thread_pointer()` is the thread pointer that
`create` asked for, at which `current()` is the handle that `create` returned. -/
theorem C51_created {c : Cfg} {s : Space} {ka : Answers} {args : List Nat} {ss gs0 map tid : Nat}
    (H : Creation c s ka args ss gs0 map tid) (m : Mem) (junk : Nat → Byte) (tp0 fn : Nat) (he : c.endian = .little)
    {lo : Nat} (hlo : lo + 3 ≤ 8192) {tp : Tp} {g : CloneArgs}
    (hg : newThreadPointer (create c m junk ka tp0 fn args ss gs0).calls = some g.newtls) (h : Started c.arch lo tp g.newtls) :
    threadPointer c.arch (create c m junk ka tp0 fn args ss gs0).mem tp = some g.newtls ∧
      (create c m junk ka tp0 fn args ss gs0).res = .ok (current c g.newtls) := by
  obtain ⟨t, ntp, h1, h2, h3, -⟩ := C19_current H m junk tp0 fn
  rw [hg] at h2
  injection h2 with h2
  subst h2
  refine ⟨?_, by rw [h1, h3]⟩
  have hpt := C51_thread_pointer hlo h
  have hb := hpt 0 (Nat.two_pow_pos _)
  have hlt : g.newtls < 2 ^ (8 * c.arch.ws) := by
    rw [newThreadPointer_created H m junk tp0 fn] at hg
    injection hg with hg
    have q1 := H.record_lt
    obtain ⟨p1, -, -⟩ := meta_parts c.arch c.tl H.cfg.layout
    have hpt : abiOff c.arch .pointee ≤ abiSize c.arch := by
      rw [abiOff_pointee, abiSize_eq]; cases c.arch <;> decide
    unfold newTp umax at *
    simp only [Cfg.ws] at *
    omega
  by_cases hx : c.arch = .x86_64 ∨ c.arch = .x86
  · obtain ⟨ntp', q1, q2⟩ := C14_self_pointer H m junk tp0 fn hx
    rw [hg] at q1
    injection q1 with q1
    subst q1
    have : threadPointer c.arch (create c m junk ka tp0 fn args ss gs0).mem tp =
        (tlsAccess c.arch tp 0).map (ldN .little c.arch.ws (create c m junk ka tp0 fn args ss gs0).mem) := by
      rcases hx with h | h <;> rw [h] <;> rfl
    rw [this, hb, Option.map_some, Nat.add_zero, Nat.mod_eq_of_lt hlt]
    rw [he] at q2
    exact congrArg some q2
  · have h0 := h.base (fun e => hx (Or.inr e))
    rw [← h0]
    revert hx; cases c.arch <;> simp [threadPointer]

/-! ## Concrete cases -/

/-- A process on a 64-bit kernel running 32-bit code: the main thread gets slot 12 (selector `0x63`), creates a thread with thread pointer
`0x6000`, in which the word before the thread pointer is at `0x5ffc`. -/
example : ∃ tp, Started .x86 12 tp 0x6000 ∧ tlsAccess .x86 tp (2 ^ 32 - 4) = some 0x5ffc ∧ tp.gs = 0x63 := by
  have h0 : Started .x86 12 (setThreadPointer .x86 12 12 0x9300 (fun _ => 0) ⟨0, 0, fun _ => none⟩ 0x8000).1 0x8000 := .main (by decide) (by decide)
  obtain ⟨r, tp', h1, h2, h3, -⟩ := C51_clone_accepted (by decide) h0 5 6 demoArgs 1 0x9100 0x9200 (demoCpu .x86) (childKernel .x86)
    (demo_operands .x86) (by decide)
  refine ⟨tp', h3, (C51_thread_pointer (by decide) h3 _ (by decide)).trans (by decide), ?_⟩
  have hg : tp'.gs = (setThreadPointer .x86 12 12 0x9300 (fun _ => 0) ⟨0, 0, fun _ => none⟩ 0x8000).1.gs := by
    unfold childTp at h2
    split at h2
    · injection h2 with h2
      rw [← h2]
    · simp only [Option.map_eq_some_iff] at h2
      obtain ⟨x, -, h2⟩ := h2
      rw [← h2]
  rw [hg]
  exact (set_x86 (tmp := 0x9300) (m := fun _ => 0) (tp := ⟨0, 0, fun _ => none⟩) (lo := 12) (free := 12) (ptr := 0x8000)
    (by decide) (by decide) (by decide)).1

/-- On all five targets a child of the main thread has the thread pointer it was given. -/
example (a : Arch) : ∃ tp, Started a 6 tp 0x6000 ∧ tlsAccess a tp 8 = some 0x6008 := by
  have h0 : Started a 6 (setThreadPointer a 6 7 0x9300 (fun _ => 0) ⟨0, 0, fun _ => none⟩ 0x8000).1 0x8000 :=
    .main (by decide) (by cases a <;> decide)
  obtain ⟨r, tp', -, -, h3, -⟩ := C51_clone_accepted (by decide) h0 5 6 demoArgs 1 0x9100 0x9200 (demoCpu a) (childKernel a) (demo_operands a) (by decide)
  exact ⟨tp', h3, (C51_thread_pointer (by decide) h3 8 (by cases a <;> decide)).trans (by cases a <;> decide)⟩

end Origin.Asm
