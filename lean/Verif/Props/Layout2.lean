import Verif.Props.Layout
/-!
# Thread memory properties, continued: C15, C17, C18, C19, C47 (and examples for all of `Creation`)
-/

namespace Origin
open Spec

section
variable {c : Cfg} {s : Space} {k : Answers} {args : List Nat} {ss gs map tid : Nat}

/-! ## C15 -/

/-- The stack alignment the procedure-call standard of each target demands at a public interface. -/
def Spec.abiStackAlign : Arch → Nat
  | .arm => 8
  | _ => 16

/-- **C15 (memory side).** The child is started with `fn_`, a stack pointer and the argument count; the
words from that stack pointer are the arguments in order; they lie inside the new thread's stack area
(reported stack address up to the TLS/record), disjoint from its TLS block and record, and in memory
that is readable and writable.  (`C43` shows that the child's entry code passes exactly this pointer and
count on.) -/
theorem C15_args (H : Creation c s k args ss gs map tid) (m : Mem) (junk : Nat → Byte) (tp fn : Nat) :
    ∃ t sp, (create c m junk k tp fn args ss gs).res = .ok t ∧
      childStart (create c m junk k tp fn args ss gs).calls = some (sp, fn, args.length) ∧
      (∀ i (hi : i < args.length),
        ldN c.endian c.ws (create c m junk k tp fn args ss gs).mem (sp + c.ws * i) = args[i]) ∧
      (stackOf c (create c m junk k tp fn args ss gs).mem t).1 ≤ sp ∧
      (⟨sp, c.ws * args.length⟩ : Range).Disj (tlsBlock c ss gs map) ∧
      (⟨sp, c.ws * args.length⟩ : Range).Disj (record c ss gs map) ∧
      (⟨sp, c.ws * args.length⟩ : Range).AllPerm
        (spaceAfter c.page s (create c m junk k tp fn args ss gs).calls) .readWrite ∧
      c.arch.stackAlignment ∣ sp := by
  have C := H.created m junk tp fn
  have P := H.placed
  have b1 := P.bounds.m_le_tls; have b2 := P.bounds.m_le_header; have b3 := P.bounds.tls_in
  simp only at b1 b2 b3
  have hpg := H.cfg.pageMin
  have hms := le_natRoundUp (x := (createLayout c ss gs).mapSize) (b := c.page) (by omega)
  have hst := P.ok.st; have hsb := P.ok.sb
  have s1 := H.spLow; have s2 := C.spHigh
  refine ⟨_, childSp c (map + (createLayout c ss gs).stackTop) args.length, C.res, ?_, ?_, ?_, ?_, ?_, ?_,
    C.spAligned⟩
  · rw [C.calls]; rfl
  · intro i hi
    exact C.argVals i hi (H.argsWords _ (List.getElem_mem hi))
  · have := stackOf_created H m junk tp fn
    unfold handleOf at this
    rw [this]; exact s1
  · have e := H.tlsBlock_eq
    simp only [Range.Disj, e]
    left; omega
  · have e := H.record_eq
    simp only [Range.Disj, e]
    left; omega
  · intro x hx
    simp only [Range.Has] at hx
    rw [space_created H m junk tp fn, if_neg (by omega), if_pos (by omega)]

/-- **C15 (exactly when the arguments are in the stack).** `create` does not look at how many arguments
there are.  For every argument list (that does not reach below address 0) the words from the stack
pointer the child gets are the arguments in order, and that pointer is in the stack, at or above its lowest
address, iff the arguments fit in the stack size rounded up to 16. -/
theorem C15_args_in_stack_iff (H : Started c s k args ss gs map tid)
    (hpos : c.ws * args.length ≤ map + natRoundUp gs c.page + natRoundUp ss 16)
    (m : Mem) (junk : Nat → Byte) (tp fn : Nat) :
    ∃ t sp, (create c m junk k tp fn args ss gs).res = .ok t ∧
      childStart (create c m junk k tp fn args ss gs).calls = some (sp, fn, args.length) ∧
      (∀ i (hi : i < args.length),
        ldN c.endian c.ws (create c m junk k tp fn args ss gs).mem (sp + c.ws * i) = args[i]) ∧
      (map + (areas c ss gs).stackLo ≤ sp ↔ c.ws * args.length ≤ natRoundUp ss 16) ∧
      (map ≤ sp ↔ c.ws * args.length ≤ natRoundUp gs c.page + natRoundUp ss 16) := by
  have P := H.placed
  have hst := P.ok.st; have hsb := P.ok.sb
  have C := H.created (by omega) m junk tp fn
  have hlo : (areas c ss gs).stackLo = (createLayout c ss gs).stackBottom := by rw [H.layout]
  have hal : 0 < c.arch.stackAlignment := by cases c.arch <;> decide
  have d0 : c.arch.stackAlignment ∣ 16 := by cases c.arch <;> decide
  have d1 : (16:Nat) ∣ c.page := pow_dvd_of_le ⟨4, rfl⟩ H.cfg.pagePow (by have := H.cfg.pageMin; omega)
  have d2 : c.arch.stackAlignment ∣ map := Nat.dvd_trans d0 (Nat.dvd_trans d1 P.page)
  have d3 : c.arch.stackAlignment ∣ natRoundUp gs c.page :=
    Nat.dvd_trans d0 (Nat.dvd_trans d1 (dvd_natRoundUp _ _))
  have key : ∀ b x, c.arch.stackAlignment ∣ b →
      (b ≤ x / c.arch.stackAlignment * c.arch.stackAlignment ↔ b ≤ x) := by
    intro b x hb
    constructor
    · intro h; exact Nat.le_trans h (Nat.div_mul_le_self _ _)
    · intro h
      have := Nat.mul_le_mul_right c.arch.stackAlignment (Nat.div_le_div_right (c := c.arch.stackAlignment) h)
      rwa [Nat.div_mul_cancel hb] at this
  refine ⟨_, childSp c (map + (createLayout c ss gs).stackTop) args.length, C.res, ?_, ?_, ?_, ?_⟩
  · rw [C.calls]; rfl
  · intro i hi
    exact C.argVals i hi (H.argsWords _ (List.getElem_mem hi))
  · rw [C.spIs, hlo, key _ _ (by rw [hsb]; exact Nat.dvd_add d2 d3)]
    omega
  · rw [C.spIs, key _ _ d2]
    omega

/-- **C15 without its proviso is false.** Given more arguments than fit in the stack and its guard area,
`create` succeeds, and it has stored the first of them below the memory it mapped: whatever was mapped there
(another thread's stack, record or TLS block, or the program's own data) is overwritten. -/
theorem C15_overrun_false (H : Started c s k args ss gs map tid)
    (hpos : c.ws * args.length ≤ map + natRoundUp gs c.page + natRoundUp ss 16)
    (hbig : natRoundUp gs c.page + natRoundUp ss 16 < c.ws * args.length)
    (m : Mem) (junk : Nat → Byte) (tp fn : Nat) :
    ∃ t sp, (create c m junk k tp fn args ss gs).res = .ok t ∧ sp < map ∧
      ∃ h : 0 < args.length, ldN c.endian c.ws (create c m junk k tp fn args ss gs).mem sp = args[0] := by
  obtain ⟨t, sp, h1, -, h3, -, h5⟩ := C15_args_in_stack_iff H hpos m junk tp fn
  have h0 : 0 < args.length := by
    rcases Nat.eq_zero_or_pos args.length with h | h
    · rw [h] at hbig; omega
    · exact h
  exact ⟨t, sp, h1, by omega, h0, h3 0 h0⟩

/-- **C15 (alignment), all targets but arm.** The initial stack pointer has the alignment the ABI
demands. -/
theorem C15_stack_aligned_partial (H : Creation c s k args ss gs map tid) (m : Mem) (junk : Nat → Byte)
    (tp fn sp f n : Nat) (ha : c.arch ≠ .arm)
    (hsp : childStart (create c m junk k tp fn args ss gs).calls = some (sp, f, n)) :
    abiStackAlign c.arch ∣ sp := by
  obtain ⟨t, sp', -, h1, -, -, -, -, -, h2⟩ := C15_args H m junk tp fn
  rw [h1] at hsp
  simp only [Option.some.injEq, Prod.mk.injEq] at hsp
  obtain ⟨rfl, -, -⟩ := hsp
  have : abiStackAlign c.arch = c.arch.stackAlignment := by
    revert ha; cases c.arch <;> simp [abiStackAlign, Arch.stackAlignment]
  rw [this]; exact h2

/-- **C15 (alignment) is false on arm**: with an odd number of arguments the initial stack pointer is
4 modulo 8. -/
theorem C15_arm_misaligned (H : Creation c s k args ss gs map tid) (m : Mem) (junk : Nat → Byte)
    (tp fn sp f n : Nat) (ha : c.arch = .arm) (hodd : args.length % 2 = 1)
    (hsp : childStart (create c m junk k tp fn args ss gs).calls = some (sp, f, n)) :
    sp % 8 = 4 := by
  have C := H.created m junk tp fn
  have P := H.placed
  rw [C.calls] at hsp
  simp only [childStart, Option.some.injEq, Prod.mk.injEq] at hsp
  obtain ⟨rfl, -, -⟩ := hsp
  have hst := P.ok.st; have hsb := P.ok.sb
  have s1 := H.spLow; have s2 := C.spHigh
  have hfit := P.fit
  have b1 := P.bounds.m_le_tls; have b3 := P.bounds.tls_in
  simp only at b1 b3
  rw [childSp_ok (by omega) (by omega)]
  have hw : c.ws = 4 := by unfold Cfg.ws; rw [ha]; rfl
  have hal : c.arch.stackAlignment = 4 := by rw [ha]; rfl
  have d1 : (16:Nat) ∣ c.page := pow_dvd_of_le ⟨4, rfl⟩ H.cfg.pagePow (by have := H.cfg.pageMin; omega)
  have d2 : (16:Nat) ∣ map := Nat.dvd_trans d1 P.page
  have d3 : (16:Nat) ∣ natRoundUp gs c.page := Nat.dvd_trans d1 (dvd_natRoundUp _ _)
  have d4 : (16:Nat) ∣ natRoundUp ss 16 := dvd_natRoundUp _ _
  rw [hw, hal]
  rw [hw] at s2
  omega

/-! ## C17 -/

/-- **C17 (error reporting).** `create` returns `Err(e)` exactly when `mmap` fails with `e`, or `mmap`
succeeds and `mprotect` fails with `e`, or both succeed and `clone` returns `-e`. For every configuration,
memory, request, and all kernel answers. -/
theorem C17_error_iff (c : Cfg) (m : Mem) (junk : Nat → Byte) (k : Answers) (tp fn : Nat) (args : List Nat)
    (ss gs e : Nat) :
    (create c m junk k tp fn args ss gs).res = .error e ↔
      k.mmap = .error e ∨
      (∃ a, k.mmap = .ok a ∧ k.mprotect = .error e) ∨
      (∃ a, k.mmap = .ok a ∧ k.mprotect = .ok () ∧ k.clone < 0 ∧ k.clone = -(e : Int)) := by
  unfold create
  cases h1 : k.mmap with
  | error e1 => simp
  | ok a =>
    cases h2 : k.mprotect with
    | error e2 => simp
    | ok u =>
      by_cases h3 : 0 ≤ k.clone
      · simp [h3]
        intro h; omega
      · simp [h3]
        constructor
        · intro h; omega
        · rintro ⟨h4, h5⟩; omega

/-- **C17 (nothing started).** When `create` returns `Err`, no `clone` call succeeded, so no thread
was started. -/
theorem C17_no_thread (c : Cfg) (m : Mem) (junk : Nat → Byte) (k : Answers) (tp fn : Nat) (args : List Nat)
    (ss gs e : Nat) (he : (create c m junk k tp fn args ss gs).res = .error e) :
    ∀ f sp p q n g a r, Sys.clone f sp p q n g a r ∈ (create c m junk k tp fn args ss gs).calls → r < 0 := by
  revert he
  unfold create
  cases h1 : k.mmap with
  | error e1 => simp
  | ok a =>
    cases h2 : k.mprotect with
    | error e2 => simp
    | ok u =>
      by_cases h3 : 0 ≤ k.clone
      · simp [h3]
      · simp [h3]
        intros; omega

/-- **C17 (no mapping left), the part that holds:** when the `mmap` itself fails, the address space is
unchanged. -/
theorem C17_no_mapping_partial (c : Cfg) (s : Space) (m : Mem) (junk : Nat → Byte) (k : Answers)
    (tp fn : Nat) (args : List Nat) (ss gs e : Nat) (he : k.mmap = .error e) :
    spaceAfter c.page s (create c m junk k tp fn args ss gs).calls = s := by
  unfold create
  simp [he, spaceAfter, applySys]

/-- **C17 (no mapping left) is false otherwise:** whenever `mmap` succeeded and `mprotect` or `clone`
then fails, `create` returns an error with the whole region still mapped (it never calls `munmap`). -/
theorem C17_leak (c : Cfg) (s : Space) (m : Mem) (junk : Nat → Byte) (k : Answers) (tp fn : Nat)
    (args : List Nat) (ss gs map : Nat) (hmap : k.mmap = .ok map)
    (hfail : (∃ e, k.mprotect = .error e) ∨ k.clone < 0) :
    (∃ e, (create c m junk k tp fn args ss gs).res = .error e) ∧
    ∃ len rest, (create c m junk k tp fn args ss gs).calls = .mmap len .inaccessible (.ok map) :: rest ∧
    ∀ x, map ≤ x → x < map + natRoundUp len c.page →
      spaceAfter c.page s (create c m junk k tp fn args ss gs).calls x ≠ .unmapped := by
  unfold create
  simp only [hmap]
  cases h2 : k.mprotect with
  | error e2 =>
    refine ⟨⟨e2, rfl⟩, _, _, rfl, fun x hx1 hx2 => ?_⟩
    simp only [spaceAfter, List.foldl, applySys, setPerm]
    rw [if_pos ⟨hx1, hx2⟩]; decide
  | ok u =>
    have h3 : k.clone < 0 := by
      rcases hfail with ⟨e, he⟩ | h
      · rw [h2] at he; cases he
      · exact h
    have h3' : ¬ 0 ≤ k.clone := by omega
    simp only [if_neg h3']
    refine ⟨⟨_, rfl⟩, _, _, rfl, fun x hx1 hx2 => ?_⟩
    simp only [spaceAfter, List.foldl, applySys, setPerm]
    split
    · decide
    · rw [if_pos ⟨hx1, hx2⟩]; decide

/-! ## C18 -/

/-- **C18 (stack default).** -/
theorem C18_default_stack (c : Cfg) :
    0x20000 ≤ defaultStackSize c ∧ c.startupStackSize ≤ defaultStackSize c :=
  ⟨Nat.le_max_left _ _, Nat.le_max_right _ _⟩

/-- **C18 (guard default).** A positive multiple of the page size (no wrap-around for any page size the
configuration allows). -/
theorem C18_default_guard (h : CfgOk c) : 0 < defaultGuardSize c ∧ c.page ∣ defaultGuardSize c := by
  have hp := h.pageMin
  have hf := h.pageMax
  have e : defaultGuardSize c = c.page * 4 := by
    unfold defaultGuardSize umul
    rw [← BitVec.ofNat_mul, BitVec.toNat_ofNat, Nat.mod_eq_of_lt]
    unfold umax at hf; omega
  rw [e]
  exact ⟨by omega, Nat.dvd_mul_right _ _⟩

/-- **C18 (defaults and freeing).** A thread created with the default sizes is later unmapped exactly. -/
theorem C18_defaults_unmap (H : Creation c s k args (defaultStackSize c) (defaultGuardSize c) map tid)
    (m m' : Mem) (junk : Nat → Byte) (tp fn t : Nat)
    (ht : (create c m junk k tp fn args (defaultStackSize c) (defaultGuardSize c)).res = .ok t)
    (hsame : SameFreeFields c (create c m junk k tp fn args (defaultStackSize c) (defaultGuardSize c)).mem m' t) :
    ∃ len, freeMemory c m' t = .done [.munmap map len (.ok ())] ∧
      spaceAfter c.page s ((create c m junk k tp fn args (defaultStackSize c) (defaultGuardSize c)).calls
        ++ [.munmap map len (.ok ())]) = s := by
  obtain ⟨len, -, -, h1, -, h2⟩ :=
    C09_unmap_partial H (C18_default_guard H.cfg).2 m m' junk tp fn t ht hsame
  exact ⟨len, h1, h2⟩

/-! ## C19 -/

/-- **C19.** `current()` evaluated on the new thread (whose thread pointer is the one given to `clone`)
is the handle `create` returned; both ways of asking for the thread id give the kernel's tid; and the
handle is non-null, so `from_raw(to_raw(t))` gives it back. -/
theorem C19_current (H : Creation c s k args ss gs map tid) (m : Mem) (junk : Nat → Byte) (tp fn : Nat) :
    ∃ t ntp, (create c m junk k tp fn args ss gs).res = .ok t ∧
      newThreadPointer (create c m junk k tp fn args ss gs).calls = some ntp ∧
      current c ntp = t ∧
      currentId c (create c m junk k tp fn args ss gs).mem ntp = tid ∧
      idOf c (create c m junk k tp fn args ss gs).mem t = some tid ∧
      fromRaw (toRaw t) = some t := by
  have C := H.created m junk tp fn
  have h1 := H.record_lt
  have p1 := (meta_parts c.arch c.tl H.cfg.layout).1
  have p2 := (meta_parts c.arch c.tl H.cfg.layout).2.1
  have hp : abiOff c.arch .pointee ≤ abiSize c.arch := by
    rw [abiOff_pointee, abiSize_eq]; cases c.arch <;> decide
  have htid := H.cfg.layout.inside (c.tl.tid, 4) (by simp [ThreadLayout.extents])
  simp only at htid
  have hcur : current c (newTp c ss gs map) = handleOf c ss gs map := by
    unfold current currentMetadata threadAddr newTp handleOf
    rw [uwsub_of_le (by omega) (by omega)]
    rw [uadd_of_lt (by omega)]
    omega
  have hadd := H.handle_add (o := c.tl.tid) (n := 4) (by simp [ThreadLayout.extents])
  have hld : ldN c.endian 4 (create c m junk k tp fn args ss gs).mem (uadd c.ws (handleOf c ss gs map) c.tl.tid)
      = tid := by
    rw [hadd, handleOf, C.tid, H.cloneOk]
    have := H.tidLt
    simp only [Int.toNat_natCast]
    omega
  refine ⟨handleOf c ss gs map, newTp c ss gs map, C.res, newThreadPointer_created H m junk tp fn, hcur, ?_, ?_, ?_⟩
  · unfold currentId; rw [hcur, hld]
  · unfold idOf
    have := H.tidPos
    simp only [hld]
    rw [if_neg (by omega)]
  · have : handleOf c ss gs map ≠ 0 := by
      have := H.mapped.nonnull
      unfold handleOf; omega
    unfold fromRaw toRaw; rw [if_neg this]

/-- **C19.** `from_raw(null)` panics. -/
theorem C19_from_raw_null : fromRaw 0 = none := rfl

/-- **C19.** For every raw pointer: `from_raw` either panics (null) or gives a handle whose `to_raw` is
that pointer. -/
theorem C19_round_trip (raw : Nat) : (raw = 0 ∧ fromRaw raw = none) ∨
    ∃ t, fromRaw raw = some t ∧ toRaw t = raw := by
  unfold fromRaw toRaw
  by_cases h : raw = 0
  · exact .inl ⟨h, by rw [if_pos h]⟩
  · exact .inr ⟨raw, by rw [if_neg h], rfl⟩

/-! ## C47 -/

/-- **C47.** For every thread (any thread pointer whose record does not wrap around the address space),
after `set_current_id_after_a_fork(tid)`: `current_id()` and `id(current())` are `tid`; no byte outside
the four bytes of the id changes, and `stack(current())` and the arguments of the eventual unmapping are
as before. -/
theorem C47_fork_id (hv : c.tl.Valid c.arch) (m : Mem) (tp tid : Nat) (h1 : 0 < tid) (h2 : tid < 2 ^ 31)
    (hr : current c tp + c.tl.size < umax c.ws) :
    let m' := setCurrentIdAfterAFork c m tp tid
    currentId c m' tp = tid ∧ idOf c m' (current c tp) = some tid ∧
    (∀ x, ¬ (current c tp + c.tl.tid ≤ x ∧ x < current c tp + c.tl.tid + 4) → m' x = m x) ∧
    stackOf c m' (current c tp) = stackOf c m (current c tp) ∧
    munmapArgs c m' (current c tp) = munmapArgs c m (current c tp) := by
  intro m'
  have hw := ws_pos c.arch
  have hin := hv.inside
  have ht : c.tl.tid + 4 ≤ c.tl.size := hin (c.tl.tid, 4) (by simp [ThreadLayout.extents])
  have e1 : uadd c.ws (current c tp) c.tl.tid = current c tp + c.tl.tid := uadd_of_lt (by omega)
  have hm' : m' = stN c.endian 4 m (current c tp + c.tl.tid) tid := by
    show setCurrentIdAfterAFork c m tp tid = _
    unfold setCurrentIdAfterAFork; rw [e1]
  have hld : ldN c.endian 4 m' (current c tp + c.tl.tid) = tid := by
    rw [hm', ldN_stN_of_lt (by omega)]
  have hd := hv.disjointBase
  simp only [ThreadLayout.extents, List.pairwise_cons, List.mem_cons, List.not_mem_nil, or_false,
    forall_eq_or_imp, forall_eq] at hd
  obtain ⟨⟨-, d1, d2, d3, d4, -⟩, -⟩ := hd
  have other : ∀ o, o + c.ws ≤ c.tl.size → (c.tl.tid + 4 ≤ o ∨ o + c.ws ≤ c.tl.tid) →
      ldN c.endian c.ws m' (uadd c.ws (current c tp) o) = ldN c.endian c.ws m (uadd c.ws (current c tp) o) := by
    intro o ho hdis
    rw [uadd_of_lt (by omega), hm', ldN_stN_disj (by omega)]
  have i1 : c.tl.stackAddr + c.ws ≤ c.tl.size := hin (c.tl.stackAddr, c.arch.ws) (by simp [ThreadLayout.extents])
  have i2 : c.tl.stackSize + c.ws ≤ c.tl.size := hin (c.tl.stackSize, c.arch.ws) (by simp [ThreadLayout.extents])
  have i3 : c.tl.guardSize + c.ws ≤ c.tl.size := hin (c.tl.guardSize, c.arch.ws) (by simp [ThreadLayout.extents])
  have i4 : c.tl.mapSize + c.ws ≤ c.tl.size := hin (c.tl.mapSize, c.arch.ws) (by simp [ThreadLayout.extents])
  refine ⟨?_, ?_, ?_, ?_, ?_⟩
  · unfold currentId; rw [e1, hld]
  · unfold idOf; simp only [e1, hld]; rw [if_neg (by omega)]
  · intro x hx; rw [hm']; exact stN_frame (by omega)
  · unfold stackOf
    rw [other _ i1 d1, other _ i2 d2, other _ i3 d3]
  · unfold munmapArgs
    simp only [other _ i4 d4, other _ i1 d1, other _ i3 d3]

end

/-! ## Non-vacuity: concrete creations meeting the hypotheses -/

/-- An x86-64 process with a 40-byte, 16-aligned TLS segment (24 initialised bytes). -/
def exCfg : Cfg where
  arch := .x86_64
  endian := .little
  page := 4096
  tls := { addr := 0x400000, memSize := 40, fileSize := 24, align := 16 }
  startupStackSize := 0
  tl := { size := 88, tid := 40, detached := 44, stackAddr := 0, stackSize := 8, guardSize := 16,
          mapSize := 24, returnValue := 32 }

theorem exCfg_ok : CfgOk exCfg where
  layout := ⟨by decide, by decide, by decide, by decide⟩
  pagePow := ⟨12, rfl⟩
  pageMin := by decide
  tlsPow := ⟨4, rfl⟩
  tlsAlignLe := by decide
  tlsSizes := by decide
  pageMax := by decide

/-- An address space in which only the TLS image's page is mapped. -/
def exSpace : Space := fun x => if 0x400000 ≤ x ∧ x < 0x401000 then .readWrite else .unmapped

def exAnswers : Answers := { mmap := .ok 0x7f0000000000, mprotect := .ok (), clone := 1234 }

/-- A thread with the default guard and stack sizes and three arguments. -/
theorem exCreation : Creation exCfg exSpace exAnswers [1, 0, 0xdeadbeef] 0x20000 0x4000 0x7f0000000000 1234 where
  cfg := exCfg_ok
  fits := by unfold Fits; decide
  mmapOk := rfl
  mprotectOk := rfl
  cloneOk := rfl
  tidPos := by decide
  tidLt := by decide
  kernel :=
    { aligned := by decide, nonnull := by decide, nonempty := by decide, fits := by decide,
      fresh := by
        intro x h1 _
        unfold exSpace
        rw [if_neg (by omega)] }
  argsFit := by decide
  argsWords := by decide
  image := by
    intro i hi
    unfold exSpace
    have : i < 24 := hi
    rw [if_pos (by simp only [exCfg]; omega)]
    decide

/-- A request for no stack and no guard with three arguments: the premise of `C15_overrun_false`. -/
theorem exStartedNoStack : Started exCfg exSpace exAnswers [1, 0, 0xdeadbeef] 0 0 0x7f0000000000 1234 where
  cfg := exCfg_ok
  fits := by unfold Fits; decide
  mmapOk := rfl
  mprotectOk := rfl
  cloneOk := rfl
  tidPos := by decide
  tidLt := by decide
  kernel :=
    { aligned := by decide, nonnull := by decide, nonempty := by decide, fits := by decide,
      fresh := by
        intro x h1 _
        unfold exSpace
        rw [if_neg (by omega)] }
  argsWords := by decide
  image := exCreation.image

example (m : Mem) (junk : Nat → Byte) :=
  C15_overrun_false exStartedNoStack (by decide) (by decide) m junk 0 7
example (m : Mem) (junk : Nat → Byte) :=
  C15_args_in_stack_iff exCreation.toStarted (by decide) m junk 0 7

/-- The same thread with a guard of 100 bytes: the premise of `C09_unaligned_guard_false`. -/
theorem exCreationOddGuard :
    Creation exCfg exSpace exAnswers [1, 0, 0xdeadbeef] 0x20000 100 0x7f0000000000 1234 where
  cfg := exCfg_ok
  fits := by unfold Fits; decide
  mmapOk := rfl
  mprotectOk := rfl
  cloneOk := rfl
  tidPos := by decide
  tidLt := by decide
  kernel :=
    { aligned := by decide, nonnull := by decide, nonempty := by decide, fits := by decide,
      fresh := by
        intro x h1 _
        unfold exSpace
        rw [if_neg (by omega)] }
  argsFit := by decide
  argsWords := by decide
  image := exCreation.image

example : ¬ exCfg.page ∣ 100 := by decide
example : exCfg.page ∣ 0x4000 := by decide
/-- `C13` fails in this very configuration (40 is not a multiple of 16). -/
example : ¬ exCfg.tls.align ∣ exCfg.tls.memSize := by decide

/-- An arm process. -/
def exCfgArm : Cfg where
  arch := .arm
  endian := .little
  page := 4096
  tls := { addr := 0x400000, memSize := 40, fileSize := 24, align := 8 }
  startupStackSize := 0
  tl := { size := 48, tid := 20, detached := 24, stackAddr := 0, stackSize := 4, guardSize := 8,
          mapSize := 12, returnValue := 16 }

theorem exCfgArm_ok : CfgOk exCfgArm where
  layout := ⟨by decide, by decide, by decide, by decide⟩
  pagePow := ⟨12, rfl⟩
  pageMin := by decide
  tlsPow := ⟨3, rfl⟩
  tlsAlignLe := by decide
  tlsSizes := by decide
  pageMax := by decide

/-- One argument: an odd number, the premise of `C15_arm_misaligned`. -/
theorem exCreationArm :
    Creation exCfgArm exSpace { mmap := .ok 0x70000000, mprotect := .ok (), clone := 77 } [5] 0x20000 0x4000
      0x70000000 77 where
  cfg := exCfgArm_ok
  fits := by unfold Fits; decide
  mmapOk := rfl
  mprotectOk := rfl
  cloneOk := rfl
  tidPos := by decide
  tidLt := by decide
  kernel :=
    { aligned := by decide, nonnull := by decide, nonempty := by decide, fits := by decide,
      fresh := by
        intro x h1 _
        unfold exSpace
        rw [if_neg (by omega)] }
  argsFit := by decide
  argsWords := by decide
  image := by
    intro i hi
    unfold exSpace
    have : i < 24 := hi
    rw [if_pos (by simp only [exCfgArm]; omega)]
    decide

/-- The default sizes of `exCfg` are the ones of `exCreation`. -/
example : defaultStackSize exCfg = 0x20000 ∧ defaultGuardSize exCfg = 0x4000 := by decide

end Origin
