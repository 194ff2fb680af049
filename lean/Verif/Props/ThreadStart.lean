import Verif.Spec.ThreadStart
import Verif.Props.Bridge
import Verif.Props.ThreadPtr
import Verif.Props.Layout2
/-!
# C60: from `create` to the new thread's entry, on the machine
-/

namespace Origin.Asm
open Origin Origin.Spec Origin.Asm.Spec

/-- Memory at the moment when `create` calls `clone`: that which `create` leaves if the call fails. -/
def memAtClone (c : Cfg) (m : Mem) (junk : Nat → Byte) (k : Answers) (tp fn : Nat) (args : List Nat) (ss gs : Nat) : Mem :=
  (create c m junk { k with clone := -11 } tp fn args ss gs).mem

section
variable {c : Cfg} {s : Space} {ka : Answers} {args : List Nat} {ss gs map tid : Nat}

theorem cloneArgs_created (H : Creation c s ka args ss gs map tid) (m : Mem) (junk : Nat → Byte) (tp fn : Nat) :
    cloneArgs (create c m junk ka tp fn args ss gs).calls = some ⟨createFlags, childSp c (map + (createLayout c ss gs).stackTop) args.length,
      handleOf c ss gs map + c.tl.tid, handleOf c ss gs map + c.tl.tid, newTp c ss gs map, fn, args.length⟩ := by
  rw [(H.created m junk tp fn).calls]; rfl

theorem mem_created (H : Creation c s ka args ss gs map tid) (m : Mem) (junk : Nat → Byte) (tp fn : Nat) {g : CloneArgs}
    (hg : cloneArgs (create c m junk ka tp fn args ss gs).calls = some g) :
    (create c m junk ka tp fn args ss gs).mem = kernelClone c.endian (memAtClone c m junk ka tp fn args ss gs) g.flags g.parentTid g.childTid tid := by
  have h1 := H.mmapOk; have h2 := H.mprotectOk; have h3 := H.cloneOk
  revert hg
  unfold memAtClone create
  rw [h1, h2, h3]
  simp only [Int.natCast_nonneg, if_true, cloneArgs, Option.some.injEq]
  rintro rfl
  rw [if_neg (by decide)]
  simp only [kernelClone, show ¬ (0 : Int) ≤ -11 by decide, if_false]

theorem kernelClone_congr {e : Endian} {m m' : Mem} {f p q : Nat} {r : Int} {x : Nat} (h : m x = m' x) :
    kernelClone e m f p q r x = kernelClone e m' f p q r x := by
  have st : ∀ {n a v : Nat} {m m' : Mem}, m x = m' x → stN e n m a v x = stN e n m' a v x := by
    intro n a v m m' h
    simp only [stN]
    split <;> first | rfl | exact h
  unfold kernelClone
  split
  · simp only
    split
    · split
      · exact st (st h)
      · exact st h
    · split
      · exact st h
      · exact h
  · exact h

/-- What is known of the numbers. -/
theorem start_bounds (H : Creation c s ka args ss gs map tid) (hroom : c.ws * args.length + 35 ≤ ss) :
    let sp := childSp c (map + (createLayout c ss gs).stackTop) args.length
    let l := createLayout c ss gs
    map + l.stackBottom + ss ≤ sp + c.ws * args.length + 15 ∧ sp + c.ws * args.length ≤ map + l.stackTop ∧
      l.stackTop < l.stackBottom + ss + 16 ∧ l.stackBottom + ss ≤ l.stackTop ∧
      l.stackTop ≤ l.header ∧ l.header + metaSize c.arch c.tl ≤ l.mapSize ∧ l.stackTop ≤ l.tlsBottom ∧
      l.tlsBottom + c.tls.memSize ≤ l.mapSize ∧ l.mapSize = (areas c ss gs).stop := by
  have P := H.placed
  have b1 := P.bounds.m_le_tls; have b2 := P.bounds.m_le_header; have b3 := P.bounds.tls_in
  have b4 := P.bounds.header_in
  simp only at b1 b2 b3 b4
  have hst := P.ok.st; have hsb := P.ok.sb
  have h1 := le_natRoundUp (x := ss) (b := 16) (by omega)
  have h2 : natRoundUp ss 16 < ss + 16 := by unfold natRoundUp; omega
  have hfit := P.fit
  have es : (createLayout c ss gs).mapSize = (areas c ss gs).stop := by rw [H.layout]
  dsimp only
  rw [childSp_ok (by omega) (by omega)]
  have hd := Nat.div_add_mod (map + (createLayout c ss gs).stackTop - c.ws * args.length) c.arch.stackAlignment
  have hm := Nat.mod_lt (map + (createLayout c ss gs).stackTop - c.ws * args.length) (stackAlignment_pos c.arch)
  have ha : c.arch.stackAlignment ≤ 16 := Nat.le_of_dvd (by decide) (stackAlignment_dvd _)
  rw [Nat.mul_comm] at hd
  generalize (map + (createLayout c ss gs).stackTop - c.ws * args.length) / c.arch.stackAlignment * c.arch.stackAlignment = q at *
  generalize (map + (createLayout c ss gs).stackTop - c.ws * args.length) % c.arch.stackAlignment = r at *
  exact ⟨by omega, by omega, by omega, by omega, by omega, by omega, by omega, by omega, es⟩

theorem inChild_of_newThread (H : Creation c s ka args ss gs map tid) (hroom : c.ws * args.length + 35 ≤ ss) (m : Mem) (junk : Nat → Byte) (tp fn : Nat) {g : CloneArgs}
    (hg : cloneArgs (create c m junk ka tp fn args ss gs).calls = some g) {k : Cpu → (Reg → Nat) × Mem}
    (hk : NewThread c g tid ⟨map, (areas c ss gs).stop⟩ k) : InChild c.arch g k := by
  intro cpu hr
  refine ⟨hk.ret cpu hr, hk.stack cpu hr, hk.regs cpu hr, fun ha => ?_⟩
  rw [cloneArgs_created H m junk tp fn, Option.some.injEq] at hg
  subst hg
  obtain ⟨q1, q2, q3, q4, q5, q6, q7, q8, q9⟩ := start_bounds H hroom
  have hr' := hr
  unfold CloneRequest at hr'
  rw [ha] at hr'
  simp only at hr'
  have e1 : cpu.reg (argReg c.arch 1) + 4 = childSp c (map + (createLayout c ss gs).stackTop) args.length := by
    rw [ha]; exact hr'.2.2.2.1
  have ew : c.arch.ws = 4 := by rw [ha]; rfl
  have hw : (0 : Nat) ≤ c.ws * args.length := Nat.zero_le _
  apply ldN_congr
  intro i hi
  rw [ew] at hi
  rw [hk.mem cpu hr _ (by simp only [Range.Has]; omega)]
  simp only
  rw [kernelClone_ok (by omega)]
  rw [stN_frame, stN_frame]
  all_goals unfold handleOf; omega

end

section
variable {c : Cfg} {s : Space} {ka : Answers} {args : List Nat} {ss gs map tid : Nat}

/-- The canary that a thread with thread pointer `p` gives to threads it creates is the one that compiled code in it uses. -/
theorem canary_addr {p o : Nat} (ho : abiCanaryOffset c.arch = some o) :
    uadd c.ws (currentMetadata c p) (metaOff c.arch c.tl .abi + abiOff c.arch .canary) = (p + o) % 2 ^ (8 * c.arch.ws) := by
  have hoff : abiOff c.arch .canary = abiOff c.arch .pointee + o := by
    revert ho
    rw [abiOff_canary, abiOff_pointee]
    cases c.arch <;> simp [abiCanaryOffset] <;> intro h <;> omega
  unfold currentMetadata uadd uwsub
  rw [BitVec.ofNat_toNat, BitVec.setWidth_eq, hoff, ← Nat.add_assoc, BitVec.ofNat_add _ o, ← BitVec.add_assoc, BitVec.sub_add_cancel,
    ← BitVec.ofNat_add, BitVec.toNat_ofNat]

/-- **C60.**  Let a thread (started as every thread of the process is) call `create(fn, args, ..)`, the system calls succeeding, with a stack that has
room for the arguments and 35 bytes; let `clone`'s machine code run on the memory that `create` has prepared, the caller's own
temporary objects being in memory that it had before; let the kernel make the thread.  Then the new thread enters its entry function, ready: see
`Ready`; `t` is the handle that `create` returns; and the new thread is one of the process, which can itself create threads. -/
theorem C60_thread_start (H : Creation c s ka args ss gs map tid) (he : c.endian = .little) (hroom : c.ws * args.length + 35 ≤ ss)
    (m : Mem) (junk : Nat → Byte) (fn : Nat) {lo : Nat} (hlo : lo + 3 ≤ 8192) {tp : Tp} {p : Nat} (hs : Started c.arch lo tp p) {g : CloneArgs}
    (hg : cloneArgs (create c m junk ka p fn args ss gs).calls = some g) (rf rn : Reg) (hi desc arr : Nat) (cpu : Cpu)
    (hop : Operands c.arch rf rn g desc arr cpu) (htmp : ∀ x, ¬ Spare c.arch desc arr cpu x → s x ≠ .unmapped)
    (hcpu : ∀ x, (⟨map, (areas c ss gs).stop⟩ : Range).Has x → cpu.mem x = memAtClone c m junk ka p fn args ss gs x)
    (k : Cpu → (Reg → Nat) × Mem) (hk : NewThread c g tid ⟨map, (areas c ss gs).stop⟩ k) :
    ∃ t cpu' tp' r, (create c m junk ka p fn args ss gs).res = .ok t ∧
      run c.arch.ws (spReg c.arch) k (cloneCode c.arch rf rn) (cloneSetup c.arch rf rn g hi (readGs tp) desc arr cpu) = .entered cpu' ∧
      cpu'.calls = r :: cpu.calls ∧ childTp c.arch lo tp r.1 r.2 = some tp' ∧ Started c.arch lo tp' g.newtls ∧
      Ready c m tp (spaceAfter c.page s (create c m junk ka p fn args ss gs).calls) fn args ss gs t tid cpu' tp' := by
  obtain ⟨cpu', c1, e1, e2, e3, e4, e5, e6, e7, e8, e9, e10, e11, e12⟩ :=
    C43_clone_child c.arch rf rn g hi (readGs tp) desc arr cpu k hop (inChild_of_newThread H hroom m junk p fn hg hk)
  obtain ⟨r, tp', r1, r2, r3, -⟩ := C51_clone_accepted hlo hs rf rn g hi desc arr cpu k hop
    (by rw [cloneArgs_created H m junk p fn, Option.some.injEq] at hg; rw [← hg]; show createFlags.testBit 19 = true; decide)
  have hmc := mem_created H m junk p fn hg
  have C := H.created m junk p fn
  obtain ⟨q1, q2, q3, q4, q5, q6, q7, q8, q9⟩ := start_bounds H hroom
  have hg' := hg
  rw [cloneArgs_created H m junk p fn, Option.some.injEq] at hg'
  have g2 : g.childStack = childSp c (map + (createLayout c ss gs).stackTop) args.length := by rw [← hg']
  have g3 : g.newtls = newTp c ss gs map := by rw [← hg']
  have g4 : g.fn = fn := by rw [← hg']
  have g5 : g.numArgs = args.length := by rw [← hg']
  -- the new thread's memory
  have M : ∀ x, g.childStack ≤ x → x < map + (createLayout c ss gs).mapSize → cpu'.mem x = (create c m junk ka p fn args ss gs).mem x := by
    intro x h1 h2
    have hin : (⟨map, (areas c ss gs).stop⟩ : Range).Has x := by
      simp only [Range.Has, ← q9]
      have := H.placed.ok.sb
      rw [g2] at h1
      omega
    have hsp : Spare c.arch desc arr cpu x := by
      apply Classical.byContradiction
      intro hn
      apply htmp x hn
      have := le_natRoundUp (x := (areas c ss gs).stop) (b := c.page) (by have := H.cfg.pageMin; omega)
      simp only [Range.Has] at hin
      exact H.kernel.fresh x (by omega) (by omega)
    rw [e11 x h1, hk.mem (atCall c1) e10 x hin, hmc]
    exact kernelClone_congr ((e12 x h1 hsp).trans (hcpu x hin))
  have L : ∀ {n x : Nat}, g.childStack ≤ x → x + n ≤ map + (createLayout c ss gs).mapSize →
      ∀ e, ldN e n cpu'.mem x = ldN e n (create c m junk ka p fn args ss gs).mem x :=
    fun h1 h2 e => ldN_congr fun i hi => M _ (by omega) (by omega)
  have T : ∀ {o n : Nat}, (o, n) ∈ c.tl.extents c.arch → ∀ e, ldN e n cpu'.mem (uadd c.ws (handleOf c ss gs map) o) =
      ldN e n (create c m junk ka p fn args ss gs).mem (uadd c.ws (handleOf c ss gs map) o) := by
    intro o n ho e
    rw [H.handle_add ho]
    have h3 := H.cfg.layout.inside (o, n) ho
    have h2 := (meta_parts c.arch c.tl H.cfg.layout).2.1
    simp only at h3
    unfold handleOf
    exact L (by rw [g2]; omega) (by omega) e
  have hpt' := C51_thread_pointer hlo r3
  have hpt := C51_thread_pointer hlo hs
  obtain ⟨p1, p2, -⟩ := meta_parts c.arch c.tl H.cfg.layout
  have hq : abiOff c.arch .pointee ≤ abiSize c.arch ∧ (c.arch = .x86_64 ∨ c.arch = .x86 → abiOff c.arch .pointee + c.arch.ws ≤ abiSize c.arch) := by
    rw [abiOff_pointee, abiSize_eq]; cases c.arch <;> decide
  have hn1 : map + (createLayout c ss gs).stackTop ≤ newTp c ss gs map := by unfold newTp; omega
  have hn2 : newTp c ss gs map ≤ map + (createLayout c ss gs).mapSize := by unfold newTp; omega
  have hfit := H.placed.fit
  have hlt : g.newtls < 2 ^ (8 * c.arch.ws) := by
    rw [g3]; unfold umax at hfit; simp only [Cfg.ws] at hfit; omega
  have hntp : newThreadPointer (create c m junk ka p fn args ss gs).calls = some g.newtls := by
    rw [newThreadPointer_created H m junk p fn, g3]
  obtain ⟨t1, t2⟩ := C51_created H m junk p fn he hlo hntp r3
  have hcur : Origin.current c g.newtls = handleOf c ss gs map := by
    rw [C.res] at t2
    injection t2 with t2
    exact t2.symm
  refine ⟨handleOf c ss gs map, cpu', tp', r, C.res, e1, by rw [e1] at r1; exact r1, r2, r3, ?_⟩
  refine ⟨e2.trans g4, ?_, e4.trans g5, ⟨e5, e6⟩, ?_, ?_, ?_, ?_, ?_, ?_⟩
  · intro i hi
    have hb : c.ws * i + c.ws ≤ c.ws * args.length := by
      have := Nat.mul_le_mul_left c.ws (show i + 1 ≤ args.length by omega)
      rw [Nat.mul_add] at this; omega
    rw [e3, L (by omega) (by rw [g2]; omega), ← he, g2]
    exact C.argVals i hi (H.argsWords _ (List.getElem_mem hi))
  · intro ha
    apply e7
    have h1 : childStart (create c m junk ka p fn args ss gs).calls = some (g.childStack, fn, args.length) := by rw [C.calls, g2]; rfl
    have := C15_stack_aligned_partial H m junk p fn g.childStack fn args.length ha h1
    have e : stackAlign c.arch = 16 := by revert ha; cases c.arch <;> simp [stackAlign]
    have e' : Origin.Spec.abiStackAlign c.arch = 16 := by revert ha; cases c.arch <;> simp [Origin.Spec.abiStackAlign]
    rw [e'] at this
    rw [e]; omega
  · have h1 : childStart (create c m junk ka p fn args ss gs).calls = some (g.childStack, fn, args.length) := by rw [C.calls, g2]; rfl
    obtain ⟨-, sp', -, h2, -, -, -, -, -, h3⟩ := C15_args H m junk p fn
    rw [h1] at h2
    simp only [Option.some.injEq, Prod.mk.injEq] at h2
    obtain ⟨rfl, -⟩ := h2
    rw [e8.2.2]
    have : 4 ∣ c.arch.stackAlignment := by cases c.arch <;> decide
    exact Nat.mod_eq_zero_of_dvd (Nat.dvd_trans this h3)
  · obtain ⟨t, base, h1, h2, h3, h4, -, h6⟩ := C08_sizes_partial H m junk p fn
    rw [C.res] at h1
    injection h1 with h1
    subst h1
    have hso := stackOf_created H m junk p fn
    have : base = map + (createLayout c ss gs).stackBottom := by
      unfold handleOf at hso
      rw [hso] at h2
      simp only [Prod.mk.injEq, and_true] at h2
      exact h2.symm
    have hpg : c.page ≤ map := Nat.le_of_dvd (Nat.pos_of_ne_zero H.kernel.nonnull) (Nat.dvd_of_mod_eq_zero (Nat.mod_eq_zero_of_dvd H.kernel.aligned))
    have hgs := le_natRoundUp (x := gs) (b := c.page) (by have := H.cfg.pageMin; omega)
    have hsb := H.placed.ok.sb
    refine ⟨base, ?_, by omega, h4, h6, by rw [g2] at e8; omega, by rw [g2] at e8; omega⟩
    rw [this, ← hso]
    unfold stackOf
    rw [T (by simp [ThreadLayout.extents, Cfg.ws]), T (by simp [ThreadLayout.extents, Cfg.ws]), T (by simp [ThreadLayout.extents, Cfg.ws])]
  · refine ⟨g.newtls, ?_, hcur, ?_⟩
    · rw [← t1]
      by_cases hx : c.arch = .x86_64 ∨ c.arch = .x86
      · have e : ∀ mm, threadPointer c.arch mm tp' = (tlsAccess c.arch tp' 0).map (ldN .little c.arch.ws mm) := by
          intro mm; rcases hx with h | h <;> rw [h] <;> rfl
        rw [e, e, hpt' 0 (Nat.two_pow_pos _), Option.map_some, Option.map_some, Nat.add_zero, Nat.mod_eq_of_lt hlt, L (by omega) ?_]
        have := hq.2 hx
        rw [g3]; unfold newTp; omega
      · revert hx; cases c.arch <;> simp [threadPointer]
    · obtain ⟨t, ntp, h1, h2, -, h4, -⟩ := C19_current H m junk p fn
      rw [hntp] at h2
      injection h2 with h2
      subst h2
      rw [← h4]
      unfold currentId
      rw [hcur, T (by simp [ThreadLayout.extents])]
  · intro hcase i hi
    have hlo' := C14_abi_location_partial H m junk p fn g.newtls hntp hcase
    have hb := H.tlsBlock_eq
    have hmem := (C12_tls_fresh H m junk p fn).1 i hi
    rw [hb] at hlo' hmem
    have hnn := H.mapped.nonnull
    unfold umax at hfit
    simp only [Cfg.ws] at hfit
    refine ⟨map + (createLayout c ss gs).tlsBottom + i, ?_, by rw [M _ (by omega) (by omega), hmem]⟩
    rw [hpt' _ (Nat.mod_lt _ (Nat.two_pow_pos _))]
    congr 1
    change (_ + _ % 2 ^ (8 * c.arch.ws)) % _ = _
    rw [Nat.add_mod_mod]
    have hres : map + (createLayout c ss gs).tlsBottom + i < 2 ^ (8 * c.arch.ws) := by omega
    rcases hcase with h | h | ⟨h | h, -⟩ <;> rw [h] at hlo' hres hlt <;> rw [h] <;> simp only [abiTlsStart, abiTlsOffset] at hlo' ⊢
    · generalize natRoundUp c.tls.memSize c.tls.align = R at *
      rw [← Nat.add_assoc, Nat.add_right_comm, Nat.add_mod_mod]
      rw [show g.newtls + i + (2 ^ (8 * Arch.x86_64.ws) - R) = map + (createLayout c ss gs).tlsBottom + i + 2 ^ (8 * Arch.x86_64.ws) by omega,
        Nat.add_mod_right, Nat.mod_eq_of_lt hres]
    · generalize natRoundUp c.tls.memSize c.tls.align = R at *
      rw [← Nat.add_assoc, Nat.add_right_comm, Nat.add_mod_mod]
      rw [show g.newtls + i + (2 ^ (8 * Arch.x86.ws) - R) = map + (createLayout c ss gs).tlsBottom + i + 2 ^ (8 * Arch.x86.ws) by omega,
        Nat.add_mod_right, Nat.mod_eq_of_lt hres]
    · rw [← Nat.add_assoc, ← hlo', Nat.mod_eq_of_lt hres]
    · rw [Nat.zero_add, ← hlo', Nat.mod_eq_of_lt hres]
  · intro o ho
    have hoff : abiOff c.arch .canary = abiOff c.arch .pointee + o := by
      revert ho
      rw [abiOff_canary, abiOff_pointee]
      cases c.arch <;> simp [abiCanaryOffset] <;> intro h <;> omega
    have hoc : abiOff c.arch .canary + c.arch.ws ≤ abiSize c.arch := by
      rw [abiOff_canary, abiSize_eq]; revert ho; cases c.arch <;> simp [abiCanaryOffset, Arch.ws]
    have hold : o < 2 ^ (8 * c.arch.ws) := by
      revert ho; cases c.arch <;> simp [abiCanaryOffset, Arch.ws] <;> omega
    have hx : c.arch = .x86_64 ∨ c.arch = .x86 := by
      revert ho; cases c.arch <;> simp [abiCanaryOffset]
    have hnew : g.newtls + o = map + (createLayout c ss gs).header + (metaOff c.arch c.tl .abi + abiOff c.arch .canary) := by
      rw [g3, hoff]; unfold newTp; omega
    refine ⟨g.newtls + o, (p + o) % 2 ^ (8 * c.arch.ws), ?_, hpt o hold, ?_⟩
    · rw [hpt' o hold, Nat.mod_eq_of_lt (by rw [hnew]; unfold umax at hfit; simp only [Cfg.ws] at hfit; omega)]
    · rw [hnew, L (by rw [g2]; omega) (by simp only [Cfg.ws]; omega), ← he, ← canary_addr (c := c) ho]
      have hmem : ∀ v w, (⟨abiOff c.arch .canary, c.ws, v⟩ : FieldVal) ∈ abiVals c.arch v w := by
        intro v w; rcases hx with h | h <;> simp [abiVals, h, Cfg.ws]
      exact H.abi_field m junk p fn (hmem _ _) (ws_pos _) (BitVec.isLt _)

end
end Origin.Asm

/-! ## Concrete cases -/

namespace Origin.Asm
open Origin Origin.Spec Origin.Asm.Spec

/-- A kernel that makes the new thread. -/
def startKernel (c : Cfg) (g : CloneArgs) (tid : Nat) : Cpu → (Reg → Nat) × Mem := fun cpu =>
  (fun r => if r = retReg c.arch then 0 else if r = spReg c.arch then cpu.reg (argReg c.arch 1) else cpu.reg r,
    kernelClone c.endian cpu.mem g.flags g.parentTid g.childTid tid)

theorem startKernel_ok (c : Cfg) (g : CloneArgs) (tid : Nat) (new : Range) : NewThread c g tid new (startKernel c g tid) where
  ret _ _ := by simp [startKernel]
  stack _ _ := by
    have : spReg c.arch ≠ retReg c.arch := by cases c.arch <;> decide
    simp [startKernel, this]
  regs _ _ r h1 h2 _ := by simp [startKernel, h1, h2]
  mem _ _ _ _ := rfl

/-- An x86 process. -/
def exCfgX86 : Cfg := { exCfgArm with arch := .x86 }

theorem exCfgX86_ok : CfgOk exCfgX86 where
  layout := ⟨by decide, by decide, by decide, by decide⟩
  pagePow := ⟨12, rfl⟩
  pageMin := by decide
  tlsPow := ⟨3, rfl⟩
  tlsAlignLe := by decide
  tlsSizes := by decide
  pageMax := by decide

theorem exCreationX86 : Creation exCfgX86 exSpace { mmap := .ok 0x70000000, mprotect := .ok (), clone := 77 } [5, 6, 7] 0x20000 0x4000 0x70000000 77 where
  cfg := exCfgX86_ok
  fits := by unfold Fits; decide
  mmapOk := rfl
  mprotectOk := rfl
  cloneOk := rfl
  tidPos := by decide
  tidLt := by decide
  kernel :=
    { aligned := by decide, nonnull := by decide, nonempty := by decide, fits := by decide,
      fresh := by
        intro x h1 _
        unfold exSpace
        rw [if_neg (by omega)] }
  argsFit := by decide
  argsWords := by decide
  image := exCreationArm.image

/-- All of C60's hypotheses are met on x86, whose `clone` does most: a process whose main thread has thread pointer `0x400800` (GDT slot 12), and the
caller's stack at `0x400f00`, creates a thread with three arguments; it starts, and its second argument is 6. -/
theorem exReady_x86 (m : Mem) (junk : Nat → Byte) : ∃ tp0 space t cpu' tp', Started .x86 12 tp' (newTp exCfgX86 0x20000 0x4000 0x70000000) ∧
    Ready exCfgX86 m tp0 space 0x1234 [5, 6, 7] 0x20000 0x4000 t 77 cpu' tp' := by
  have hs : Started .x86 12 (setThreadPointer .x86 12 12 0x400300 m ⟨0, 0, fun _ => none⟩ 0x400800).1 0x400800 := .main (by decide) (by decide)
  have hg := cloneArgs_created exCreationX86 m junk 0x400800 0x1234
  have hsp : childSp exCfgX86 (0x70000000 + (createLayout exCfgX86 0x20000 0x4000).stackTop) 3 = 0x70023ff0 := by decide
  let cpu : Cpu := ⟨fun r => if r = 4 then 0x400f00 else 0, memAtClone exCfgX86 m junk ⟨.ok 0x70000000, .ok (), 77⟩ 0x400800 0x1234 [5, 6, 7] 0x20000 0x4000, [], []⟩
  obtain ⟨t, cpu', tp', r, -, -, -, -, h1, R⟩ := C60_thread_start exCreationX86 rfl (by decide) m junk 0x1234 (lo := 12) (by decide) hs hg 5 6 0 0x400100 0x400200 cpu
    { regs := by decide
      words := by decide
      room := by decide
      x86 := fun _ => by simp only [show exCfgX86.arch = .x86 from rfl, List.length_cons, List.length_nil, Nat.zero_add, Nat.reduceAdd, hsp, cpu, if_true,
        show ¬ (5 : Reg) = 4 by decide, show ¬ (6 : Reg) = 4 by decide, if_false]; decide }
    (by
      intro x hx
      unfold exSpace
      rw [if_pos (Classical.byContradiction fun hn => hx fun _ => by
        simp only [cpu, if_true]
        omega)]
      decide)
    (fun _ _ => rfl) _ (startKernel_ok _ _ _ _)
  exact ⟨_, _, t, cpu', tp', h1, R⟩

example (m : Mem) (junk : Nat → Byte) : ∃ cpu' tp', Started .x86 12 tp' (newTp exCfgX86 0x20000 0x4000 0x70000000) ∧ fnArg .x86 cpu' 0 = 0x1234 ∧
    ldN .little 4 cpu'.mem (fnArg .x86 cpu' 1 + 4 * 1) = 6 ∧ tlsAccess .x86 tp' 20 ≠ none := by
  obtain ⟨_, _, t, cpu', tp', h1, R⟩ := exReady_x86 m junk
  refine ⟨cpu', tp', h1, R.fn, R.args 1 (by decide), ?_⟩
  obtain ⟨x, -, hx, -⟩ := R.canary 20 rfl
  rw [show tlsAccess .x86 tp' 20 = some x from hx]
  simp

end Origin.Asm
