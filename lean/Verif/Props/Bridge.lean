import Verif.Props.Main
/-!
# C50: what `create` asks of the kernel and leaves in the record; the x86 self pointer (C14)

These tie the memory-level model of `create` and `initialize_main` (`Model/Layout.lean`) to what the interleaving model of
the thread lifecycle (`Model/Lifecycle.lean`) starts from.
-/

namespace Origin
open Spec

/-- The bits of a `clone` request (Linux `sched.h`): a thread of this process (`VM` 8, `FS` 9, `FILES` 10, `SIGHAND` 11, `THREAD` 16,
`SYSVSEM` 18) with a thread pointer (`SETTLS` 19), its id stored for the parent (`PARENT_SETTID` 20) and the child (`CHILD_SETTID` 24),
and cleared, with a wake-up, at its exit (`CHILD_CLEARTID` 21). -/
def Spec.threadFlagBits : List Nat := [8, 9, 10, 11, 16, 18, 19, 20, 21, 24]

/-- The `clone` calls among `l`: flags, the two addresses for the id, the thread pointer. -/
def Spec.cloneRequests : List Sys → List (Nat × Nat × Nat × Nat)
  | [] => []
  | .clone f _ p q n _ _ _ :: rest => (f, p, q, n) :: cloneRequests rest
  | _ :: rest => cloneRequests rest

/-- Address of the thread id word of the thread with handle `t`. -/
def Spec.idWord (c : Cfg) (t : Nat) : Nat := t + c.tl.tid

section
variable {c : Cfg} {s : Space} {k : Answers} {args : List Nat} {ss gs map tid : Nat}

theorem createFlags_bits (b : Nat) : createFlags.testBit b = true ↔ b ∈ threadFlagBits := by
  by_cases h : b < 32
  · have : ∀ b : Fin 32, createFlags.testBit b.1 = true ↔ b.1 ∈ threadFlagBits := by decide
    exact this ⟨b, h⟩
  · have h1 : createFlags < 2 ^ b := by
      have : (2:Nat) ^ 32 ≤ 2 ^ b := Nat.pow_le_pow_right (by omega) (by omega)
      have h2 : createFlags < 2 ^ 32 := by decide
      omega
    rw [Nat.testBit_lt_two_pow h1]
    constructor
    · simp
    · intro hm; simp [threadFlagBits] at hm; omega

/-- **C50 (the request).** A successful `create` makes exactly one `clone` call.  Its flags are exactly those of a thread of this process
whose id the kernel stores for both sides and clears at exit; the id goes to (and is cleared in) the id word of the handle that `create`
returns; and the thread pointer is one at which `current()` is that handle. -/
theorem C50_clone_request (H : Creation c s k args ss gs map tid) (m : Mem) (junk : Nat → Byte) (tp fn : Nat) :
    ∃ t flags ntp, (create c m junk k tp fn args ss gs).res = .ok t ∧
      cloneRequests (create c m junk k tp fn args ss gs).calls = [(flags, idWord c t, idWord c t, ntp)] ∧
      (∀ b, flags.testBit b = true ↔ b ∈ threadFlagBits) ∧ current c ntp = t := by
  have C := H.created m junk tp fn
  obtain ⟨t, ntp, h1, h2, h3, -⟩ := C19_current H m junk tp fn
  rw [C.calls] at h2
  simp only [newThreadPointer, Option.some.injEq] at h2
  rw [C.res] at h1
  injection h1 with h1
  refine ⟨t, createFlags, ntp, by rw [C.res, h1], ?_, createFlags_bits, h3⟩
  rw [C.calls]
  simp only [cloneRequests]
  rw [h2, ← h1]
  rfl

/-- **C50 (the record).** When `create` returns, the new thread's record says: id `tid`, not detached, no return value yet, and that
it owns a mapping. -/
theorem C50_record_created (H : Creation c s k args ss gs map tid) (m : Mem) (junk : Nat → Byte) (tp fn : Nat) :
    ∃ t, (create c m junk k tp fn args ss gs).res = .ok t ∧
      ldN c.endian 4 (create c m junk k tp fn args ss gs).mem (idWord c t) = tid ∧
      ldN c.endian 1 (create c m junk k tp fn args ss gs).mem (t + c.tl.detached) = INITIAL ∧
      ldN c.endian c.ws (create c m junk k tp fn args ss gs).mem (t + c.tl.returnValue) = 0 ∧
      ldN c.endian c.ws (create c m junk k tp fn args ss gs).mem (t + c.tl.mapSize) ≠ 0 := by
  have C := H.created m junk tp fn
  have hd := H.cfg.layout.disjointBase
  simp only [ThreadLayout.extents, List.pairwise_cons, List.mem_cons, List.not_mem_nil, or_false,
    forall_eq_or_imp, forall_eq] at hd
  obtain ⟨⟨d0, -, -, -, d4, d5⟩, -⟩ := hd
  have hw := ws_pos c.arch
  refine ⟨_, C.res, ?_, ?_, ?_, ?_⟩
  · have := C.tid
    rw [H.cloneOk, Int.toNat_natCast, Nat.mod_eq_of_lt (by have := H.tidLt; omega)] at this
    exact this
  · exact H.thread_field m junk tp fn (f := ⟨c.tl.detached, 1, INITIAL⟩) (by simp [threadVals])
      (by clear d4 d5; simp only; omega) (by simp only; decide)
  · exact H.thread_field m junk tp fn (f := ⟨c.tl.returnValue, c.ws, 0⟩) (by simp [threadVals])
      (by clear d4 d0; simp only; omega) (by simp only; exact Nat.two_pow_pos _)
  · have := mapSize_created H m junk tp fn
    rw [H.handle_add (o := c.tl.mapSize) (n := c.arch.ws) (by simp [ThreadLayout.extents])] at this
    unfold handleOf at this
    rw [this]
    exact Nat.pos_iff_ne_zero.mp H.mapped.nonempty

/-- **C50 (the id word).** While the kernel's store is in place `id(handle)` is the thread's id; after the kernel's exit-time store of 0 at
the address it was given, `id(handle)` is `None`, and `stack(handle)` and the eventual unmapping are as before. -/
theorem C50_id_cleared (H : Creation c s k args ss gs map tid) (m : Mem) (junk : Nat → Byte) (tp fn t flags ptid ctid ntp : Nat)
    (ht : (create c m junk k tp fn args ss gs).res = .ok t)
    (hc : cloneRequests (create c m junk k tp fn args ss gs).calls = [(flags, ptid, ctid, ntp)]) :
    let m' := (create c m junk k tp fn args ss gs).mem
    let m'' := stN c.endian 4 m' ctid 0
    idOf c m' t = some tid ∧ idOf c m'' t = none ∧ stackOf c m'' t = stackOf c m' t ∧ munmapArgs c m'' t = munmapArgs c m' t := by
  intro m' m''
  have C := H.created m junk tp fn
  obtain ⟨t', ntp', h1, h2, h3, -, h5, -⟩ := C19_current H m junk tp fn
  rw [ht] at h1
  injection h1 with h1
  subst h1
  rw [C.res] at ht
  injection ht with ht
  have et : t = handleOf c ss gs map := by rw [← ht]; rfl
  rw [C.calls] at hc
  simp only [cloneRequests, List.cons.injEq, Prod.mk.injEq, and_true] at hc
  have ec : ctid = handleOf c ss gs map + c.tl.tid := by rw [← hc.2.2.1]; rfl
  have hd := H.cfg.layout.disjointBase
  simp only [ThreadLayout.extents, List.pairwise_cons, List.mem_cons, List.not_mem_nil, or_false,
    forall_eq_or_imp, forall_eq] at hd
  obtain ⟨⟨-, d1, d2, d3, d4, -⟩, -⟩ := hd
  have rd : ∀ o, (o, c.arch.ws) ∈ c.tl.extents c.arch → (c.tl.tid + 4 ≤ o ∨ o + c.arch.ws ≤ c.tl.tid) →
      ldN c.endian c.ws m'' (uadd c.ws t o) = ldN c.endian c.ws m' (uadd c.ws t o) := by
    intro o ho hdis
    rw [et, H.handle_add (o := o) (n := c.arch.ws) ho]
    show ldN c.endian c.ws (stN c.endian 4 m' ctid 0) _ = _
    rw [ec, ldN_stN_disj]
    show (_ : Nat) ≤ _ ∨ _ ≤ (_ : Nat)
    simp only [Cfg.ws]
    omega
  have r1 := rd c.tl.stackAddr (by simp [ThreadLayout.extents]) d1
  have r2 := rd c.tl.stackSize (by simp [ThreadLayout.extents]) d2
  have r3 := rd c.tl.guardSize (by simp [ThreadLayout.extents]) d3
  have r4 := rd c.tl.mapSize (by simp [ThreadLayout.extents]) d4
  refine ⟨h5, ?_, ?_, ?_⟩
  · unfold idOf
    rw [et, H.handle_add (o := c.tl.tid) (n := 4) (by simp [ThreadLayout.extents])]
    show (if ldN c.endian 4 (stN c.endian 4 m' ctid 0) _ = 0 then _ else _) = _
    rw [ec, ldN_stN_same]
    simp
  · unfold stackOf; rw [r1, r2, r3]
  · unfold munmapArgs; rw [r1, r3, r4]

/-! ## the main thread -/

variable {i : MainIn} {lim : Nat}

/-- **C50 (main thread).** After startup the main thread's record says: its id, not detached, no return value, and that it owns no
mapping, so that freeing it unmaps nothing. -/
theorem C50_main_record (H : MainStart c s i lim) {m : Mem} {junk : Nat → Byte} {out : MainOut}
    (ho : initializeMain c m junk i = some out) :
    let t := current c out.tp
    out.tidAddr = idWord c t ∧ ldN c.endian 4 out.mem (idWord c t) = i.tid ∧
    ldN c.endian 1 out.mem (t + c.tl.detached) = INITIAL ∧ ldN c.endian c.ws out.mem (t + c.tl.returnValue) = 0 ∧
    freeMemory c out.mem t = .done [] ∧ exitDetachedCalls c out.mem t = [] := by
  intro t
  obtain ⟨out', h1, O⟩ := H.ok m junk
  rw [ho] at h1
  injection h1 with h1
  subst h1
  have et : t = mainHandle c i := by show current c out.tp = _; rw [O.tp, main_current H]
  have e : out.tidAddr = mainHandle c i + c.tl.tid := by rw [O.tidAddr]; rfl
  have hd := H.cfg.layout.disjointBase
  simp only [ThreadLayout.extents, List.pairwise_cons, List.mem_cons, List.not_mem_nil, or_false,
    forall_eq_or_imp, forall_eq] at hd
  obtain ⟨⟨d0, -, -, -, d4, d5⟩, -⟩ := hd
  have hw := ws_pos c.arch
  have rd : ∀ f ∈ threadVals c.arch c.tl (natRoundUp i.execfnEnd c.page - lim)
      (natRoundUp i.execfnEnd c.page - lim + umax c.ws - i.sp) c.page 0, f.off ≠ c.tl.tid → f.val < 2 ^ (8 * f.size) →
      ldN c.endian f.size out.mem (mainHandle c i + f.off) = f.val := by
    intro f hf hne hv
    have := O.fields { f with off := metaOff c.arch c.tl .thread + f.off }
      (by
        unfold metaVals
        apply List.mem_append_right
        exact List.mem_map.mpr ⟨f, hf, rfl⟩)
      (by simp only; omega)
    simp only at this
    rw [Nat.mod_eq_of_lt hv] at this
    rw [← this, mainHandle, Nat.add_assoc]
  have hms : ldN c.endian c.ws out.mem (uadd c.ws (mainHandle c i) c.tl.mapSize) = 0 := by
    rw [main_handle_add H (o := c.tl.mapSize) (n := c.arch.ws) (by simp [ThreadLayout.extents])]
    exact rd ⟨c.tl.mapSize, c.ws, 0⟩ (by simp [threadVals]) (by clear d0 d5; simp only; omega) (by simp only; exact Nat.two_pow_pos _)
  have hmm : munmapArgs c out.mem t = none := by
    unfold munmapArgs
    rw [et, hms]
    simp
  refine ⟨by rw [et, e]; rfl, ?_, ?_, ?_, ?_, ?_⟩
  · have ht := O.tid
    rw [e, Nat.mod_eq_of_lt (by have := H.tidLt; omega)] at ht
    rw [et]; exact ht
  · rw [et]; exact rd ⟨c.tl.detached, 1, INITIAL⟩ (by simp [threadVals]) (by clear d4 d5; simp only; omega) (by simp only; decide)
  · rw [et]; exact rd ⟨c.tl.returnValue, c.ws, 0⟩ (by simp [threadVals]) (by clear d4 d0; simp only; omega) (by simp only; exact Nat.two_pow_pos _)
  · unfold freeMemory; rw [hmm]
  · unfold exitDetachedCalls; rw [hmm]

/-! ## the x86 self pointer -/

/-- **C14 (self pointer).** On x86-64 and x86, where compiled code finds the thread pointer's value by loading the word it points to
(`%fs:0`, `%gs:0`), that word holds it, in every created thread. -/
theorem C14_self_pointer (H : Creation c s k args ss gs map tid) (m : Mem) (junk : Nat → Byte) (tp fn : Nat)
    (ha : c.arch = .x86_64 ∨ c.arch = .x86) :
    ∃ ntp, newThreadPointer (create c m junk k tp fn args ss gs).calls = some ntp ∧
      ldN c.endian c.ws (create c m junk k tp fn args ss gs).mem ntp = ntp := by
  have C := H.created m junk tp fn
  refine ⟨newTp c ss gs map, by rw [C.calls]; rfl, ?_⟩
  have hlt : newTp c ss gs map < 2 ^ (8 * c.ws) := by
    have h1 := H.record_lt
    obtain ⟨p1, -, -⟩ := meta_parts c.arch c.tl H.cfg.layout
    have hpt : abiOff c.arch .pointee ≤ abiSize c.arch := by
      rw [abiOff_pointee, abiSize_eq]; cases c.arch <;> decide
    unfold newTp umax at *
    omega
  have := H.abi_field m junk tp fn (f := ⟨abiOff c.arch .this, c.ws, newTp c ss gs map⟩)
    (by rcases ha with h | h <;> simp [abiVals, h, Cfg.ws]) (by simp only; exact ws_pos _) hlt
  simp only at this
  have e : abiOff c.arch .this = abiOff c.arch .pointee := by rcases ha with h | h <;> rw [h] <;> decide
  rw [e] at this
  exact this

/-- **C14 (self pointer), main thread.** -/
theorem C14_main_self_pointer (H : MainStart c s i lim) {m : Mem} {junk : Nat → Byte} {out : MainOut}
    (ho : initializeMain c m junk i = some out) (ha : c.arch = .x86_64 ∨ c.arch = .x86) :
    ldN c.endian c.ws out.mem out.tp = out.tp := by
  obtain ⟨out', h1, O⟩ := H.ok m junk
  rw [ho] at h1
  injection h1 with h1
  subst h1
  have hlt := (spotTp_facts H.spot).1
  have ht := H.cfg.layout.inside (c.tl.tid, 4) (by simp [ThreadLayout.extents])
  have hp := (meta_parts c.arch c.tl H.cfg.layout).2.2
  have hb := (abiVals_ok c.arch i.random out.tp).1 ⟨abiOff c.arch .this, c.ws, out.tp⟩
    (by rcases ha with h | h <;> simp [abiVals, h, Cfg.ws])
  have := O.fields ⟨metaOff c.arch c.tl .abi + abiOff c.arch .this, c.ws, out.tp⟩
    (by
      unfold metaVals
      apply List.mem_append_left
      exact List.mem_map.mpr ⟨⟨abiOff c.arch .this, c.ws, out.tp⟩, by rcases ha with h | h <;> simp [abiVals, h, Cfg.ws], rfl⟩)
    (by have := ws_pos c.arch; simp only [Cfg.ws] at *; omega)
  simp only at this
  rw [Nat.mod_eq_of_lt (by rw [O.tp]; exact hlt)] at this
  have e : abiOff c.arch .this = abiOff c.arch .pointee := by rcases ha with h | h <;> rw [h] <;> decide
  rw [e] at this
  have e2 : out.tp = i.map + (calculateTlsSize c 0).header + (metaOff c.arch c.tl .abi + abiOff c.arch .pointee) := O.tp
  rw [← e2] at this
  exact this

end

/-! ## Non-vacuity -/

/-- A concrete creation: one `clone`, with the id word inside the new mapping. -/
example : ∃ t flags ntp, (create exCfg (fun _ => 0) (fun _ => 0) exAnswers 0 0x401000 [1, 0, 0xdeadbeef] 0x20000 0x4000).res = .ok t ∧
    cloneRequests (create exCfg (fun _ => 0) (fun _ => 0) exAnswers 0 0x401000 [1, 0, 0xdeadbeef] 0x20000 0x4000).calls
      = [(flags, idWord exCfg t, idWord exCfg t, ntp)] ∧
    (∀ b, flags.testBit b = true ↔ b ∈ threadFlagBits) ∧ current exCfg ntp = t :=
  C50_clone_request exCreation _ _ _ _

/-- The main thread of `exMain`. -/
example : ∃ out, initializeMain exCfg (fun _ => 0) (fun _ => 0) exMain = some out ∧
    freeMemory exCfg out.mem (current exCfg out.tp) = .done [] := by
  obtain ⟨out, h, -⟩ := exMain_ok.ok (fun _ => 0) (fun _ => 0)
  exact ⟨out, h, (C50_main_record exMain_ok h).2.2.2.2.1⟩

end Origin
