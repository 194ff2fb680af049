import Verif.Proof.Spot
/-!
# Thread memory properties: C07, C08, C09, C11, C12 (created threads), C13, C14, C15, C17, C18, C19, C47

Each theorem is about `create` as a whole (`Model/Layout.lean`) and ranges over every configuration
(`CfgOk`), every memory, every kernel answer allowed by `Creation`, all five architectures.
-/

namespace Origin
open Spec

section
variable {c : Cfg} {s : Space} {k : Answers} {args : List Nat} {ss gs map tid : Nat}

/-! ## C07 -/

/-- **C07.** A successful `create` yields a handle; the guard area (from the mapping's start to the
reported stack address), the stack, the TLS block and the record lie inside the one region that was
mapped and are pairwise disjoint; the guard area is inaccessible, the others readable and writable; the
record contains the thread data the handle points to; no permission outside the new region changed. -/
theorem C07_regions (H : Creation c s k args ss gs map tid) (m : Mem) (junk : Nat → Byte) (tp fn : Nat) :
    ∃ t, (create c m junk k tp fn args ss gs).res = .ok t ∧
      ∃ stackAddr, (stackOf c (create c m junk k tp fn args ss gs).mem t).1 = stackAddr ∧
      ∃ len, (∃ rest, (create c m junk k tp fn args ss gs).calls
          = .mmap len .inaccessible (.ok map) :: rest) ∧
      let whole : Range := ⟨map, len⟩
      let guard : Range := ⟨map, stackAddr - map⟩
      let stack : Range := ⟨stackAddr, ss⟩
      let tls := tlsBlock c ss gs map
      let rec' := record c ss gs map
      let space := spaceAfter c.page s (create c m junk k tp fn args ss gs).calls
      map ≤ stackAddr ∧
      guard.In whole ∧ stack.In whole ∧ tls.In whole ∧ rec'.In whole ∧
      guard.Disj stack ∧ guard.Disj tls ∧ guard.Disj rec' ∧ stack.Disj tls ∧ stack.Disj rec' ∧
      tls.Disj rec' ∧
      (⟨t, c.tl.size⟩ : Range).In rec' ∧
      guard.AllPerm space .inaccessible ∧ stack.AllPerm space .readWrite ∧
      tls.AllPerm space .readWrite ∧ rec'.AllPerm space .readWrite ∧
      (∀ x, ¬ (map ≤ x ∧ x < map + natRoundUp len c.page) → space x = s x) := by
  have C := H.created m junk tp fn
  have P := H.placed
  refine ⟨_, C.res, _, rfl, (createLayout c ss gs).mapSize, ⟨_, C.calls⟩, ?_⟩
  have es : (stackOf c (create c m junk k tp fn args ss gs).mem
      (map + (createLayout c ss gs).header + metaOff c.arch c.tl .thread)).1
      = map + (createLayout c ss gs).stackBottom := by
    have := stackOf_created H m junk tp fn
    unfold handleOf at this
    rw [this]
  intro whole guard stack tls rec' space
  have g1 : guard = ⟨map, (createLayout c ss gs).stackBottom⟩ := by
    show (⟨_, _⟩ : Range) = _
    rw [es]; congr 1; omega
  have g2 : stack = ⟨map + (createLayout c ss gs).stackBottom, ss⟩ := by
    show (⟨_, _⟩ : Range) = _
    rw [es]
  have g3 : tls = ⟨map + (createLayout c ss gs).tlsBottom, c.tls.memSize⟩ := by
    show (⟨_, _⟩ : Range) = _
    rw [show map + (areas c ss gs).tls = _ from H.tlsBlock_eq]
  have g4 : rec' = ⟨map + (createLayout c ss gs).header, metaSize c.arch c.tl⟩ := by
    show (⟨_, _⟩ : Range) = _
    rw [show map + (areas c ss gs).record = _ from H.record_eq]
  have hsp : ∀ x, space x = _ := space_created H m junk tp fn
  have b1 := P.bounds.m_le_tls; have b2 := P.bounds.m_le_header; have b3 := P.bounds.tls_in
  have b4 := P.bounds.header_in; have b5 := P.bounds.disj
  simp only at b1 b2 b3 b4 b5
  have hst := P.ok.st; have hsb := P.ok.sb
  have hss := le_natRoundUp (x := ss) (b := 16) (by omega)
  have hpg := H.cfg.pageMin
  have hms := le_natRoundUp (x := (createLayout c ss gs).mapSize) (b := c.page) (by omega)
  have hp := (meta_parts c.arch c.tl H.cfg.layout).2.1
  clear_value guard stack tls rec' space
  subst g1 g2 g3 g4
  rw [es]
  simp only [whole, Range.In, Range.Disj, Range.AllPerm, Range.Has]
  refine ⟨by omega, by omega, by omega, by omega, by omega, by omega, by omega, by omega, by omega,
    by omega, by omega, by omega, ?_, ?_, ?_, ?_, ?_⟩
  · intro x hx; rw [hsp, if_pos (by omega)]
  · intro x hx; rw [hsp, if_neg (by omega), if_pos (by omega)]
  · intro x hx; rw [hsp, if_neg (by omega), if_pos (by omega)]
  · intro x hx; rw [hsp, if_neg (by omega), if_pos (by omega)]
  · intro x hx; rw [hsp, if_neg (by omega), if_neg (by omega)]

/-- **C07.** The protection change `create` asks for is one Linux does not refuse for bad arguments:
its address is page-aligned and its length positive. -/
theorem C07_mprotect_valid (H : Creation c s k args ss gs map tid) (m : Mem) (junk : Nat → Byte) (tp fn : Nat) :
    ∀ a n p r, Sys.mprotect a n p r ∈ (create c m junk k tp fn args ss gs).calls → c.page ∣ a ∧ 0 < n := by
  have C := H.created m junk tp fn
  have P := H.placed
  intro a n p r hmem
  rw [C.calls] at hmem
  simp only [List.mem_cons, reduceCtorEq, Sys.mprotect.injEq, List.not_mem_nil, or_false, false_or] at hmem
  obtain ⟨rfl, rfl, -, -⟩ := hmem
  have b2 := P.bounds.m_le_header; have b4 := P.bounds.header_in
  simp only at b2 b4
  have hst := P.ok.st; have hsb := P.ok.sb
  have := metaSize_pos c.arch c.tl H.cfg.layout
  exact ⟨Nat.dvd_add P.page (hsb ▸ dvd_natRoundUp _ _), by omega⟩

/-! ## C08 -/

/-- **C08 (sizes that do not overflow).** `stack(t)` reports the requested sizes; the reported stack is
readable and writable memory that was not mapped before (so it belongs to nothing else), and the
`guardSize` bytes below it are inaccessible.  Missing for the full claim: sizes so large that rounding
wraps `usize` — there it is false, see `C08_overflow_false`. -/
theorem C08_sizes_partial (H : Creation c s k args ss gs map tid) (m : Mem) (junk : Nat → Byte) (tp fn : Nat) :
    ∃ t addr, (create c m junk k tp fn args ss gs).res = .ok t ∧
      stackOf c (create c m junk k tp fn args ss gs).mem t = (addr, ss, gs) ∧ gs ≤ addr ∧
      let space := spaceAfter c.page s (create c m junk k tp fn args ss gs).calls
      (⟨addr, ss⟩ : Range).AllPerm space .readWrite ∧ (⟨addr, ss⟩ : Range).AllPerm s .unmapped ∧
      (⟨addr - gs, gs⟩ : Range).AllPerm space .inaccessible := by
  have C := H.created m junk tp fn
  have P := H.placed
  refine ⟨_, _, C.res, stackOf_created H m junk tp fn, ?_⟩
  have b1 := P.bounds.m_le_tls; have b3 := P.bounds.tls_in
  simp only at b1 b3
  have hst := P.ok.st; have hsb := P.ok.sb
  have hpg := H.cfg.pageMin
  have hgs := le_natRoundUp (x := gs) (b := c.page) (by omega)
  have hss := le_natRoundUp (x := ss) (b := 16) (by omega)
  have hms := le_natRoundUp (x := (createLayout c ss gs).mapSize) (b := c.page) (by omega)
  refine ⟨by omega, ?_, ?_, ?_⟩
  · intro x hx
    simp only [Range.Has] at hx
    rw [space_created H m junk tp fn, if_neg (by omega), if_pos (by omega)]
  · intro x hx
    simp only [Range.Has] at hx
    exact H.mapped.fresh x (by omega) (by omega)
  · intro x hx
    simp only [Range.Has] at hx
    rw [space_created H m junk tp fn, if_pos (by omega)]

end

theorem roundUp_wraps {ws x : Nat} (hw : ws = 4 ∨ ws = 8) (h1 : umax ws - 16 < x) (h2 : x < umax ws) :
    roundUp ws x 16 = 0 := by
  have hk : 4 < 8 * ws := by omega
  have h16 : (16 : Nat) ≤ umax ws := by rcases hw with rfl | rfl <;> decide
  have := roundUp_gen ws x 4 hk
  rw [show (2:Nat) ^ 4 = 16 from rfl] at this
  rw [this]
  have e : (x + (16 - 1)) % umax ws = x + 15 - umax ws := by
    rw [Nat.mod_eq_sub_mod (by omega), Nat.mod_eq_of_lt (by omega)]
  rw [e, Nat.mod_eq_of_lt (by omega)]
  omega

theorem ws_cases (a : Arch) : a.ws = 4 ∨ a.ws = 8 := by cases a <;> decide

theorem layout_wraps (c : Cfg) (gs ss : Nat) (h1 : umax c.ws - 16 < ss) (h2 : ss < umax c.ws) :
    createLayout c ss gs = createLayout c 0 gs := by
  have e := roundUp_wraps (ws_cases c.arch) h1 h2
  have e0 : roundUp c.ws 0 16 = 0 := by
    unfold Cfg.ws; rcases ws_cases c.arch with h | h <;> rw [h] <;> decide
  unfold createLayout
  simp only [e, e0]

/-- **C08 is false for stack sizes within 15 of `usize::MAX`** (release build): for every configuration, guard size and such stack size, and
whatever the kernel answers, `create` makes exactly the system calls it makes for a stack size of 0, and has the same outcome: no stack at all is
reserved. -/
theorem C08_overflow_false (c : Cfg) (gs ss : Nat) (h1 : umax c.ws - 16 < ss) (h2 : ss < umax c.ws) (m : Mem) (junk : Nat → Byte) (k : Answers)
    (tp fn : Nat) (args : List Nat) :
    (create c m junk k tp fn args ss gs).calls = (create c m junk k tp fn args 0 gs).calls ∧
    (create c m junk k tp fn args ss gs).res = (create c m junk k tp fn args 0 gs).res := by
  unfold create
  rw [layout_wraps c gs ss h1 h2]
  cases k.mmap with
  | error e => exact ⟨rfl, rfl⟩
  | ok map =>
    cases k.mprotect with
    | error e => exact ⟨rfl, rfl⟩
    | ok u =>
      simp only [initializeTls]
      constructor <;> split <;> rfl

section
variable {c : Cfg} {s : Space} {k : Answers} {args : List Nat} {ss gs map tid : Nat}

/-! ## C09 -/

/-- The three fields read when freeing are unchanged between `m` and `m'` (no code writes them after
`create`). -/
def SameFreeFields (c : Cfg) (m m' : Mem) (t : Nat) : Prop :=
  ∀ o, o = c.tl.mapSize ∨ o = c.tl.stackAddr ∨ o = c.tl.guardSize →
    ldN c.endian c.ws m' (uadd c.ws t o) = ldN c.endian c.ws m (uadd c.ws t o)

theorem munmapArgs_created (H : Creation c s k args ss gs map tid) (m m' : Mem) (junk : Nat → Byte)
    (tp fn : Nat)
    (hsame : SameFreeFields c (create c m junk k tp fn args ss gs).mem m' (handleOf c ss gs map)) :
    munmapArgs c m' (handleOf c ss gs map)
      = some (map + (natRoundUp gs c.page - gs), (createLayout c ss gs).mapSize) := by
  have P := H.placed
  have st := stackOf_created H m junk tp fn
  have ms := mapSize_created H m junk tp fn
  unfold stackOf at st
  simp only [Prod.mk.injEq] at st
  have hsb := P.ok.sb; have hst := P.ok.st
  have hpg := H.cfg.pageMin
  have hgs := le_natRoundUp (x := gs) (b := c.page) (by omega)
  have b2 := P.bounds.m_le_header; have b4 := P.bounds.header_in
  simp only at b2 b4
  have hfit := P.fit
  have := metaSize_pos c.arch c.tl H.cfg.layout
  unfold munmapArgs
  simp only [hsame _ (.inl rfl), hsame _ (.inr (.inl rfl)), hsame _ (.inr (.inr rfl)), ms, st.1, st.2.2]
  rw [if_pos (by omega), uwsub_of_le (by omega) (by omega)]
  congr 2; omega

/-- **C09 (guard sizes that are multiples of the page size).** Freeing the thread — from `join`,
`detach`, or its own detached exit — unmaps exactly the address and length that `create` mapped, the
call succeeds, and the address space is exactly as it was before `create`.  Missing for the full claim:
other guard sizes, where it is false (`C09_unaligned_guard_false`). -/
theorem C09_unmap_partial (H : Creation c s k args ss gs map tid) (hg : c.page ∣ gs)
    (m m' : Mem) (junk : Nat → Byte) (tp fn t : Nat)
    (ht : (create c m junk k tp fn args ss gs).res = .ok t)
    (hsame : SameFreeFields c (create c m junk k tp fn args ss gs).mem m' t) :
    ∃ len rest, (create c m junk k tp fn args ss gs).calls = .mmap len .inaccessible (.ok map) :: rest ∧
      freeMemory c m' t = .done [.munmap map len (.ok ())] ∧
      exitDetachedCalls c m' t = [.munmap map len (.ok ())] ∧
      spaceAfter c.page s ((create c m junk k tp fn args ss gs).calls ++ [.munmap map len (.ok ())]) = s := by
  have C := H.created m junk tp fn
  have P := H.placed
  rw [C.res] at ht
  injection ht with ht
  subst ht
  have A := munmapArgs_created H m m' junk tp fn hsame
  unfold handleOf at A
  have hpg := H.cfg.pageMin
  rw [natRoundUp_of_dvd (by omega) hg, Nat.sub_self, Nat.add_zero] at A
  have hk : kernelMunmap c.page map (createLayout c ss gs).mapSize = .ok () := by
    unfold kernelMunmap
    rw [if_pos ⟨Nat.mod_eq_zero_of_dvd P.page, Nat.pos_iff_ne_zero.mp H.mapped.nonempty⟩]
  refine ⟨_, _, C.calls, ?_, ?_, ?_⟩
  · unfold freeMemory
    simp only [A, hk]
  · unfold exitDetachedCalls
    simp only [A, hk]
  · funext x
    have e := space_created H m junk tp fn x
    unfold spaceAfter at e ⊢
    rw [List.foldl_append]
    simp only [List.foldl_cons, List.foldl_nil, applySys, setPerm]
    rw [e]
    have hsb := P.ok.sb; have hst := P.ok.st
    have b2 := P.bounds.m_le_header; have b4 := P.bounds.header_in
    simp only at b2 b4
    have hms := le_natRoundUp (x := (createLayout c ss gs).mapSize) (b := c.page) (by omega)
    by_cases hx : map ≤ x ∧ x < map + natRoundUp (createLayout c ss gs).mapSize c.page
    · rw [if_pos hx, H.mapped.fresh x hx.1 hx.2]
    · rw [if_neg hx, if_neg (by omega), if_neg (by omega)]

/-- **C09 is false for every other guard size**: the address given to `munmap` is not the one `mmap`
returned, it is not page-aligned, so the kernel refuses the call; `join`/`detach` panic, and a detached
thread's exit leaves the whole region mapped. -/
theorem C09_unaligned_guard_false (H : Creation c s k args ss gs map tid) (hg : ¬ c.page ∣ gs)
    (m m' : Mem) (junk : Nat → Byte) (tp fn t : Nat)
    (ht : (create c m junk k tp fn args ss gs).res = .ok t)
    (hsame : SameFreeFields c (create c m junk k tp fn args ss gs).mem m' t) :
    (∃ addr len, addr ≠ map ∧ freeMemory c m' t = .panic [.munmap addr len (.error 22)]) ∧
    spaceAfter c.page s ((create c m junk k tp fn args ss gs).calls ++ exitDetachedCalls c m' t)
      = spaceAfter c.page s (create c m junk k tp fn args ss gs).calls := by
  have C := H.created m junk tp fn
  have P := H.placed
  rw [C.res] at ht
  injection ht with ht
  subst ht
  have A := munmapArgs_created H m m' junk tp fn hsame
  unfold handleOf at A
  have hpg := H.cfg.pageMin
  have hgs := le_natRoundUp (x := gs) (b := c.page) (by omega)
  have hne : natRoundUp gs c.page ≠ gs := fun e => hg ((natRoundUp_eq_iff (by omega)).mp e)
  have hk : kernelMunmap c.page (map + (natRoundUp gs c.page - gs)) (createLayout c ss gs).mapSize
      = .error 22 := by
    unfold kernelMunmap
    rw [if_neg]
    rintro ⟨h1, -⟩
    have h2 := Nat.dvd_of_mod_eq_zero h1
    have h3 := (Nat.dvd_add_right P.page).mp h2
    apply hg
    have h4 : c.page ∣ natRoundUp gs c.page - (natRoundUp gs c.page - gs) :=
      Nat.dvd_sub (dvd_natRoundUp _ _) h3
    rwa [show natRoundUp gs c.page - (natRoundUp gs c.page - gs) = gs by omega] at h4
  refine ⟨⟨map + (natRoundUp gs c.page - gs), (createLayout c ss gs).mapSize, ?_, ?_⟩, ?_⟩
  · omega
  · unfold freeMemory
    simp only [A, hk]
  · unfold exitDetachedCalls
    simp only [A, hk]
    unfold spaceAfter
    rw [List.foldl_append]
    rfl

/-! ## C12 -/

/-- **C12 (created threads).** When `create` returns, the new thread's TLS block holds the initialiser
bytes followed by zeros, whatever the memory held before, and the only memory changed is the new
thread's TLS block, record and argument area — in particular no byte that was mapped before changed, so
no other thread's TLS. -/
theorem C12_tls_fresh (H : Creation c s k args ss gs map tid) (m : Mem) (junk : Nat → Byte) (tp fn : Nat) :
    (∀ i, i < c.tls.memSize →
      (create c m junk k tp fn args ss gs).mem ((tlsBlock c ss gs map).lo + i)
        = if i < c.tls.fileSize then m (c.tls.addr + i) else 0) ∧
    (∀ x, s x ≠ .unmapped → (create c m junk k tp fn args ss gs).mem x = m x) := by
  have C := H.created m junk tp fn
  have P := H.placed
  constructor
  · intro i hi
    rw [H.tlsBlock_eq]
    split
    · next h => exact C.image i h
    · next h => exact C.zeros i (by omega) hi
  · intro x hx
    have b1 := P.bounds.m_le_tls; have b2 := P.bounds.m_le_header; have b3 := P.bounds.tls_in
    have b4 := P.bounds.header_in
    simp only at b1 b2 b3 b4
    have hms := le_natRoundUp (x := (createLayout c ss gs).mapSize) (b := c.page)
      (by have := H.cfg.pageMin; omega)
    have hout : ¬ (map ≤ x ∧ x < map + natRoundUp (createLayout c ss gs).mapSize c.page) :=
      fun h => hx (H.mapped.fresh x h.1 h.2)
    have s1 := H.spLow; have s2 := C.spHigh
    apply C.frame x <;> omega

/-! ## C11 -/

theorem newThreadPointer_created (H : Creation c s k args ss gs map tid) (m : Mem) (junk : Nat → Byte)
    (tp fn : Nat) :
    newThreadPointer (create c m junk k tp fn args ss gs).calls = some (newTp c ss gs map) := by
  rw [(H.created m junk tp fn).calls]
  rfl

/-- **C11 (TLS block).** In every created thread the TLS block, where `create` puts the initialiser bytes and zeros, starts at a multiple of the
`PT_TLS` alignment. -/
theorem C11_tls_aligned (H : Creation c s k args ss gs map tid) (m : Mem) (junk : Nat → Byte) (tp fn : Nat) :
    ∃ a, (∀ i, i < c.tls.memSize →
      (create c m junk k tp fn args ss gs).mem (a + i) = if i < c.tls.fileSize then m (c.tls.addr + i) else 0) ∧
      (tlsBlock c ss gs map).lo = a ∧ c.tls.align ∣ a := by
  refine ⟨_, (C12_tls_fresh H m junk tp fn).1, rfl, ?_⟩
  rw [H.tlsBlock_eq]
  exact spot_tls_aligned H.spot

/-- **C11 (record), exact condition.** The record at `r` (into which the returned handle and the new thread pointer point) is aligned for its type iff
the target is one with TLS data above the record, or the rounded TLS size happens to be a multiple of the record's alignment.
The claim of C11 holds for aarch64, arm and riscv64, and on x86/x86-64 for all `PT_TLS` alignments of at
least the record's (`C11_record_aligned_partial`); it is false on x86/x86-64 otherwise. -/
theorem C11_record_aligned_iff (H : Creation c s k args ss gs map tid) (m : Mem) (junk : Nat → Byte) (tp fn : Nat) :
    ∃ r, (create c m junk k tp fn args ss gs).res = .ok (r + metaOff c.arch c.tl .thread) ∧
      newThreadPointer (create c m junk k tp fn args ss gs).calls = some (r + (metaOff c.arch c.tl .abi + abiOff c.arch .pointee)) ∧
      (record c ss gs map).lo = r ∧
      (metaAlign c.arch ∣ r ↔ (c.arch.variantI = true ∨ metaAlign c.arch ∣ natRoundUp c.tls.memSize c.tls.align)) := by
  refine ⟨_, (H.created m junk tp fn).res, newThreadPointer_created H m junk tp fn, H.record_eq, spot_record_aligned_iff H.spot⟩

/-- **C11 (record), partial.**  Missing: x86/x86-64 with a `PT_TLS` alignment below the record's. -/
theorem C11_record_aligned_partial (H : Creation c s k args ss gs map tid)
    (h : c.arch.variantI = true ∨ metaAlign c.arch ≤ c.tls.align) (m : Mem) (junk : Nat → Byte) (tp fn : Nat) :
    ∃ r, (create c m junk k tp fn args ss gs).res = .ok (r + metaOff c.arch c.tl .thread) ∧ metaAlign c.arch ∣ r := by
  obtain ⟨r, h1, -, -, h2⟩ := C11_record_aligned_iff H m junk tp fn
  refine ⟨r, h1, h2.mpr ?_⟩
  rcases h with h | h
  · exact .inl h
  · exact .inr (Nat.dvd_trans (pow_dvd_of_le (metaAlign_pow _) H.cfg.tlsPow h) (dvd_natRoundUp _ _))

/-! ## C13, C14, C19 -/

theorem tlsOffset_abi (a : Arch) : abiDtvOffset a = a.tlsOffset := by cases a <;> rfl

/-- **C13, exact condition.** On the new thread (thread pointer `ntp`), `current_tls_addr(1, offset)` is
the address of the `offset`-th byte of its TLS block (plus the target's ABI bias, `0x800` on riscv64)
for every offset iff: on x86/x86-64, the TLS size is a multiple of its alignment; elsewhere, the record's size is. -/
theorem C13_tls_addr_iff (H : Creation c s k args ss gs map tid) (m : Mem) (junk : Nat → Byte) (tp fn ntp : Nat)
    (hntp : newThreadPointer (create c m junk k tp fn args ss gs).calls = some ntp) :
    (∀ offset, currentTlsAddr c ntp 1 offset
        = some (((tlsBlock c ss gs map).lo + abiDtvOffset c.arch + offset) % umax c.ws)) ↔
    (if c.arch.variantI then c.tls.align ∣ metaSize c.arch c.tl
     else c.tls.align ∣ c.tls.memSize) := by
  rw [newThreadPointer_created H m junk tp fn] at hntp
  injection hntp with hntp
  subst hntp
  rw [H.tlsBlock_eq, tlsOffset_abi]
  exact spot_tls_addr_iff' H.spot

/-- **C13 (partial).**  Missing: `PT_TLS` sizes that are not a multiple of the alignment on x86/x86-64,
and alignments above the record's on the other targets; see `C13_tls_addr_iff`. -/
theorem C13_tls_addr_partial (H : Creation c s k args ss gs map tid) (m : Mem) (junk : Nat → Byte) (tp fn ntp : Nat)
    (hntp : newThreadPointer (create c m junk k tp fn args ss gs).calls = some ntp)
    (h : if c.arch.variantI then c.tls.align ≤ metaAlign c.arch else c.tls.align ∣ c.tls.memSize) (offset : Nat) :
    currentTlsAddr c ntp 1 offset
        = some (((tlsBlock c ss gs map).lo + abiDtvOffset c.arch + offset) % umax c.ws) := by
  rw [newThreadPointer_created H m junk tp fn] at hntp
  injection hntp with hntp
  subst hntp
  rw [H.tlsBlock_eq, tlsOffset_abi]
  exact spot_tls_addr H.spot h offset

/-- **C13.** Any module number other than 1 panics. -/
theorem C13_other_module (c : Cfg) (tp module offset : Nat) (h : module ≠ 1) :
    currentTlsAddr c tp module offset = none := by
  unfold currentTlsAddr; rw [if_neg h]

/-- **C14, exact condition.** The TLS block of a new thread is where the ELF TLS ABI says, relative to
the new thread pointer `ntp`: always on x86/x86-64; on aarch64 and riscv64 exactly when the ABI's own
location is suitably aligned, i.e. `ntp` is placed so that the ABI offset lands on a multiple of the
`PT_TLS` alignment; on arm, never. -/
theorem C14_abi_location_iff (H : Creation c s k args ss gs map tid) (m : Mem) (junk : Nat → Byte) (tp fn ntp : Nat)
    (hntp : newThreadPointer (create c m junk k tp fn args ss gs).calls = some ntp) :
    (tlsBlock c ss gs map).lo = abiTlsStart c.arch ntp c.tls.memSize c.tls.align ↔
    (match c.arch with
     | .x86_64 | .x86 => True
     | .aarch64 => c.tls.align ∣ ntp + natRoundUp 16 c.tls.align
     | .riscv64 => c.tls.align ∣ ntp
     | .arm => False) := by
  rw [newThreadPointer_created H m junk tp fn] at hntp
  injection hntp with hntp
  subst hntp
  rw [H.tlsBlock_eq]
  exact spot_abi_location_iff H.spot

/-- **C14 (partial).** On x86, x86-64 always, and on aarch64 and riscv64 for `PT_TLS` alignments up to
8, the TLS block is at its ABI location.  Missing: larger alignments on aarch64/riscv64 (true for some
record sizes only), and arm, where it is always false. -/
theorem C14_abi_location_partial (H : Creation c s k args ss gs map tid) (m : Mem) (junk : Nat → Byte)
    (tp fn ntp : Nat)
    (hntp : newThreadPointer (create c m junk k tp fn args ss gs).calls = some ntp)
    (h : c.arch = .x86_64 ∨ c.arch = .x86 ∨ ((c.arch = .aarch64 ∨ c.arch = .riscv64) ∧ c.tls.align ≤ 8)) :
    (tlsBlock c ss gs map).lo = abiTlsStart c.arch ntp c.tls.memSize c.tls.align := by
  rw [newThreadPointer_created H m junk tp fn] at hntp
  injection hntp with hntp
  subst hntp
  rw [H.tlsBlock_eq]
  exact spot_abi_location H.spot h

end

end Origin
