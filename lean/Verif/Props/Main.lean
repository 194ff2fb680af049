import Verif.Props.Layout2
import Verif.Model.History
/-!
# The main thread, and histories: C10, C11–C14 and C19 for the main thread, C16, C27 (addresses)
-/

namespace Origin
open Spec

section
variable {c : Cfg} {s : Space} {i : MainIn} {lim : Nat}

theorem Spec.MainStart.layout (H : MainStart c s i lim) :
    calculateTlsSize c 0 = ⟨(mainAreas c).stop, (mainAreas c).tls, (mainAreas c).record⟩ := by
  refine calculateTlsSize_eq H.cfg (lo := 0) ?_
  have := H.kernel.fits
  have := le_natRoundUp (x := (mainAreas c).stop) (b := c.page) (by have := H.cfg.pageMin; omega)
  show (mainAreas c).stop < _
  omega

/-- The kernel's answer, in terms of what `initialize_main` asked for. -/
theorem Spec.MainStart.mapped (H : MainStart c s i lim) : MmapOk c s (calculateTlsSize c 0).mapSize i.map := by
  rw [H.layout]; exact H.kernel

theorem Spec.MainStart.spot (H : MainStart c s i lim) : Spot c i.map 0 (calculateTlsSize c 0) := by
  have := H.mapped.fits
  have := le_natRoundUp (x := (calculateTlsSize c 0).mapSize) (b := c.page) (by have := H.cfg.pageMin; omega)
  refine ⟨H.cfg, calculateTlsSize_ok H.cfg (lo := 0) ?_, H.kernel.aligned, by omega⟩
  have e := H.layout
  rw [e] at this
  simp only at this
  show (mainAreas c).stop < _
  have := H.kernel.fits
  omega

theorem Spec.MainStart.tls_eq (H : MainStart c s i lim) : (mainTlsBlock c i.map).lo = i.map + (calculateTlsSize c 0).tlsBottom := by
  rw [H.layout]; rfl

theorem Spec.MainStart.record_eq (H : MainStart c s i lim) : (mainRecord c i.map).lo = i.map + (calculateTlsSize c 0).header := by
  rw [H.layout]; rfl

/-- Everything about `initialize_main`. -/
structure MainOk (c : Cfg) (m : Mem) (i : MainIn) (lim : Nat) (out : MainOut) : Prop where
  guardVar : out.guardVar = i.random
  tp : out.tp = spotTp c i.map (calculateTlsSize c 0)
  calls : out.calls = [.mmap (calculateTlsSize c 0).mapSize .readWrite (.ok i.map)]
  tidAddr : out.tidAddr = i.map + (calculateTlsSize c 0).header + metaOff c.arch c.tl .thread + c.tl.tid
  tid : ldN c.endian 4 out.mem out.tidAddr = i.tid % 2 ^ 32
  fields : ∀ f ∈ metaVals c.arch c.tl i.random out.tp (natRoundUp i.execfnEnd c.page - lim)
      (natRoundUp i.execfnEnd c.page - lim + umax c.ws - i.sp) c.page 0,
    f.off ≠ metaOff c.arch c.tl .thread + c.tl.tid →
    ldN c.endian f.size out.mem (i.map + (calculateTlsSize c 0).header + f.off) = f.val % 2 ^ (8 * f.size)
  image : ∀ j, j < c.tls.fileSize →
    out.mem (i.map + (calculateTlsSize c 0).tlsBottom + j) = m (c.tls.addr + j)
  zeros : ∀ j, c.tls.fileSize ≤ j → j < c.tls.memSize →
    out.mem (i.map + (calculateTlsSize c 0).tlsBottom + j) = 0
  frame : ∀ x, (x < i.map ∨ i.map + (calculateTlsSize c 0).mapSize ≤ x) → out.mem x = m x

theorem Spec.MainStart.ok (H : MainStart c s i lim) (m : Mem) (junk : Nat → Byte) :
    ∃ out, initializeMain c m junk i = some out ∧ MainOk c m i lim out := by
  have S := H.spot
  obtain ⟨t, ht⟩ : ∃ t, calculateTlsSize c 0 = t := ⟨_, rfl⟩
  have K := H.mapped
  rw [ht] at S K
  have B := S.ok.bounds H.cfg
  have hfit := S.fit
  have B3 := B.tls_in; have B4 := B.header_in; have B5 := B.disj
  have hpg := H.cfg.pageMin
  obtain ⟨kp, hkp⟩ := H.cfg.pagePow
  have htop := H.topFits
  have hbase : roundUp c.ws i.execfnEnd c.page = natRoundUp i.execfnEnd c.page := roundUp_eq hkp (by omega)
  have hlt := natRoundUp_lt (x := i.execfnEnd) (b := c.page) (by omega)
  have h1 := H.limitLe; have h2 := H.spLow; have h3 := H.spHigh
  have u1 : uwsub c.ws (natRoundUp i.execfnEnd c.page) lim = natRoundUp i.execfnEnd c.page - lim :=
    uwsub_of_le (by omega) h1
  have u2 : uwsub c.ws (natRoundUp i.execfnEnd c.page - lim) i.sp
      = natRoundUp i.execfnEnd c.page - lim + umax c.ws - i.sp := uwsub_of_gt h2 (by omega)
  have u3 : uadd c.ws i.map t.tlsBottom = i.map + t.tlsBottom := uadd_of_lt (by omega)
  have u4 : uadd c.ws i.map t.header = i.map + t.header := uadd_of_lt (by omega)
  have himg : ∀ j, j < c.tls.fileSize → c.tls.addr + j < i.map + t.header ∨
      i.map + t.header + metaSize c.arch c.tl ≤ c.tls.addr + j := by
    intro j hj
    have q1 := H.image j hj
    have q3 := le_natRoundUp (x := t.mapSize) (b := c.page) (by omega)
    by_cases hin : c.tls.addr + j < i.map + t.header
    · exact .inl hin
    · by_cases hin2 : i.map + t.header + metaSize c.arch c.tl ≤ c.tls.addr + j
      · exact .inr hin2
      · exact absurd (K.fresh _ (by omega) (by omega)) q1
  have I := initializeTls_ok H.cfg.layout H.cfg.tlsSizes m junk (tlsD := i.map + t.tlsBottom)
    (md := i.map + t.header) i.random (natRoundUp i.execfnEnd c.page - lim)
    (natRoundUp i.execfnEnd c.page - lim + umax c.ws - i.sp) c.page 0 (by omega) (by omega) (by omega) himg
  obtain ⟨i1, i2, i3⟩ := I
  refine ⟨_, by unfold initializeMain; simp only [H.limitIs, hbase, u1, u2, ht, u3, u4, i1, i2]; rfl, ?_⟩
  obtain ⟨p1, p2, p3⟩ := meta_parts c.arch c.tl H.cfg.layout
  have htid : c.tl.tid + 4 ≤ c.tl.size := H.cfg.layout.inside (c.tl.tid, 4) (by simp [ThreadLayout.extents])
  constructor
  · rfl
  · rw [ht]; rfl
  · rw [ht]
  · rw [ht]
  · simp only [ldN_stN_same]
  · intro f hf hne
    rw [ht]
    obtain ⟨v1, v2⟩ := metaVals_ok c.arch c.tl H.cfg.layout i.random
      (i.map + t.header + (metaOff c.arch c.tl .abi + abiOff c.arch .pointee))
      (natRoundUp i.execfnEnd c.page - lim) (natRoundUp i.execfnEnd c.page - lim + umax c.ws - i.sp) c.page 0
    have hf' : f ∈ metaVals c.arch c.tl i.random
      (i.map + t.header + (metaOff c.arch c.tl .abi + abiOff c.arch .pointee))
      (natRoundUp i.execfnEnd c.page - lim) (natRoundUp i.execfnEnd c.page - lim + umax c.ws - i.sp) c.page 0 := hf
    rw [← i3.fields f hf']
    have hmem : (⟨metaOff c.arch c.tl .thread + c.tl.tid, 4, 0⟩ : FieldVal) ∈ metaVals c.arch c.tl i.random
      (i.map + t.header + (metaOff c.arch c.tl .abi + abiOff c.arch .pointee))
      (natRoundUp i.execfnEnd c.page - lim) (natRoundUp i.execfnEnd c.page - lim + umax c.ws - i.sp) c.page 0 := by
      unfold metaVals
      apply List.mem_append_right
      unfold shiftVals threadVals
      simp
    have hd := disj_of_pairwise v2 hf' hmem hne
    simp only at hd
    apply ldN_congr
    intro j hj
    dsimp only
    rw [stN_frame (by omega)]
  · intro j hj
    have := H.cfg.tlsSizes
    rw [ht]
    dsimp only
    rw [stN_frame (by omega), i3.image j hj]
  · intro j q1 q2
    rw [ht]
    dsimp only
    rw [stN_frame (by omega), i3.zeros j q1 q2]
  · intro x hx
    rw [ht] at hx
    have hM : t.mapSize = t.mapSize := rfl
    have b0 := B.m_le_header
    dsimp only
    rw [stN_frame (by omega), i3.frame x (by omega) (by omega)]

/-- Handle of the main thread. -/
def mainHandle (c : Cfg) (i : MainIn) : Nat :=
  i.map + (calculateTlsSize c 0).header + metaOff c.arch c.tl .thread

theorem main_current (H : MainStart c s i lim) :
    current c (spotTp c i.map (calculateTlsSize c 0)) = mainHandle c i := by
  have S := H.spot
  have hfit := S.fit
  have := (S.ok.bounds H.cfg).header_in
  obtain ⟨p1, p2, -⟩ := meta_parts c.arch c.tl H.cfg.layout
  have hp : abiOff c.arch .pointee ≤ abiSize c.arch := by
    rw [abiOff_pointee, abiSize_eq]; cases c.arch <;> decide
  have hq : c.tl.tid + 4 ≤ c.tl.size :=
    H.cfg.layout.inside (c.tl.tid, 4) (by simp [ThreadLayout.extents])
  unfold current currentMetadata threadAddr spotTp mainHandle
  rw [uwsub_of_le (by omega) (by omega), uadd_of_lt (by omega)]
  omega

theorem main_handle_add (H : MainStart c s i lim) {o n : Nat} (ho : (o, n) ∈ c.tl.extents c.arch) :
    uadd c.ws (mainHandle c i) o = mainHandle c i + o := by
  have S := H.spot
  have hfit := S.fit
  have := (S.ok.bounds H.cfg).header_in
  have h2 := (meta_parts c.arch c.tl H.cfg.layout).2.1
  have h3 := H.cfg.layout.inside (o, n) ho
  unfold mainHandle
  exact uadd_of_lt (by simp only at *; omega)

theorem main_stackOf (H : MainStart c s i lim) {m : Mem} {junk : Nat → Byte} {out : MainOut}
    (ho : initializeMain c m junk i = some out) :
    stackOf c out.mem (mainHandle c i) =
      (natRoundUp i.execfnEnd c.page - lim, umax c.ws - (i.sp - (natRoundUp i.execfnEnd c.page - lim)), c.page) := by
  obtain ⟨out', h1, O⟩ := H.ok m junk
  rw [ho] at h1
  injection h1 with h1
  subst h1
  have hd := H.cfg.layout.disjointBase
  simp only [ThreadLayout.extents, List.pairwise_cons, List.mem_cons, List.not_mem_nil, or_false,
    forall_eq_or_imp, forall_eq] at hd
  obtain ⟨⟨-, d1, d2, d3, d4, -⟩, -⟩ := hd
  have hw := ws_pos c.arch
  have q1 := H.topFits
  have q2 := natRoundUp_lt (x := i.execfnEnd) (b := c.page) (by have := H.cfg.pageMin; omega)
  have q3 := H.limitLe; have q4 := H.spLow; have q5 := H.spHigh
  unfold stackOf
  rw [main_handle_add H (o := c.tl.stackAddr) (n := c.arch.ws) (by simp [ThreadLayout.extents]),
    main_handle_add H (o := c.tl.stackSize) (n := c.arch.ws) (by simp [ThreadLayout.extents]),
    main_handle_add H (o := c.tl.guardSize) (n := c.arch.ws) (by simp [ThreadLayout.extents])]
  have rd : ∀ o v, (⟨o, c.ws, v⟩ : FieldVal) ∈ threadVals c.arch c.tl (natRoundUp i.execfnEnd c.page - lim)
      (natRoundUp i.execfnEnd c.page - lim + umax c.ws - i.sp) c.page 0 → o ≠ c.tl.tid → v < umax c.ws →
      ldN c.endian c.ws out.mem (mainHandle c i + o) = v := by
    intro o v hmem hne hv
    have := O.fields ⟨metaOff c.arch c.tl .thread + o, c.ws, v⟩
      (by
        unfold metaVals
        apply List.mem_append_right
        exact List.mem_map.mpr ⟨_, hmem, rfl⟩) (by simp only; omega)
    simp only at this
    rw [Nat.mod_eq_of_lt (show v < 2 ^ (8 * c.ws) from hv)] at this
    rw [← this, mainHandle, Nat.add_assoc]
  have e : umax c.ws - (i.sp - (natRoundUp i.execfnEnd c.page - lim))
      = natRoundUp i.execfnEnd c.page - lim + umax c.ws - i.sp := by omega
  rw [rd c.tl.stackAddr (natRoundUp i.execfnEnd c.page - lim) (by simp [threadVals]) (by omega) (by omega),
    rd c.tl.stackSize (natRoundUp i.execfnEnd c.page - lim + umax c.ws - i.sp) (by simp [threadVals])
      (by clear d1 d3 d4; omega) (by omega),
    rd c.tl.guardSize c.page (by simp [threadVals]) (by clear d1 d2 d4; omega) (by omega), e]

/-! ## C10 -/

/-- **C10 is false.** For every process start with a limited stack, the size `stack(main thread)`
reports is `2^w - (sp - lowest)`: the (negative) difference taken the wrong way round.  It is never the
stack's size: adding it to the lowest address wraps around, i.e. the sum is at least `2^w` (as soon as
the stack is not in the lowest part of the address space), where the property demands a sum above `sp`
and below `2^w`. -/
theorem C10_main_stack_false (H : MainStart c s i lim) {m : Mem} {junk : Nat → Byte} {out : MainOut}
    (ho : initializeMain c m junk i = some out) :
    ∃ lowest size guard, stackOf c out.mem (current c out.tp) = (lowest, size, guard) ∧
      lowest < i.sp ∧ size = umax c.ws - (i.sp - lowest) ∧
      (i.sp - lowest < lowest → umax c.ws < lowest + size) := by
  obtain ⟨out', h1, O⟩ := H.ok m junk
  have ho' := ho
  rw [ho] at h1
  injection h1 with h1
  subst h1
  rw [O.tp, main_current H]
  refine ⟨_, _, _, main_stackOf H ho, H.spLow, rfl, ?_⟩
  intro h
  have q1 := H.topFits
  have q2 := natRoundUp_lt (x := i.execfnEnd) (b := c.page) (by have := H.cfg.pageMin; omega)
  have q5 := H.spHigh
  omega

/-- **C10 (what holds).** The reported lowest address is the top of the main stack minus the soft limit,
below the initial stack pointer, and the reported guard is one page.  Missing: the size, which is wrong
(`C10_main_stack_false`). -/
theorem C10_main_stack_partial (H : MainStart c s i lim) {m : Mem} {junk : Nat → Byte} {out : MainOut}
    (ho : initializeMain c m junk i = some out) :
    (stackOf c out.mem (current c out.tp)).1 = natRoundUp i.execfnEnd c.page - lim ∧
    (stackOf c out.mem (current c out.tp)).1 < i.sp ∧
    (stackOf c out.mem (current c out.tp)).2.2 = c.page := by
  obtain ⟨out', h1, O⟩ := H.ok m junk
  have ho' := ho
  rw [ho] at h1
  injection h1 with h1
  subst h1
  rw [O.tp, main_current H, main_stackOf H ho]
  exact ⟨rfl, H.spLow, rfl⟩

/-- **C10 (startup panic).** With an unlimited stack (`ulimit -s unlimited`) startup panics. -/
theorem C10_unlimited_panics (c : Cfg) (m : Mem) (junk : Nat → Byte) (i : MainIn) (h : i.stackLimit = none) :
    initializeMain c m junk i = none := by
  unfold initializeMain; simp [h]

/-! ## C11–C14, C19 on the main thread -/

/-- **C12 (main thread).** Its TLS block holds the initialiser and zeros; nothing mapped before
changes. -/
theorem C12_main_tls (H : MainStart c s i lim) {m : Mem} {junk : Nat → Byte} {out : MainOut}
    (ho : initializeMain c m junk i = some out) :
    (∀ j, j < c.tls.memSize → out.mem ((mainTlsBlock c i.map).lo + j)
      = if j < c.tls.fileSize then m (c.tls.addr + j) else 0) ∧
    (∀ x, s x ≠ .unmapped → out.mem x = m x) := by
  obtain ⟨out', h1, O⟩ := H.ok m junk
  rw [ho] at h1
  injection h1 with h1
  subst h1
  constructor
  · intro j hj
    rw [H.tls_eq]
    split
    · next h => exact O.image j h
    · next h => exact O.zeros j (by omega) hj
  · intro x hx
    have hms := le_natRoundUp (x := (calculateTlsSize c 0).mapSize) (b := c.page)
      (by have := H.cfg.pageMin; omega)
    apply O.frame
    by_cases h1 : x < i.map
    · exact .inl h1
    · by_cases h2 : i.map + (calculateTlsSize c 0).mapSize ≤ x
      · exact .inr h2
      · exact absurd (H.mapped.fresh x (by omega) (by omega)) hx

/-- **C11 (main thread).** -/
theorem C11_main_aligned (H : MainStart c s i lim) {m : Mem} {junk : Nat → Byte} {out : MainOut} (ho : initializeMain c m junk i = some out) :
    (∃ a, (∀ j, j < c.tls.memSize → out.mem (a + j) = if j < c.tls.fileSize then m (c.tls.addr + j) else 0) ∧ (mainTlsBlock c i.map).lo = a ∧
      c.tls.align ∣ a) ∧
    (∃ r, out.tp = r + (metaOff c.arch c.tl .abi + abiOff c.arch .pointee) ∧ (mainRecord c i.map).lo = r ∧
      (metaAlign c.arch ∣ r ↔ (c.arch.variantI = true ∨ metaAlign c.arch ∣ natRoundUp c.tls.memSize c.tls.align))) := by
  refine ⟨⟨_, (C12_main_tls H ho).1, rfl, ?_⟩, _, ?_, H.record_eq, spot_record_aligned_iff H.spot⟩
  · rw [H.tls_eq]; exact spot_tls_aligned H.spot
  · obtain ⟨out', h1, O⟩ := H.ok m junk
    rw [ho] at h1
    injection h1 with h1
    subst h1
    exact O.tp

/-- **C13 (main thread), exact condition.** -/
theorem C13_main_tls_addr_iff (H : MainStart c s i lim) {m : Mem} {junk : Nat → Byte} {out : MainOut}
    (ho : initializeMain c m junk i = some out) :
    (∀ offset, currentTlsAddr c out.tp 1 offset
        = some (((mainTlsBlock c i.map).lo + abiDtvOffset c.arch + offset) % umax c.ws)) ↔
    (if c.arch.variantI then c.tls.align ∣ metaSize c.arch c.tl
     else c.tls.align ∣ c.tls.memSize) := by
  obtain ⟨out', h1, O⟩ := H.ok m junk
  rw [ho] at h1
  injection h1 with h1
  subst h1
  rw [O.tp, tlsOffset_abi, H.tls_eq]
  exact spot_tls_addr_iff' H.spot

/-- **C14 (main thread), exact condition.** -/
theorem C14_main_abi_location_iff (H : MainStart c s i lim) {m : Mem} {junk : Nat → Byte} {out : MainOut}
    (ho : initializeMain c m junk i = some out) :
    (mainTlsBlock c i.map).lo = abiTlsStart c.arch out.tp c.tls.memSize c.tls.align ↔
    (match c.arch with
     | .x86_64 | .x86 => True
     | .aarch64 => c.tls.align ∣ out.tp + natRoundUp 16 c.tls.align
     | .riscv64 => c.tls.align ∣ out.tp
     | .arm => False) := by
  obtain ⟨out', h1, O⟩ := H.ok m junk
  rw [ho] at h1
  injection h1 with h1
  subst h1
  rw [O.tp, H.tls_eq]
  exact spot_abi_location_iff H.spot

/-- **C19 (main thread).** On the main thread `current_id()` and `id(current())` are the kernel's tid,
which is also where `set_tid_address` points. -/
theorem C19_main_id (H : MainStart c s i lim) {m : Mem} {junk : Nat → Byte} {out : MainOut}
    (ho : initializeMain c m junk i = some out) :
    currentId c out.mem out.tp = i.tid ∧ idOf c out.mem (current c out.tp) = some i.tid ∧
    out.tidAddr = current c out.tp + c.tl.tid := by
  obtain ⟨out', h1, O⟩ := H.ok m junk
  rw [ho] at h1
  injection h1 with h1
  subst h1
  have hadd := main_handle_add H (o := c.tl.tid) (n := 4) (by simp [ThreadLayout.extents])
  have ht := O.tid
  have e : out.tidAddr = mainHandle c i + c.tl.tid := by rw [O.tidAddr]; rfl
  rw [e, Nat.mod_eq_of_lt (by have := H.tidLt; omega)] at ht
  rw [O.tp, main_current H]
  refine ⟨?_, ?_, e⟩
  · unfold currentId; rw [main_current H, hadd, ht]
  · unfold idOf; simp only [hadd, ht]
    rw [if_neg (by have := H.tidPos; omega)]

end

/-! ## C16 -/

/-- Invariant of `Hist`. -/
structure HistInv (c : Cfg) (g : Nat) (m : Mem) (s : Space) (ts : List LiveThread) : Prop where
  cfg : CfgOk c
  gLt : g < umax c.ws
  inside : ∀ t ∈ ts, t.map ≤ t.md ∧ t.md + metaSize c.arch c.tl ≤ t.map + t.len ∧
    t.map + natRoundUp t.len c.page < umax c.ws
  mapped : ∀ t ∈ ts, ∀ x, t.map ≤ x → x < t.map + natRoundUp t.len c.page → s x ≠ .unmapped
  disj : ts.Pairwise fun t u => t.map + natRoundUp t.len c.page ≤ u.map ∨
    u.map + natRoundUp u.len c.page ≤ t.map
  canary : ∀ t ∈ ts, ldN c.endian c.ws m (canaryAddr c t.md) = g

theorem canary_in (a : Arch) : abiOff a .canary + a.ws ≤ abiSize a := by cases a <;> decide

theorem canary_mem_abiVals (a : Arch) (cn nt : Nat) : (⟨abiOff a .canary, a.ws, cn⟩ : FieldVal) ∈ abiVals a cn nt := by
  cases a <;> simp [abiVals]

theorem hist_inv {c : Cfg} {g : Nat} {m : Mem} {s : Space} {ts : List LiveThread} (h : Hist c g m s ts) :
    HistInv c g m s ts := by
  induction h with
  | @start m s junk i limit out H ho hg =>
    obtain ⟨out', h1, O⟩ := H.ok m junk
    rw [ho] at h1
    injection h1 with h1
    subst h1
    have S := H.spot
    have hfit := S.fit
    have hb := (S.ok.bounds H.cfg).header_in
    have eu := H.record_eq
    have el : (mainAreas c).stop = (calculateTlsSize c 0).mapSize := by rw [H.layout]
    rw [el]
    have gl : g < umax c.ws := by rw [← hg, O.guardVar]; exact H.randomLt
    refine ⟨H.cfg, gl, ?_, ?_, ?_, ?_⟩
    · intro t ht
      rw [List.mem_singleton] at ht
      subst ht
      have := H.mapped.fits
      simp only [eu]; omega
    · intro t ht x h1 h2
      rw [List.mem_singleton] at ht
      subst ht
      rw [O.calls]
      simp only [spaceAfter, List.foldl, applySys, setPerm]
      rw [if_pos ⟨h1, h2⟩]; decide
    · exact List.pairwise_singleton _ _
    · intro t ht
      rw [List.mem_singleton] at ht
      subst ht
      have hp := (meta_parts c.arch c.tl H.cfg.layout).2.2
      have hc := canary_in c.arch
      have hw := ws_pos c.arch
      have htid : c.tl.tid + 4 ≤ c.tl.size :=
        H.cfg.layout.inside (c.tl.tid, 4) (by simp [ThreadLayout.extents])
      have := O.fields ⟨metaOff c.arch c.tl .abi + abiOff c.arch .canary, c.ws, i.random⟩
        (by
          unfold metaVals
          apply List.mem_append_left
          exact List.mem_map.mpr ⟨_, canary_mem_abiVals _ _ _, rfl⟩) (by simp only; omega)
      simp only at this
      unfold canaryAddr
      simp only [eu]
      rw [this, ← hg, O.guardVar]
      exact Nat.mod_eq_of_lt H.randomLt
  | @create m s ts junk k fn args ss gs map tid parent _ hpar H ih =>
    have C := H.created m junk (pointeeAddr c parent.md) fn
    have P := H.placed
    have hpg := H.cfg.pageMin
    have hms := le_natRoundUp (x := (createLayout c ss gs).mapSize) (b := c.page) (by omega)
    have hb2 := P.bounds.m_le_header; have hb4 := P.bounds.header_in
    simp only at hb2 hb4
    obtain ⟨p1, p2, p3⟩ := meta_parts c.arch c.tl H.cfg.layout
    have hc := canary_in c.arch
    have hw := ws_pos c.arch
    have hpt : abiOff c.arch .pointee ≤ abiSize c.arch := by
      rw [abiOff_pointee, abiSize_eq]; cases c.arch <;> decide
    have er := H.record_eq
    have el : (areas c ss gs).stop = (createLayout c ss gs).mapSize := by rw [H.layout]
    rw [el]
    -- the parent's canary
    have hcan : ldN c.endian c.ws m (uadd c.ws (currentMetadata c (pointeeAddr c parent.md))
        (metaOff c.arch c.tl .abi + abiOff c.arch .canary)) = g := by
      obtain ⟨q1, q2, q3⟩ := ih.inside parent hpar
      have q4 := le_natRoundUp (x := parent.len) (b := c.page) (by omega)
      have e1 : currentMetadata c (pointeeAddr c parent.md) = parent.md := by
        unfold currentMetadata pointeeAddr
        rw [uadd_of_lt (by omega), uwsub_of_le (by omega) (by omega)]
        omega
      rw [e1, uadd_of_lt (by omega)]
      exact ih.canary parent hpar
    have hfresh := H.mapped.fresh
    -- old regions are disjoint from the new one
    have hdis : ∀ t ∈ ts, map + natRoundUp (createLayout c ss gs).mapSize c.page ≤ t.map ∨
        t.map + natRoundUp t.len c.page ≤ map := by
      intro t ht
      obtain ⟨q1, q2, q3⟩ := ih.inside t ht
      have q4 := le_natRoundUp (x := t.len) (b := c.page) (by omega)
      have q5 := metaSize_pos c.arch c.tl H.cfg.layout
      have hne := H.mapped.nonempty
      by_cases g1 : map + natRoundUp (createLayout c ss gs).mapSize c.page ≤ t.map
      · exact .inl g1
      by_cases g2 : t.map + natRoundUp t.len c.page ≤ map
      · exact .inr g2
      exfalso
      have hx1 := ih.mapped t ht (max map t.map) (by omega) (by omega)
      exact hx1 (hfresh (max map t.map) (by omega) (by omega))
    refine ⟨ih.cfg, ih.gLt, ?_, ?_, ?_, ?_⟩
    · intro t ht
      rcases List.mem_cons.mp ht with rfl | ht
      · have := H.mapped.fits
        simp only [er]; omega
      · exact ih.inside t ht
    · intro t ht x h1 h2
      rw [space_created H m junk (pointeeAddr c parent.md) fn]
      rcases List.mem_cons.mp ht with rfl | ht
      · simp only at h1 h2
        by_cases hx : x < map + (createLayout c ss gs).stackBottom
        · rw [if_pos ⟨h1, hx⟩]; decide
        · rw [if_neg (by omega), if_pos (by omega)]; decide
      · have := hdis t ht
        have hst := P.ok.st; have hsb := P.ok.sb
        rw [if_neg (by omega), if_neg (by omega)]
        exact ih.mapped t ht x h1 h2
    · rw [List.pairwise_cons]
      exact ⟨fun t ht => by have := hdis t ht; simp only; omega, ih.disj⟩
    · intro t ht
      rcases List.mem_cons.mp ht with rfl | ht
      · have := H.abi_field m junk (pointeeAddr c parent.md) fn
          (canary_mem_abiVals c.arch _ (newTp c ss gs map)) (by simp only; omega)
          (by simp only; rw [hcan]; exact ih.gLt)
        simp only [hcan] at this
        unfold canaryAddr
        rw [er]
        exact this
      · rw [← ih.canary t ht]
        obtain ⟨q1, q2, q3⟩ := ih.inside t ht
        have q4 := le_natRoundUp (x := t.len) (b := c.page) (by omega)
        have hd := hdis t ht
        have s1 := H.spLow; have s2 := C.spHigh
        have hb1 := P.bounds.m_le_tls; have hb3 := P.bounds.tls_in
        simp only at hb1 hb3
        apply ldN_congr
        intro j hj
        have hws : c.ws = c.arch.ws := rfl
        unfold canaryAddr
        apply C.frame <;> omega
  | @other m s ts m' s' _ hm hs ih =>
    refine ⟨ih.cfg, ih.gLt, ih.inside, hs, ih.disj, ?_⟩
    intro t ht
    rw [← ih.canary t ht]
    exact ldN_congr fun j hj => hm t ht j hj
  | @free m s ts₁ t ts₂ _ ih =>
    have sub : ∀ u ∈ ts₁ ++ ts₂, u ∈ ts₁ ++ t :: ts₂ := by
      intro u hu
      rcases List.mem_append.mp hu with h | h
      · exact List.mem_append_left _ h
      · exact List.mem_append_right _ (List.mem_cons_of_mem _ h)
    have hd := ih.disj
    rw [List.pairwise_append, List.pairwise_cons] at hd
    obtain ⟨d1, ⟨d2, d3⟩, d4⟩ := hd
    refine ⟨ih.cfg, ih.gLt, fun u hu => ih.inside u (sub u hu), ?_, ?_, fun u hu => ih.canary u (sub u hu)⟩
    · intro u hu x h1 h2
      have hdu : t.map + natRoundUp t.len c.page ≤ u.map ∨ u.map + natRoundUp u.len c.page ≤ t.map := by
        rcases List.mem_append.mp hu with h | h
        · have := d4 u h t List.mem_cons_self; omega
        · exact d2 u h
      unfold setPerm
      rw [if_neg (by omega)]
      exact ih.mapped u (sub u hu) x h1 h2
    · rw [List.pairwise_append]
      exact ⟨d1, d3, fun a ha b hb => d4 a ha b (List.mem_cons_of_mem _ hb)⟩

/-- **C16.** In every reachable state — after any number of creations by any threads, other activity and
frees — every live thread's record holds, in its canary field, the value `__stack_chk_guard` was given
at startup; on x86-64 and x86 that field is at the offset from the thread pointer the ABI fixes. -/
theorem C16_canary {c : Cfg} {g : Nat} {m : Mem} {s : Space} {ts : List LiveThread} (h : Hist c g m s ts)
    (t : LiveThread) (ht : t ∈ ts) :
    ldN c.endian c.ws m (canaryAddr c t.md) = g ∧
    ∀ o, abiCanaryOffset c.arch = some o → canaryAddr c t.md = pointeeAddr c t.md + o := by
  have I := hist_inv h
  refine ⟨I.canary t ht, fun o ho => ?_⟩
  obtain ⟨q1, q2, q3⟩ := I.inside t ht
  have q4 := le_natRoundUp (x := t.len) (b := c.page) (by have := I.cfg.pageMin; omega)
  obtain ⟨p1, -, -⟩ := meta_parts c.arch c.tl I.cfg.layout
  have hpt : abiOff c.arch .pointee ≤ abiSize c.arch := by
    rw [abiOff_pointee, abiSize_eq]; cases c.arch <;> decide
  have hoff : abiOff c.arch .canary = abiOff c.arch .pointee + o := by
    revert ho
    rw [abiOff_canary, abiOff_pointee]
    cases c.arch <;> simp [abiCanaryOffset] <;> intro h <;> omega
  unfold canaryAddr pointeeAddr
  rw [uadd_of_lt (by omega), hoff]
  omega

/-- **C16 (value).** The common value is the word of kernel-provided random bytes read at startup. -/
theorem C16_random {c : Cfg} {s : Space} {i : MainIn} {lim : Nat} (H : MainStart c s i lim) {m : Mem}
    {junk : Nat → Byte} {out : MainOut} (ho : initializeMain c m junk i = some out) :
    out.guardVar = i.random := by
  obtain ⟨out', h1, O⟩ := H.ok m junk
  rw [ho] at h1
  injection h1 with h1
  subst h1
  exact O.guardVar

/-- **C27 (address level).** In every reachable state the handles of two different live threads (their
records' thread data addresses) are different, because their regions are disjoint. -/
theorem C27_handles_distinct {c : Cfg} {g : Nat} {m : Mem} {s : Space} {ts : List LiveThread}
    (h : Hist c g m s ts) : (ts.map fun t => threadAddr c t.md).Nodup := by
  have I := hist_inv h
  rw [List.Nodup, List.pairwise_map]
  have hall := I.disj
  have hin := I.inside
  refine (List.Pairwise.imp_of_mem ?_ hall)
  intro a b ha hb hab heq
  obtain ⟨q1, q2, q3⟩ := hin a ha
  obtain ⟨r1, r2, r3⟩ := hin b hb
  have hpg := I.cfg.pageMin
  have q4 := le_natRoundUp (x := a.len) (b := c.page) (by omega)
  have r4 := le_natRoundUp (x := b.len) (b := c.page) (by omega)
  have p2 := (meta_parts c.arch c.tl I.cfg.layout).2.1
  have htid : c.tl.tid + 4 ≤ c.tl.size :=
    I.cfg.layout.inside (c.tl.tid, 4) (by simp [ThreadLayout.extents])
  unfold threadAddr at heq
  rw [uadd_of_lt (by omega), uadd_of_lt (by omega)] at heq
  omega

/-! ### non-vacuity -/

def exMain : MainIn :=
  { sp := 0x7ffffffde000, execfnEnd := 0x7ffffffff000 - 8, stackLimit := some 0x800000,
    random := 0x1122334455667700, map := 0x7fff00000000, tid := 1000 }

theorem exMain_ok : MainStart exCfg exSpace exMain 0x800000 where
  cfg := exCfg_ok
  limitIs := rfl
  topFits := by decide
  limitLe := by decide
  spLow := by decide
  spHigh := by decide
  kernel :=
    { aligned := by decide, nonnull := by decide, nonempty := by decide, fits := by decide,
      fresh := by
        intro x h1 _
        have : 0x7fff00000000 ≤ x := h1
        unfold exSpace
        rw [if_neg (by omega)] }
  randomLt := by decide
  tidPos := by decide
  tidLt := by decide
  image := exCreation.image

/-- A history with two live threads exists. -/
example : ∃ m s a b, Hist exCfg exMain.random m s [a, b] := by
  obtain ⟨out, h1, O⟩ := exMain_ok.ok (fun _ => 0) (fun _ => 0)
  have h0 := Hist.start exMain_ok h1 O.guardVar
  have hk : Creation exCfg (spaceAfter exCfg.page exSpace out.calls)
      { mmap := .ok 0x7f0000000000, mprotect := .ok (), clone := 1234 } [1, 0, 0xdeadbeef] 0x20000 0x4000
      0x7f0000000000 1234 := by
    refine { exCreation with kernel := ?_, image := ?_ }
    · refine { exCreation.kernel with fresh := ?_ }
      intro x q1 q2
      have hx : x < 0x7fff00000000 := Nat.lt_trans q2 (by decide)
      rw [O.calls]
      simp only [spaceAfter, List.foldl, applySys, setPerm]
      rw [if_neg (by intro h; have := h.1; simp only [exMain] at this; omega)]
      exact exCreation.kernel.fresh x q1 q2
    · intro j hj
      rw [O.calls]
      simp only [spaceAfter, List.foldl, applySys, setPerm]
      split
      · decide
      · exact exCreation.image j hj
  exact ⟨_, _, _, _, Hist.create (junk := fun _ => 0) (fn := 7) h0 (List.mem_singleton.mpr rfl) hk⟩

end Origin
