import Verif.Proof.Layout
/-!
# Memory and system calls of `initialize_tls` and `create`
-/

namespace Origin
open Spec

theorem disj_of_pairwise {fs : List FieldVal}
    (h : fs.Pairwise fun f g => f.off + f.size ≤ g.off ∨ g.off + g.size ≤ f.off)
    {f g : FieldVal} (hf : f ∈ fs) (hg : g ∈ fs) (hne : f.off ≠ g.off) :
    f.off + f.size ≤ g.off ∨ g.off + g.size ≤ f.off := by
  induction fs with
  | nil => cases hf
  | cons x fs ih =>
    rw [List.pairwise_cons] at h
    rcases List.mem_cons.mp hf with rfl | hf' <;> rcases List.mem_cons.mp hg with rfl | hg'
    · exact absurd rfl hne
    · exact h.1 g hg'
    · have := h.1 f hf'; omega
    · exact ih h.2 hf' hg'

/-- Effect of `initialize_tls`. -/
structure InitOk (c : Cfg) (m m' : Mem) (tlsD md : Nat) (fs : List FieldVal) : Prop where
  fields : ∀ f ∈ fs, ldN c.endian f.size m' (md + f.off) = f.val % 2 ^ (8 * f.size)
  image : ∀ i, i < c.tls.fileSize → m' (tlsD + i) = m (c.tls.addr + i)
  zeros : ∀ i, c.tls.fileSize ≤ i → i < c.tls.memSize → m' (tlsD + i) = 0
  frame : ∀ x, (x < md ∨ md + metaSize c.arch c.tl ≤ x) → (x < tlsD ∨ tlsD + c.tls.memSize ≤ x) →
    m' x = m x

theorem initializeTls_ok {c : Cfg} (hv : c.tl.Valid c.arch) (hsz : c.tls.fileSize ≤ c.tls.memSize)
    (m : Mem) (junk : Nat → Byte) {tlsD md : Nat} (cn sl ss gs ms : Nat)
    (hmd : md + metaSize c.arch c.tl < umax c.ws) (htls : tlsD + c.tls.memSize < umax c.ws)
    (hdisj : tlsD + c.tls.memSize ≤ md ∨ md + metaSize c.arch c.tl ≤ tlsD)
    (himg : ∀ i, i < c.tls.fileSize → c.tls.addr + i < md ∨ md + metaSize c.arch c.tl ≤ c.tls.addr + i) :
    let r := initializeTls c m junk tlsD md cn sl ss gs ms
    let tp := md + (metaOff c.arch c.tl .abi + abiOff c.arch .pointee)
    r.2.1 = tp ∧ r.2.2 = md + metaOff c.arch c.tl .thread + c.tl.tid ∧
    InitOk c m r.1 tlsD md (metaVals c.arch c.tl cn tp sl ss gs ms) := by
  intro r tp
  obtain ⟨p1, p2, p3⟩ := meta_parts c.arch c.tl hv
  have hpt : abiOff c.arch .pointee ≤ abiSize c.arch := by
    rw [abiOff_pointee, abiSize_eq]; cases c.arch <;> decide
  have htid : c.tl.tid + 4 ≤ c.tl.size := hv.inside (c.tl.tid, 4) (by simp [ThreadLayout.extents])
  have etp : pointeeAddr c md = tp := uadd_of_lt (by omega)
  have eth : threadAddr c md = md + metaOff c.arch c.tl .thread := uadd_of_lt (by omega)
  have ef : uadd c.ws tlsD c.tls.fileSize = tlsD + c.tls.fileSize := uadd_of_lt (by omega)
  obtain ⟨f1, f2⟩ := metaVals_ok c.arch c.tl hv cn tp sl ss gs ms
  refine ⟨etp, ?_, ?_⟩
  · show uadd c.ws (threadAddr c md) c.tl.tid = _
    rw [eth, uadd_of_lt (by omega)]
  · have er : r.1 = filled (moved (writeStruct c.endian m md (metaSize c.arch c.tl) junk
        (metaVals c.arch c.tl cn tp sl ss gs ms)) tlsD c.tls.addr c.tls.fileSize)
        (tlsD + c.tls.fileSize) (c.tls.memSize - c.tls.fileSize) 0 := by
      show (initializeTls c m junk tlsD md cn sl ss gs ms).1 = _
      unfold initializeTls
      simp only [etp, ef]
    rw [er]
    constructor
    · intro f hf
      have hb := f1 f hf
      rw [← ldN_stFields (e := c.endian) (base := md)
        (m := fun x => if md ≤ x ∧ x < md + metaSize c.arch c.tl then junk x else m x) f2 hf]
      apply ldN_congr
      intro i hi
      unfold filled moved writeStruct
      rw [if_neg (by omega), if_neg (by omega)]
    · intro i hi
      unfold filled moved
      have hi' := himg i hi
      have e9 : tlsD + i - tlsD = i := by omega
      rw [if_neg (by omega), if_pos (by omega), e9, writeStruct_frame f1 hi']
    · intro i h1 h2
      unfold filled
      rw [if_pos (by omega)]
    · intro x h1 h2
      unfold filled moved
      rw [if_neg (by omega), if_neg (by omega), writeStruct_frame f1 h1]

/-- Facts about the addresses of a new thread. -/
structure Placed (c : Cfg) (ss gs map : Nat) (l : CreateLayout) : Prop where
  ok : LayoutOk c ss gs l
  bounds : TlsBounds c l.stackTop ⟨l.mapSize, l.tlsBottom, l.header⟩
  fit : map + l.mapSize < umax c.ws
  page : c.page ∣ map

theorem placed {c : Cfg} (h : CfgOk c) {ss gs map : Nat} (hf : Fits c ss gs) {s : Space}
    (hm : MmapOk c s (createLayout c ss gs).mapSize map) :
    Placed c ss gs map (createLayout c ss gs) := by
  have o := createLayout_ok h hf
  have := hm.fits
  have := le_natRoundUp (x := (createLayout c ss gs).mapSize) (b := c.page) (by have := h.pageMin; omega)
  exact ⟨o, o.tls.bounds h, by omega, hm.aligned⟩

/-- The stack pointer given to the child. -/
theorem childSp_ok {c : Cfg} {top n : Nat} (hlt : top < umax c.ws) (hn : c.ws * n ≤ top) :
    childSp c top n = (top - c.ws * n) / c.arch.stackAlignment * c.arch.stackAlignment := by
  unfold childSp
  have e : umul c.ws n c.ws = c.ws * n := by
    unfold umul
    rw [← BitVec.ofNat_mul, BitVec.toNat_ofNat, Nat.mul_comm n, Nat.mod_eq_of_lt]
    exact Nat.lt_of_le_of_lt hn hlt
  rw [e, uwsub_of_le hlt hn]
  have hk : ∃ k, c.arch.stackAlignment = 2 ^ k ∧ k < 8 * c.ws := by
    unfold Cfg.ws
    cases c.arch
    all_goals first | exact ⟨4, rfl, by decide⟩ | exact ⟨2, rfl, by decide⟩
  obtain ⟨k, hk, hk2⟩ := hk
  exact uand_uneg hk hk2 (by omega)

theorem stackAlignment_dvd (a : Arch) : a.stackAlignment ∣ 16 := by cases a <;> decide
theorem stackAlignment_pos (a : Arch) : 0 < a.stackAlignment := by cases a <;> decide

theorem kernelClone_ok {e : Endian} {m : Mem} {p : Nat} {r : Int} (h : 0 ≤ r) :
    kernelClone e m createFlags p p r = stN e 4 (stN e 4 m p r.toNat) p r.toNat := by
  unfold kernelClone
  rw [if_pos h]
  have h1 : createFlags &&& CLONE_PARENT_SETTID ≠ 0 := by decide
  have h2 : createFlags &&& CLONE_CHILD_SETTID ≠ 0 := by decide
  simp only [h1, h2, ne_eq, not_false_eq_true, if_true]

/-- Everything about a successful `create`. -/
structure CreatedOk (c : Cfg) (m : Mem) (k : Answers) (tp fn : Nat) (args : List Nat) (ss gs map : Nat)
    (l : CreateLayout) (sp : Nat) (out : CreateOut) : Prop where
  res : out.res = .ok (map + l.header + metaOff c.arch c.tl .thread)
  calls : out.calls =
    [ .mmap l.mapSize .inaccessible (.ok map),
      .mprotect (map + l.stackBottom)
        (l.mapSize - l.stackBottom) .readWrite (.ok ()),
      .clone createFlags sp
        (map + l.header + metaOff c.arch c.tl .thread + c.tl.tid)
        (map + l.header + metaOff c.arch c.tl .thread + c.tl.tid)
        (map + l.header + (metaOff c.arch c.tl .abi + abiOff c.arch .pointee))
        fn args.length k.clone ]
  tid : ldN c.endian 4 out.mem
    (map + l.header + metaOff c.arch c.tl .thread + c.tl.tid)
      = k.clone.toNat % 2 ^ 32
  fields : ∀ f ∈ metaVals c.arch c.tl
      (ldN c.endian c.ws m
        (uadd c.ws (currentMetadata c tp) (metaOff c.arch c.tl .abi + abiOff c.arch .canary)))
      (map + l.header + (metaOff c.arch c.tl .abi + abiOff c.arch .pointee))
      (map + l.stackBottom) ss gs l.mapSize,
    f.off ≠ metaOff c.arch c.tl .thread + c.tl.tid →
    ldN c.endian f.size out.mem (map + l.header + f.off)
      = f.val % 2 ^ (8 * f.size)
  image : ∀ i, i < c.tls.fileSize →
    out.mem (map + l.tlsBottom + i) = m (c.tls.addr + i)
  zeros : ∀ i, c.tls.fileSize ≤ i → i < c.tls.memSize →
    out.mem (map + l.tlsBottom + i) = 0
  spIs : sp = (map + l.stackTop - c.ws * args.length) / c.arch.stackAlignment * c.arch.stackAlignment
  spLow : map + l.stackBottom ≤ map + l.stackTop - c.ws * args.length → map + l.stackBottom ≤ sp
  spHigh : sp + c.ws * args.length
    ≤ map + l.stackTop
  spAligned : c.arch.stackAlignment ∣ sp
  argVals : ∀ i (hi : i < args.length), args[i] < umax c.ws →
    ldN c.endian c.ws out.mem
      (sp + c.ws * i) = args[i]
  frame : ∀ x,
    (x < map + l.header ∨
      map + l.header + metaSize c.arch c.tl ≤ x) →
    (x < map + l.tlsBottom ∨
      map + l.tlsBottom + c.tls.memSize ≤ x) →
    (x < sp ∨
      sp + c.ws * args.length ≤ x) →
    out.mem x = m x

theorem create_ok {c : Cfg} (h : CfgOk c) {m : Mem} {junk : Nat → Byte} {k : Answers} {tp fn : Nat}
    {args : List Nat} {ss gs map : Nat} {s : Space} (hf : Fits c ss gs)
    (hk1 : k.mmap = .ok map) (hk2 : k.mprotect = .ok ()) (hk3 : 0 ≤ k.clone)
    (hm : MmapOk c s (createLayout c ss gs).mapSize map)
    (hargs : c.ws * args.length ≤ map + (createLayout c ss gs).stackTop)
    (himg : ∀ i, i < c.tls.fileSize →
      c.tls.addr + i < map ∨ map + (createLayout c ss gs).mapSize ≤ c.tls.addr + i) :
    CreatedOk c m k tp fn args ss gs map (createLayout c ss gs)
      (childSp c (map + (createLayout c ss gs).stackTop) args.length)
      (create c m junk k tp fn args ss gs) := by
  have P := placed h hf hm
  obtain ⟨l, hl⟩ : ∃ l, createLayout c ss gs = l := ⟨_, rfl⟩
  rw [hl] at P himg hm hargs
  obtain ⟨⟨q1, q2, q3⟩, B, q5, q6⟩ := P
  have B1 := B.m_le_tls; have B2 := B.m_le_header; have B3 := B.tls_in; have B4 := B.header_in
  have B5 := B.disj
  simp only at B1 B2 B3 B4 B5
  have hpg := h.pageMin
  have hsb := natRoundUp_lt (x := gs) (b := c.page) (by omega)
  have hst := le_natRoundUp (x := ss) (b := 16) (by omega)
  have u1 : uadd c.ws map l.stackBottom = map + l.stackBottom := uadd_of_lt (by omega)
  have u2 : uadd c.ws map l.stackTop = map + l.stackTop := uadd_of_lt (by omega)
  have u3 : uadd c.ws map l.tlsBottom = map + l.tlsBottom := uadd_of_lt (by omega)
  have u4 : uadd c.ws map l.header = map + l.header := uadd_of_lt (by omega)
  have u5 : uwsub c.ws l.mapSize l.stackBottom = l.mapSize - l.stackBottom :=
    uwsub_of_le (by omega) (by omega)
  obtain ⟨p1, p2, p3⟩ := meta_parts c.arch c.tl h.layout
  have u6 : threadAddr c (map + l.header) = map + l.header + metaOff c.arch c.tl .thread :=
    uadd_of_lt (by omega)
  have I := initializeTls_ok h.layout h.tlsSizes m junk (tlsD := map + l.tlsBottom) (md := map + l.header)
    (ldN c.endian c.ws m
        (uadd c.ws (currentMetadata c tp) (metaOff c.arch c.tl .abi + abiOff c.arch .canary)))
    (map + l.stackBottom) ss gs l.mapSize (by omega) (by omega) (by omega)
    (fun i hi => by have := himg i hi; omega)
  obtain ⟨i1, i2, i3⟩ := I
  -- the stack pointer
  have hsp := childSp_ok (c := c) (top := map + l.stackTop) (n := args.length) (by omega) (by omega)
  have sd16 : (16 : Nat) ∣ c.page := pow_dvd_of_le ⟨4, rfl⟩ h.pagePow (by omega)
  have a0 : c.arch.stackAlignment ∣ map + l.stackBottom := by
    apply Nat.dvd_trans (stackAlignment_dvd _)
    rw [q1]
    exact Nat.dvd_add (Nat.dvd_trans sd16 q6) (Nat.dvd_trans sd16 (dvd_natRoundUp _ _))
  have spL : map + l.stackBottom ≤ map + l.stackTop - c.ws * args.length →
      map + l.stackBottom ≤ childSp c (map + l.stackTop) args.length := by
    intro hle
    rw [hsp]
    have := Nat.div_le_div_right (c := c.arch.stackAlignment) hle
    have := Nat.mul_le_mul_right c.arch.stackAlignment this
    rwa [Nat.div_mul_cancel a0] at this
  have spH : childSp c (map + l.stackTop) args.length + c.ws * args.length ≤ map + l.stackTop := by
    rw [hsp]
    have := Nat.div_mul_le_self (map + l.stackTop - c.ws * args.length) c.arch.stackAlignment
    omega
  have spA : c.arch.stackAlignment ∣ childSp c (map + l.stackTop) args.length := by
    rw [hsp]; exact Nat.dvd_mul_left _ _
  have htid : c.tl.tid + 4 ≤ c.tl.size :=
    h.layout.inside (c.tl.tid, 4) (by simp [ThreadLayout.extents])
  -- unfold `create`
  have key : create c m junk k tp fn args ss gs =
      { res := .ok (map + l.header + metaOff c.arch c.tl .thread),
        calls := [ .mmap l.mapSize .inaccessible (.ok map),
          .mprotect (map + l.stackBottom) (l.mapSize - l.stackBottom) .readWrite (.ok ()),
          .clone createFlags (childSp c (map + l.stackTop) args.length)
            (map + l.header + metaOff c.arch c.tl .thread + c.tl.tid)
            (map + l.header + metaOff c.arch c.tl .thread + c.tl.tid)
            (map + l.header + (metaOff c.arch c.tl .abi + abiOff c.arch .pointee))
            fn args.length k.clone ],
        mem := kernelClone c.endian (stWords c.endian c.ws (initializeTls c m junk (map + l.tlsBottom)
            (map + l.header) (ldN c.endian c.ws m
              (uadd c.ws (currentMetadata c tp) (metaOff c.arch c.tl .abi + abiOff c.arch .canary)))
            (map + l.stackBottom) ss gs l.mapSize).1
            (childSp c (map + l.stackTop) args.length) args) createFlags
            (map + l.header + metaOff c.arch c.tl .thread + c.tl.tid)
            (map + l.header + metaOff c.arch c.tl .thread + c.tl.tid) k.clone } := by
    unfold create
    simp only [hl, hk1, hk2, u1, u2, u3, u4, u5, u6, i1, i2, if_pos hk3]
  rw [key, kernelClone_ok hk3]
  generalize hM : (initializeTls c m junk (map + l.tlsBottom)
            (map + l.header) (ldN c.endian c.ws m
              (uadd c.ws (currentMetadata c tp) (metaOff c.arch c.tl .abi + abiOff c.arch .canary)))
            (map + l.stackBottom) ss gs l.mapSize).1 = M at i3
  generalize hspv : childSp c (map + l.stackTop) args.length = sp at spL spH spA hsp
  rw [hl, hspv]
  constructor
  · rfl
  · rfl
  · simp only [ldN_stN_same]
  · intro f hf hne
    obtain ⟨v1, v2⟩ := metaVals_ok c.arch c.tl h.layout (ldN c.endian c.ws m
        (uadd c.ws (currentMetadata c tp) (metaOff c.arch c.tl .abi + abiOff c.arch .canary)))
      (map + l.header + (metaOff c.arch c.tl .abi + abiOff c.arch .pointee))
      (map + l.stackBottom) ss gs l.mapSize
    rw [← i3.fields f hf]
    -- the tid field is one of the fields, and differs from `f`
    have hd : f.off + f.size ≤ metaOff c.arch c.tl .thread + c.tl.tid ∨
        metaOff c.arch c.tl .thread + c.tl.tid + 4 ≤ f.off := by
      have hmem : (⟨metaOff c.arch c.tl .thread + c.tl.tid, 4, 0⟩ : FieldVal) ∈
          metaVals c.arch c.tl (ldN c.endian c.ws m
            (uadd c.ws (currentMetadata c tp) (metaOff c.arch c.tl .abi + abiOff c.arch .canary)))
          (map + l.header + (metaOff c.arch c.tl .abi + abiOff c.arch .pointee))
          (map + l.stackBottom) ss gs l.mapSize := by
        unfold metaVals
        apply List.mem_append_right
        unfold shiftVals threadVals
        simp
      have := disj_of_pairwise v2 hf hmem hne
      simpa using this
    apply ldN_congr
    intro i hi
    have hb := v1 f hf
    dsimp only
    rw [stN_frame (by omega), stN_frame (by omega), stWords_frame (by omega)]
  · intro i hi
    have := h.tlsSizes
    dsimp only
    rw [stN_frame (by omega), stN_frame (by omega), stWords_frame (by omega), i3.image i hi]
  · intro i h1 h2
    dsimp only
    rw [stN_frame (by omega), stN_frame (by omega), stWords_frame (by omega), i3.zeros i h1 h2]
  · exact hsp
  · exact spL
  · exact spH
  · exact spA
  · intro i hi hv
    rw [← ldN_stWords (e := c.endian) (ws := c.ws) (m := M) (a := sp) hi hv]
    apply ldN_congr
    intro j hj
    have : c.ws * i + c.ws ≤ c.ws * args.length := by
      rw [← Nat.mul_succ]; exact Nat.mul_le_mul_left _ hi
    dsimp only
    rw [stN_frame (by omega), stN_frame (by omega)]
  · intro x h1 h2 h3
    dsimp only
    rw [stN_frame (by omega), stN_frame (by omega), stWords_frame (by omega), i3.frame x h1 h2]

end Origin
