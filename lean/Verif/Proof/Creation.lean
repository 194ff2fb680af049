import Verif.Proof.Create
/-!
# Consequences of `create_ok` used by the property theorems
-/

namespace Origin
open Spec

theorem Spec.Started.layout {c : Cfg} {s : Space} {k : Answers} {args : List Nat} {ss gs map tid : Nat}
    (H : Started c s k args ss gs map tid) :
    createLayout c ss gs = ⟨(areas c ss gs).stop, (areas c ss gs).stackLo, (areas c ss gs).stackHi, (areas c ss gs).tls, (areas c ss gs).record⟩ :=
  createLayout_eq H.cfg H.fits

/-- The kernel's answer, in terms of what `create` asked for. -/
theorem Spec.Started.mapped {c : Cfg} {s : Space} {k : Answers} {args : List Nat} {ss gs map tid : Nat}
    (H : Started c s k args ss gs map tid) : MmapOk c s (createLayout c ss gs).mapSize map := by
  rw [H.layout]; exact H.kernel

theorem Spec.Started.imageDisj {c : Cfg} {s : Space} {k : Answers} {args : List Nat} {ss gs map tid : Nat}
    (H : Started c s k args ss gs map tid) (i : Nat) (hi : i < c.tls.fileSize) :
    c.tls.addr + i < map ∨ map + (createLayout c ss gs).mapSize ≤ c.tls.addr + i := by
  have h1 := H.image i hi
  have h2 := H.mapped.fresh (c.tls.addr + i)
  have h3 := le_natRoundUp (x := (createLayout c ss gs).mapSize) (b := c.page)
    (by have := H.cfg.pageMin; omega)
  by_cases ha : c.tls.addr + i < map
  · exact .inl ha
  · by_cases hb : map + (createLayout c ss gs).mapSize ≤ c.tls.addr + i
    · exact .inr hb
    · exact absurd (h2 (by omega) (by omega)) h1

theorem Spec.Started.placed {c : Cfg} {s : Space} {k : Answers} {args : List Nat} {ss gs map tid : Nat}
    (H : Started c s k args ss gs map tid) : Placed c ss gs map (createLayout c ss gs) :=
  Origin.placed H.cfg H.fits H.mapped

theorem Spec.Started.created {c : Cfg} {s : Space} {k : Answers} {args : List Nat} {ss gs map tid : Nat}
    (H : Started c s k args ss gs map tid)
    (hargs : c.ws * args.length ≤ map + (createLayout c ss gs).stackTop)
    (m : Mem) (junk : Nat → Byte) (tp fn : Nat) :
    CreatedOk c m k tp fn args ss gs map (createLayout c ss gs)
      (childSp c (map + (createLayout c ss gs).stackTop) args.length)
      (create c m junk k tp fn args ss gs) :=
  create_ok H.cfg H.fits H.mmapOk H.mprotectOk (by rw [H.cloneOk]; omega) H.mapped hargs H.imageDisj

theorem Spec.Creation.argsTop {c : Cfg} {s : Space} {k : Answers} {args : List Nat} {ss gs map tid : Nat}
    (H : Creation c s k args ss gs map tid) :
    (createLayout c ss gs).stackBottom + c.ws * args.length ≤ (createLayout c ss gs).stackTop := by
  have h1 := H.placed.ok.1; have h4 := H.placed.ok.2
  have h2 := H.argsFit
  have h3 := le_natRoundUp (x := ss) (b := 16) (by omega)
  omega

theorem Spec.Creation.created {c : Cfg} {s : Space} {k : Answers} {args : List Nat} {ss gs map tid : Nat}
    (H : Creation c s k args ss gs map tid) (m : Mem) (junk : Nat → Byte) (tp fn : Nat) :
    CreatedOk c m k tp fn args ss gs map (createLayout c ss gs)
      (childSp c (map + (createLayout c ss gs).stackTop) args.length)
      (create c m junk k tp fn args ss gs) :=
  H.toStarted.created (by have := H.argsTop; omega) m junk tp fn

/-- Arguments that fit leave the stack pointer in the stack. -/
theorem Spec.Creation.spLow {c : Cfg} {s : Space} {k : Answers} {args : List Nat} {ss gs map tid : Nat}
    (H : Creation c s k args ss gs map tid) :
    map + (createLayout c ss gs).stackBottom ≤
      childSp c (map + (createLayout c ss gs).stackTop) args.length :=
  (H.created (fun _ => 0) (fun _ => 0) 0 0).spLow (by have := H.argsTop; omega)

/-- The address of the handle. -/
def handleOf (c : Cfg) (ss gs map : Nat) : Nat :=
  map + (createLayout c ss gs).header + metaOff c.arch c.tl .thread

/-- The new thread pointer. -/
def newTp (c : Cfg) (ss gs map : Nat) : Nat :=
  map + (createLayout c ss gs).header + (metaOff c.arch c.tl .abi + abiOff c.arch .pointee)

section
variable {c : Cfg} {s : Space} {k : Answers} {args : List Nat} {ss gs map tid : Nat}

theorem Spec.Creation.tlsBlock_eq (H : Creation c s k args ss gs map tid) :
    (tlsBlock c ss gs map).lo = map + (createLayout c ss gs).tlsBottom := by
  rw [H.layout]; rfl

theorem Spec.Creation.record_eq (H : Creation c s k args ss gs map tid) :
    (record c ss gs map).lo = map + (createLayout c ss gs).header := by
  rw [H.layout]; rfl

/-- The whole record is below the end of the address space. -/
theorem Spec.Creation.record_lt (H : Creation c s k args ss gs map tid) :
    map + (createLayout c ss gs).header + metaSize c.arch c.tl < umax c.ws := by
  have P := H.placed
  have := P.fit; have := P.bounds.header_in
  simp only at *; omega

theorem Spec.Creation.handle_add (H : Creation c s k args ss gs map tid) {o n : Nat}
    (ho : (o, n) ∈ c.tl.extents c.arch) : uadd c.ws (handleOf c ss gs map) o = handleOf c ss gs map + o := by
  have h1 := H.record_lt
  have h2 := (meta_parts c.arch c.tl H.cfg.layout).2.1
  have h3 := H.cfg.layout.inside (o, n) ho
  have hn : 0 < n := extents_pos ho
  unfold handleOf
  exact uadd_of_lt (by simp only at *; omega)

/-- Reading a word field of `ThreadData` back. -/
theorem Spec.Creation.thread_field (H : Creation c s k args ss gs map tid) (m : Mem) (junk : Nat → Byte)
    (tp fn : Nat) {f : FieldVal}
    (hf : f ∈ threadVals c.arch c.tl (map + (createLayout c ss gs).stackBottom) ss gs
      (createLayout c ss gs).mapSize) (hne : f.off ≠ c.tl.tid) (hv : f.val < 2 ^ (8 * f.size)) :
    ldN c.endian f.size (create c m junk k tp fn args ss gs).mem (handleOf c ss gs map + f.off) = f.val := by
  have C := H.created m junk tp fn
  have := C.fields { f with off := metaOff c.arch c.tl .thread + f.off }
    (by
      unfold metaVals
      apply List.mem_append_right
      exact List.mem_map.mpr ⟨f, hf, rfl⟩)
    (by simp only; omega)
  simp only at this
  rw [Nat.mod_eq_of_lt hv] at this
  rw [← this, handleOf, Nat.add_assoc]

/-- Reading a field of `Abi` back. -/
theorem Spec.Creation.abi_field (H : Creation c s k args ss gs map tid) (m : Mem) (junk : Nat → Byte)
    (tp fn : Nat) {f : FieldVal}
    (hf : f ∈ abiVals c.arch (ldN c.endian c.ws m
        (uadd c.ws (currentMetadata c tp) (metaOff c.arch c.tl .abi + abiOff c.arch .canary)))
        (newTp c ss gs map)) (hs : 0 < f.size)
    (hv : f.val < 2 ^ (8 * f.size)) :
    ldN c.endian f.size (create c m junk k tp fn args ss gs).mem
      (map + (createLayout c ss gs).header + (metaOff c.arch c.tl .abi + f.off)) = f.val := by
  have C := H.created m junk tp fn
  have hb := (abiVals_ok c.arch (ldN c.endian c.ws m
        (uadd c.ws (currentMetadata c tp) (metaOff c.arch c.tl .abi + abiOff c.arch .canary)))
        (newTp c ss gs map)).1 f hf
  have ht := H.cfg.layout.inside (c.tl.tid, 4) (by simp [ThreadLayout.extents])
  have hp := (meta_parts c.arch c.tl H.cfg.layout).2.2
  have := C.fields { f with off := metaOff c.arch c.tl .abi + f.off }
    (by
      unfold metaVals
      apply List.mem_append_left
      exact List.mem_map.mpr ⟨f, hf, rfl⟩)
    (by simp only at *; omega)
  simp only at this
  rw [Nat.mod_eq_of_lt hv] at this
  exact this

theorem stackOf_created (H : Creation c s k args ss gs map tid) (m : Mem) (junk : Nat → Byte) (tp fn : Nat) :
    stackOf c (create c m junk k tp fn args ss gs).mem (handleOf c ss gs map)
      = (map + (createLayout c ss gs).stackBottom, ss, gs) := by
  have P := H.placed
  have hfit := P.fit
  have hb := P.bounds.m_le_tls; have hb2 := P.bounds.tls_in
  have hst := P.ok.st; have hsb := P.ok.sb
  have hle := le_natRoundUp (x := gs) (b := c.page) (by have := H.cfg.pageMin; omega)
  have hle2 := le_natRoundUp (x := ss) (b := 16) (by omega)
  simp only at hb hb2
  have bnd : ∀ x, x ≤ map + (createLayout c ss gs).mapSize → x < 2 ^ (8 * c.ws) := fun x hx =>
    Nat.lt_of_le_of_lt hx hfit
  have hd := H.cfg.layout.disjointBase
  simp only [ThreadLayout.extents, List.pairwise_cons, List.mem_cons, List.not_mem_nil, or_false,
    forall_eq_or_imp, forall_eq] at hd
  obtain ⟨⟨-, d1, d2, d3, d4, -⟩, -⟩ := hd
  have hw := ws_pos c.arch
  unfold stackOf
  rw [H.handle_add (o := c.tl.stackAddr) (n := c.arch.ws) (by simp [ThreadLayout.extents]),
    H.handle_add (o := c.tl.stackSize) (n := c.arch.ws) (by simp [ThreadLayout.extents]),
    H.handle_add (o := c.tl.guardSize) (n := c.arch.ws) (by simp [ThreadLayout.extents])]
  have h1 := H.thread_field m junk tp fn
    (f := ⟨c.tl.stackAddr, c.ws, map + (createLayout c ss gs).stackBottom⟩)
    (by simp [threadVals]) (by clear d2 d3 d4; simp only; omega) (by simp only; exact bnd _ (by clear d1 d2 d3 d4; omega))
  have h2 := H.thread_field m junk tp fn (f := ⟨c.tl.stackSize, c.ws, ss⟩)
    (by simp [threadVals]) (by clear d1 d3 d4; simp only; omega) (by simp only; exact bnd _ (by clear d1 d2 d3 d4; omega))
  have h3 := H.thread_field m junk tp fn (f := ⟨c.tl.guardSize, c.ws, gs⟩)
    (by simp [threadVals]) (by clear d1 d2 d4; simp only; omega) (by simp only; exact bnd _ (by clear d1 d2 d3 d4; omega))
  simp only at h1 h2 h3
  rw [h1, h2, h3]

theorem mapSize_created (H : Creation c s k args ss gs map tid) (m : Mem) (junk : Nat → Byte) (tp fn : Nat) :
    ldN c.endian c.ws (create c m junk k tp fn args ss gs).mem
      (uadd c.ws (handleOf c ss gs map) c.tl.mapSize) = (createLayout c ss gs).mapSize := by
  have P := H.placed
  have hfit := P.fit
  have hd := H.cfg.layout.disjointBase
  simp only [ThreadLayout.extents, List.pairwise_cons, List.mem_cons, List.not_mem_nil, or_false,
    forall_eq_or_imp, forall_eq] at hd
  obtain ⟨⟨-, d1, d2, d3, d4, -⟩, -⟩ := hd
  have hw := ws_pos c.arch
  rw [H.handle_add (o := c.tl.mapSize) (n := c.arch.ws) (by simp [ThreadLayout.extents])]
  have h1 := H.thread_field m junk tp fn
    (f := ⟨c.tl.mapSize, c.ws, (createLayout c ss gs).mapSize⟩)
    (by simp [threadVals]) (by clear d1 d2 d3; simp only; omega) (by simp only; exact Nat.lt_of_le_of_lt (by clear d1 d2 d3 d4; omega) hfit)
  exact h1

theorem natRoundUp_sub_add {a b p : Nat} (hp : 0 < p) (hb : p ∣ b) (h : b ≤ a) :
    natRoundUp (a - b) p + b = natRoundUp a p := by
  obtain ⟨q, rfl⟩ := hb
  unfold natRoundUp
  have e : a + (p - 1) = (a - p * q + (p - 1)) + p * q := by omega
  rw [e, Nat.add_mul_div_left _ _ hp, Nat.add_mul, Nat.mul_comm q p]

/-- Permissions after `create`. -/
theorem space_created (H : Creation c s k args ss gs map tid) (m : Mem) (junk : Nat → Byte) (tp fn : Nat)
    (x : Nat) :
    spaceAfter c.page s (create c m junk k tp fn args ss gs).calls x =
      if map ≤ x ∧ x < map + (createLayout c ss gs).stackBottom then .inaccessible
      else if map + (createLayout c ss gs).stackBottom ≤ x ∧
        x < map + natRoundUp (createLayout c ss gs).mapSize c.page then .readWrite
      else s x := by
  have C := H.created m junk tp fn
  have P := H.placed
  have hpg := H.cfg.pageMin
  have hb := P.bounds.m_le_tls; have hb2 := P.bounds.tls_in
  simp only at hb hb2
  have hst := P.ok.st; have hsb := P.ok.sb
  have hd : c.page ∣ (createLayout c ss gs).stackBottom := hsb ▸ dvd_natRoundUp _ _
  have e := natRoundUp_sub_add (a := (createLayout c ss gs).mapSize) (by omega) hd (by omega)
  have hle := le_natRoundUp (x := (createLayout c ss gs).mapSize) (b := c.page) (by omega)
  rw [C.calls]
  simp only [spaceAfter, List.foldl, applySys, setPerm]
  by_cases h1 : map + (createLayout c ss gs).stackBottom ≤ x ∧
        x < map + natRoundUp (createLayout c ss gs).mapSize c.page
  · rw [if_pos (by omega), if_neg (by omega), if_pos h1]
  · rw [if_neg (by omega), if_neg h1]
    by_cases h2 : map ≤ x ∧ x < map + (createLayout c ss gs).stackBottom
    · rw [if_pos (by omega), if_pos h2]
    · rw [if_neg (by omega), if_neg h2]

end

end Origin
