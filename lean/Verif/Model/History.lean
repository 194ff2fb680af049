import Verif.Spec.Layout
/-!
# Histories of thread creation: which records exist, and what memory and address space hold

Used for C16 (one canary everywhere) and C27 at the address level.
-/

namespace Origin
open Spec

/-- A live thread: address of its record, and the region mapped for it.  (`Metadata`, src/thread/linux_raw.rs:133-148; `map`, `map_size`,
src/thread/linux_raw.rs:510-516.) -/
structure LiveThread where
  md : Nat
  map : Nat
  len : Nat
deriving DecidableEq

/-- Address of a record's `abi.canary`.  (src/thread/linux_raw.rs:133-203; `(*current_metadata()).abi.canary`, line 534.) -/
def canaryAddr (c : Cfg) (md : Nat) : Nat := md + (metaOff c.arch c.tl .abi + abiOff c.arch .canary)

/-- The states a process can be in, as far as thread records are concerned.  `g` is the value
`initialize_main` stored in `__stack_chk_guard`.
* `start`: `initialize_main` (src/thread/linux_raw.rs:326-384);
* `create`: any live thread calls `create` (src/thread/linux_raw.rs:484-613) and it succeeds;
* `other`: anything else the program or kernel does that leaves live threads' canary slots alone and
  keeps their regions mapped — other memory may be written, mapped or unmapped at will;
* `free`: a thread other than main ends and its region is unmapped (exactly: C09). -/
inductive Hist (c : Cfg) (g : Nat) : Mem → Space → List LiveThread → Prop
  | start {m s junk i limit out} : MainStart c s i limit → initializeMain c m junk i = some out →
      out.guardVar = g →
      Hist c g out.mem (spaceAfter c.page s out.calls)
        [⟨(mainRecord c i.map).lo, i.map, (mainAreas c).stop⟩]
  | create {m s ts junk k fn args ss gs map tid parent} : Hist c g m s ts → parent ∈ ts →
      Creation c s k args ss gs map tid →
      Hist c g (create c m junk k (pointeeAddr c parent.md) fn args ss gs).mem
        (spaceAfter c.page s (create c m junk k (pointeeAddr c parent.md) fn args ss gs).calls)
        (⟨(record c ss gs map).lo, map, (areas c ss gs).stop⟩ :: ts)
  | other {m s ts m' s'} : Hist c g m s ts →
      (∀ t ∈ ts, ∀ i, i < c.ws → m' (canaryAddr c t.md + i) = m (canaryAddr c t.md + i)) →
      (∀ t ∈ ts, ∀ x, t.map ≤ x → x < t.map + natRoundUp t.len c.page → s' x ≠ .unmapped) →
      Hist c g m' s' ts
  | free {m s ts₁ t ts₂} : Hist c g m s (ts₁ ++ t :: ts₂) →
      Hist c g m (setPerm c.page s t.map t.len .unmapped) (ts₁ ++ ts₂)

end Origin
