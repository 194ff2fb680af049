import Verif.Model.History
/-!
# `errno` over histories of thread creation (feature `unstable-errno`)

`errno_location` (src/thread/linux_raw.rs:1007-1011) hands out a raw pointer into the calling thread's
record.  A program uses it as a thread-local variable: each thread stores to it and reads it back.
-/

namespace Origin
open Spec

/-- A live thread of an `errno` history: its thread pointer, its record and region, and the value it last
stored through `errno_location()` (0 if it has not stored any).  (`thread_pointer()`,
src/thread/linux_raw.rs:940-946; `errno_val: Cell::new(0)`, line 119.) -/
structure ErrnoThread where
  tp : Nat
  live : LiveThread
  errno : Nat
deriving DecidableEq

/-- The states a process can be in, as `Hist`, with what every thread last stored in its `errno`.
* `start`: `initialize_main` (src/thread/linux_raw.rs:326-384), on the thread pointer it installs;
* `create`: a live thread calls `create` (src/thread/linux_raw.rs:484-613); the new thread runs on the
  thread pointer passed to `clone`;
* `store`: a live thread stores a 32-bit value through `errno_location()` (src/thread/linux_raw.rs:1009-1011);
* `other`: anything else that leaves live threads' canaries and the four bytes `errno_location()` points
  to on each live thread alone, and keeps their regions mapped;
* `free`: a thread ends and its region is unmapped. -/
inductive ErrnoHist (c : Cfg) (g : Nat) : Mem → Space → List ErrnoThread → Prop
  | start {m s junk i limit out} : MainStart c s i limit → initializeMain c m junk i = some out →
      out.guardVar = g →
      ErrnoHist c g out.mem (spaceAfter c.page s out.calls)
        [⟨out.tp, ⟨(mainRecord c i.map).lo, i.map, (mainAreas c).stop⟩, 0⟩]
  | create {m s ts junk k fn args ss gs map tid parent ntp} : ErrnoHist c g m s ts → parent ∈ ts →
      Creation c s k args ss gs map tid →
      newThreadPointer (create c m junk k parent.tp fn args ss gs).calls = some ntp →
      ErrnoHist c g (create c m junk k parent.tp fn args ss gs).mem
        (spaceAfter c.page s (create c m junk k parent.tp fn args ss gs).calls)
        (⟨ntp, ⟨(record c ss gs map).lo, map, (areas c ss gs).stop⟩, 0⟩ :: ts)
  | store {m s ts₁ t ts₂ loc v} : ErrnoHist c g m s (ts₁ ++ t :: ts₂) →
      errnoLocation c t.tp = some loc → v < 2 ^ 32 →
      ErrnoHist c g (stN c.endian 4 m loc v) s (ts₁ ++ { t with errno := v } :: ts₂)
  | other {m s ts m' s'} : ErrnoHist c g m s ts →
      (∀ t ∈ ts, ∀ i, i < c.ws → m' (canaryAddr c t.live.md + i) = m (canaryAddr c t.live.md + i)) →
      (∀ t ∈ ts, ∀ loc, errnoLocation c t.tp = some loc → ∀ i, i < 4 → m' (loc + i) = m (loc + i)) →
      (∀ t ∈ ts, ∀ x, t.live.map ≤ x → x < t.live.map + natRoundUp t.live.len c.page → s' x ≠ .unmapped) →
      ErrnoHist c g m' s' ts
  | free {m s ts₁ t ts₂} : ErrnoHist c g m s (ts₁ ++ t :: ts₂) →
      ErrnoHist c g m (setPerm c.page s t.live.map t.live.len .unmapped) (ts₁ ++ ts₂)

end Origin
