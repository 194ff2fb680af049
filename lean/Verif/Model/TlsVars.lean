import Verif.Model.History
import Verif.Spec.TlsVars
/-!
# Thread-local variables over histories of thread creation

`initialize_main` (src/thread/linux_raw.rs:326-384) and `create` (src/thread/linux_raw.rs:484-613) give each
thread a TLS block; compiled code stores to it and reads it back, through the thread pointer or through
`current_tls_addr` (src/thread/linux_raw.rs:1015-1042).
-/

namespace Origin
open Spec

/-- A live thread of a history with thread-local variables: its thread pointer, its record and region, and what
each byte of its thread-local variables is meant to hold — the byte it last stored there, or the program's
initialiser.  (`thread_pointer()`, src/thread/linux_raw.rs:940-946; the block, lines 455-467.) -/
structure TlsThread where
  tp : Nat
  live : LiveThread
  vals : Nat → Byte

/-- The initial values of the thread-local variables of a program with the initialiser `img`: the bytes of the
initialiser, then zeros.  (ELF: `p_filesz` and `p_memsz` of `PT_TLS`; src/thread/linux_raw.rs:219-232.) -/
def tlsInitial (c : Cfg) (img : Nat → Byte) : Nat → Byte := fun j => if j < c.tls.fileSize then img j else 0

/-- The states a process can be in, as `Hist`, with what the thread-local variables of each thread are meant to
hold.  `img` is the initialiser in the executable; `R` says which ways of finding variables the program's code
uses.
* `start`: `initialize_main` (src/thread/linux_raw.rs:326-384), on the thread pointer it installs;
* `create`: a live thread calls `create` (src/thread/linux_raw.rs:484-613); the new thread runs on the
  thread pointer passed to `clone`;
* `store`: a live thread stores a byte to a thread-local variable (wider stores are several of these);
* `other`: anything else that leaves live threads' canaries, the bytes of their thread-local variables and
  the initialiser alone, and keeps their regions mapped;
* `free`: a thread ends and its region is unmapped (src/thread/linux_raw.rs:742, 926). -/
inductive TlsHist (c : Cfg) (g : Nat) (img : Nat → Byte) (R : Route → Prop) :
    Mem → Space → List TlsThread → Prop
  | start {m s junk i limit out} : MainStart c s i limit → initializeMain c m junk i = some out →
      out.guardVar = g → (∀ j, j < c.tls.fileSize → m (c.tls.addr + j) = img j) →
      TlsHist c g img R out.mem (spaceAfter c.page s out.calls)
        [⟨out.tp, ⟨(mainRecord c i.map).lo, i.map, (mainAreas c).stop⟩, tlsInitial c img⟩]
  | create {m s ts junk k fn args ss gs map tid parent ntp} : TlsHist c g img R m s ts → parent ∈ ts →
      Creation c s k args ss gs map tid →
      newThreadPointer (create c m junk k parent.tp fn args ss gs).calls = some ntp →
      TlsHist c g img R (create c m junk k parent.tp fn args ss gs).mem
        (spaceAfter c.page s (create c m junk k parent.tp fn args ss gs).calls)
        (⟨ntp, ⟨(record c ss gs map).lo, map, (areas c ss gs).stop⟩, tlsInitial c img⟩ :: ts)
  | store {m s ts₁ t ts₂ r off a v} : TlsHist c g img R m s (ts₁ ++ t :: ts₂) → R r → off < c.tls.memSize →
      varAddr c r t.tp off = some a →
      TlsHist c g img R (fun x => if x = a then v else m x) s
        (ts₁ ++ { t with vals := fun j => if j = off then v else t.vals j } :: ts₂)
  | other {m s ts m' s'} : TlsHist c g img R m s ts →
      (∀ t ∈ ts, ∀ i, i < c.ws → m' (canaryAddr c t.live.md + i) = m (canaryAddr c t.live.md + i)) →
      (∀ t ∈ ts, ∀ r, R r → ∀ off, off < c.tls.memSize → ∀ a, varAddr c r t.tp off = some a → m' a = m a) →
      (∀ j, j < c.tls.fileSize → m' (c.tls.addr + j) = m (c.tls.addr + j)) →
      (∀ t ∈ ts, ∀ x, t.live.map ≤ x → x < t.live.map + natRoundUp t.live.len c.page → s' x ≠ .unmapped) →
      TlsHist c g img R m' s' ts
  | free {m s ts₁ t ts₂} : TlsHist c g img R m s (ts₁ ++ t :: ts₂) →
      TlsHist c g img R m (setPerm c.page s t.live.map t.live.len .unmapped) (ts₁ ++ ts₂)

end Origin
