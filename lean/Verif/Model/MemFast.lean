import Verif.Model.MemSmall
import Verif.Model.MemImpls
import Verif.Model.MemX86
/-!
# `src/mem/fast.rs` and `src/mem/mod.rs`: the exported C functions, for every build configuration
-/

namespace Origin

/-- The `mod impls` selected by `cfg_attr(target_arch …)`, src/mem/fast.rs:10-12. -/
inductive Backend where
  /-- `x86_64.rs`, with the `ermsb` / `sse2` target features. -/
  | x86_64 (ermsb sse2 : Bool)
  /-- `impls.rs` with byte order, `size_of::<usize>()` and hardware unaligned access. -/
  | generic (e : Endian) (ws : Nat) (hw : Bool)
deriving DecidableEq, Repr

/-- `size_of::<usize>()` of the target.  src/mem/impls.rs:7. -/
def Backend.ws : Backend → Nat
  | .x86_64 .. => 8
  | .generic _ ws _ => ws

/-- `impls::copy_forward`. src/mem/fast.rs:10-12 -/
def Backend.copyForward : Backend → St → Nat → Nat → Nat → St
  | .x86_64 ermsb _, s, d, r, n => X86.copyForward ermsb s d r n
  | .generic e ws hw, s, d, r, n => Impls.copyForward e ws hw s d r n

/-- `impls::copy_backward`. src/mem/fast.rs:10-12 -/
def Backend.copyBackward : Backend → St → Nat → Nat → Nat → St
  | .x86_64 .., s, d, r, n => X86.copyBackward s d r n
  | .generic e ws hw, s, d, r, n => Impls.copyBackward e ws hw s d r n

/-- `impls::set_bytes`. src/mem/fast.rs:10-12 -/
def Backend.setBytes : Backend → St → Nat → Byte → Nat → St
  | .x86_64 ermsb _, s, d, c, n => X86.setBytes ermsb s d c n
  | .generic e ws _, s, d, c, n => Impls.setBytes e ws s d c n

/-- `impls::compare_bytes`. src/mem/fast.rs:10-12 -/
def Backend.compareBytes : Backend → St → Nat → Nat → Nat → Int × St
  | .x86_64 .., s, a, b, n => X86.compareBytes s a b n
  | .generic .., s, a, b, n => Impls.compareBytes s a b n

/-- `impls::c_string_length`. src/mem/fast.rs:10-12 -/
def Backend.cStringLength : Backend → Nat → St → Nat → Option (Nat × St)
  | .x86_64 _ sse2, fuel, s, p => X86.cStringLength sse2 fuel s p
  | .generic .., fuel, s, p => Impls.cStringLength fuel s p

namespace Fast

/-- src/mem/fast.rs:15-18 `memcpy`. -/
def memcpy (b : Backend) (s : St) (dest src n : Nat) : Nat × St :=
  (dest, b.copyForward s dest src n)

/-- src/mem/fast.rs:21-31 `memmove`. -/
def memmove (b : Backend) (s : St) (dest src n : Nat) : Nat × St :=
  let delta := uwsub b.ws dest src
  if delta ≥ n then (dest, b.copyForward s dest src n)
  else (dest, b.copyBackward s dest src n)

/-- src/mem/fast.rs:34-37 `memset`; `c as u8` keeps the low 8 bits of the `c_int`. -/
def memset (b : Backend) (s : St) (p : Nat) (c : BitVec 32) (n : Nat) : Nat × St :=
  (p, b.setBytes s p (c.setWidth 8) n)

/-- src/mem/fast.rs:40-42 `memcmp`. -/
def memcmp (b : Backend) (s : St) (s1 s2 n : Nat) : Int × St := b.compareBytes s s1 s2 n

/-- src/mem/fast.rs:45-47 `bcmp`. -/
def bcmp (b : Backend) (s : St) (s1 s2 n : Nat) : Int × St := memcmp b s s1 s2 n

/-- src/mem/fast.rs:50-52 `strlen`. -/
def strlen (b : Backend) (fuel : Nat) (s : St) (p : Nat) : Option (Nat × St) :=
  b.cStringLength fuel s p

end Fast

/-- src/mem/mod.rs:4-7: which implementation is compiled in (feature `optimize_for_size`). -/
inductive MemCfg where
  /-- `optimize_for_size`; `ws` is `size_of::<usize>()`. -/
  | small (ws : Nat)
  | fast (b : Backend)
deriving DecidableEq, Repr

/-- `size_of::<usize>()` of the configuration.  src/mem/impls.rs:7, src/mem/mod.rs:4-7. -/
def MemCfg.ws : MemCfg → Nat
  | .small ws => ws
  | .fast b => b.ws

/-- A configuration of a supported target: 32- or 64-bit (src/mem/mod.rs:4-7, src/arch/*.rs). -/
def MemCfg.Valid (c : MemCfg) : Prop := c.ws = 4 ∨ c.ws = 8

/-- Validity can be decided (src/mem/mod.rs:4-7). -/
instance (c : MemCfg) : Decidable c.Valid := by unfold MemCfg.Valid; infer_instance

/-- The exported `memcpy` (src/mem/mod.rs:4-7). -/
def MemCfg.memcpy : MemCfg → St → Nat → Nat → Nat → Nat × St
  | .small _, s, d, r, n => Small.memcpy s d r n
  | .fast b, s, d, r, n => Fast.memcpy b s d r n

/-- The exported `memmove` (src/mem/mod.rs:4-7). -/
def MemCfg.memmove : MemCfg → St → Nat → Nat → Nat → Nat × St
  | .small ws, s, d, r, n => Small.memmove ws s d r n
  | .fast b, s, d, r, n => Fast.memmove b s d r n

/-- The exported `memset` (src/mem/mod.rs:4-7). -/
def MemCfg.memset : MemCfg → St → Nat → BitVec 32 → Nat → Nat × St
  | .small _, s, d, c, n => Small.memset s d c n
  | .fast b, s, d, c, n => Fast.memset b s d c n

/-- The exported `memcmp` (src/mem/mod.rs:4-7). -/
def MemCfg.memcmp : MemCfg → St → Nat → Nat → Nat → Int × St
  | .small _, s, a, b, n => Small.memcmp s a b n
  | .fast bk, s, a, b, n => Fast.memcmp bk s a b n

/-- The exported `bcmp` (src/mem/mod.rs:4-7). -/
def MemCfg.bcmp : MemCfg → St → Nat → Nat → Nat → Int × St
  | .small _, s, a, b, n => Small.bcmp s a b n
  | .fast bk, s, a, b, n => Fast.bcmp bk s a b n

/-- The exported `strlen` (src/mem/mod.rs:4-7). -/
def MemCfg.strlen : MemCfg → Nat → St → Nat → Option (Nat × St)
  | .small _, fuel, s, p => Small.strlen fuel s p
  | .fast b, fuel, s, p => Fast.strlen b fuel s p

end Origin
