/-!
# Byte-addressed memory with an access log

The substrate on which `src/mem/*.rs` is modelled.  Every load and store the
code performs goes through `St.ld*`/`St.st*`, which also records the access, so
one model serves both the functional claims (C01–C05) and the footprint claim (C06).

Simplifications: addresses are `Nat` (Rust's in-bounds pointer `add`/`sub` is undefined
behaviour on overflow); every address is readable and writable (faults are
expressed through the log); memory is sequential (no other thread races).
-/

namespace Origin

/-- A `u8`.  (src/mem/impls.rs:37, src/mem/small.rs:10.) -/
abbrev Byte := BitVec 8

/-- Memory contents: the byte at each address.  Not in /repo: what the pointers of src/mem/*.rs (e.g. impls.rs:37) point into. -/
abbrev Mem := Nat → Byte

/-- `cfg(target_endian)`: src/mem/impls.rs:84-87, 187-190. -/
inductive Endian where
  | little
  | big
deriving DecidableEq, Repr

/-- One memory access: starting address and number of bytes.  Not in /repo: a record of the loads and stores in src/mem/*.rs (e.g. impls.rs:42, 55).
-/
inductive Access where
  | ld (addr size : Nat)
  | st (addr size : Nat)
deriving DecidableEq, Repr

/-- Memory together with the log of accesses made so far, newest first.  Not in /repo: memory as seen by src/mem/*.rs (e.g. impls.rs:37-134). -/
structure St where
  mem : Mem
  log : List Access

/-- Assemble `n` bytes, the first one being the least significant.  (Word loads: src/mem/impls.rs:29-34, 55.) -/
def packLE (f : Nat → Byte) : (n : Nat) → BitVec (8 * n)
  | 0 => 0#0
  | n + 1 => (packLE (fun i => f (i + 1)) n ++ f 0 : BitVec (8 * n + 8))

/-- The value of the `ws`-byte word stored at `a`.  (Word loads: src/mem/impls.rs:29-34, 55, 83.) -/
def wordAt (e : Endian) (ws : Nat) (m : Mem) (a : Nat) : BitVec (8 * ws) :=
  match e with
  | .little => packLE (fun i => m (a + i)) ws
  | .big => packLE (fun i => m (a + (ws - 1 - i))) ws

/-- The byte of `w` that is stored at offset `i` from the word's address.  (Word stores: src/mem/impls.rs:55, 90, 267.) -/
def byteOf (e : Endian) {ws : Nat} (w : BitVec (8 * ws)) (i : Nat) : Byte :=
  match e with
  | .little => w.extractLsb' (8 * i) 8
  | .big => w.extractLsb' (8 * (ws - 1 - i)) 8

/-- Load one byte (`*p` for `p : *const u8`).  src/mem/impls.rs:42, src/mem/small.rs:15. -/
def St.ld8 (s : St) (a : Nat) : Byte × St :=
  (s.mem a, { s with log := .ld a 1 :: s.log })

/-- Store one byte (`*p = b` for `p : *mut u8`).  src/mem/impls.rs:42, src/mem/small.rs:15. -/
def St.st8 (s : St) (a : Nat) (b : Byte) : St :=
  { mem := fun x => if x = a then b else s.mem x, log := .st a 1 :: s.log }

/-- Load a `ws`-byte word.  src/mem/impls.rs:29-34, 55, 83. -/
def St.ldW (e : Endian) (ws : Nat) (s : St) (a : Nat) : BitVec (8 * ws) × St :=
  (wordAt e ws s.mem a, { s with log := .ld a ws :: s.log })

/-- Store a `ws`-byte word.  src/mem/impls.rs:55, 90, 267. -/
def St.stW (e : Endian) (ws : Nat) (s : St) (a : Nat) (w : BitVec (8 * ws)) : St :=
  { mem := fun x => if a ≤ x ∧ x < a + ws then byteOf e w (x - a) else s.mem x,
    log := .st a ws :: s.log }

/-- `a & b` on `usize` values of `8 * ws` bits.  src/mem/impls.rs:117, 123, src/thread/linux_raw.rs:1106. -/
def uand (ws a b : Nat) : Nat := (BitVec.ofNat (8 * ws) a &&& BitVec.ofNat (8 * ws) b).toNat

/-- `!a` on `usize`.  src/mem/impls.rs:77, 123. -/
def unot (ws a : Nat) : Nat := (~~~ BitVec.ofNat (8 * ws) a).toNat

/-- `a.wrapping_neg()` on `usize`.  src/mem/impls.rs:117, src/thread/linux_raw.rs:1106. -/
def uneg (ws a : Nat) : Nat := (- BitVec.ofNat (8 * ws) a).toNat

/-- `a.wrapping_sub(b)` on `usize`.  src/mem/fast.rs:22, src/mem/small.rs:28, src/thread/linux_raw.rs:271. -/
def uwsub (ws a b : Nat) : Nat := (BitVec.ofNat (8 * ws) a - BitVec.ofNat (8 * ws) b).toNat

end Origin
