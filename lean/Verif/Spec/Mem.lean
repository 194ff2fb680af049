import Verif.Model.MemBase
/-!
# Specification of the memory functions, independent of any implementation
-/

namespace Origin.Spec
open Origin

/-- Memory `m` after the `n` bytes at `src` have been transferred to `dst`: each destination byte
has the value its source byte had in `m`; every other byte is as in `m`. -/
def moved (m : Mem) (dst src n : Nat) : Mem :=
  fun a => if dst ≤ a ∧ a < dst + n then m (src + (a - dst)) else m a

/-- Memory `m` with the `n` bytes from `p` set to `c`. -/
def filled (m : Mem) (p n : Nat) (c : Byte) : Mem :=
  fun a => if p ≤ a ∧ a < p + n then c else m a

/-- `r` is the comparison result of the `n` bytes at `a` and at `b`: zero if all agree, else the
difference, as unsigned bytes, at the first index where they differ. -/
def CmpResult (m : Mem) (a b n : Nat) (r : Int) : Prop :=
  ((∀ i, i < n → m (a + i) = m (b + i)) ∧ r = 0) ∨
  ∃ i, i < n ∧ (∀ j, j < i → m (a + j) = m (b + j)) ∧ m (a + i) ≠ m (b + i) ∧
    r = ((m (a + i)).toNat : Int) - ((m (b + i)).toNat : Int)

/-- `i` is the index of the first NUL of the string at `p`. -/
def FirstNul (m : Mem) (p i : Nat) : Prop := m (p + i) = 0 ∧ ∀ j, j < i → m (p + j) ≠ 0

/-- The access touches only bytes of `[lo, lo + n)`. -/
def Within (lo n addr size : Nat) : Prop := lo ≤ addr ∧ addr + size ≤ lo + n

/-- The access is a naturally aligned block of at most 16 bytes that contains at least one byte of
`[lo, lo + n)`.  Such a block lies in one page (any page size that is a multiple of 16), the page of
that byte. -/
def AlignedTouching (lo n addr size : Nat) : Prop :=
  (size = 4 ∨ size = 8 ∨ size = 16) ∧ size ∣ addr ∧ ∃ b, lo ≤ b ∧ b < lo + n ∧ addr ≤ b ∧ b < addr + size

/-- Footprint of a copy.  `hw`: the target may load words at unaligned addresses.  Stores are always
naturally aligned. -/
def CopyFootprint (hw : Bool) (dst src n : Nat) : Access → Prop
  | .ld a k => (Within src n a k ∧ (hw = true ∨ k ∣ a)) ∨ AlignedTouching src n a k
  | .st a k => Within dst n a k ∧ k ∣ a

/-- Footprint of a fill. -/
def FillFootprint (p n : Nat) : Access → Prop
  | .ld _ _ => False
  | .st a k => Within p n a k ∧ k ∣ a

/-- Footprint of a comparison. -/
def CmpFootprint (a b n : Nat) : Access → Prop
  | .ld x k => Within a n x k ∨ Within b n x k
  | .st _ _ => False

/-- Footprint of a string scan: `n` counts the terminator.  Every load is naturally aligned (`movdqa` faults otherwise). -/
def ScanFootprint (p n : Nat) : Access → Prop
  | .ld x k => (Within p n x k ∧ k ∣ x) ∨ AlignedTouching p n x k
  | .st _ _ => False

end Origin.Spec
