import Verif.Model.Races
/-!
# Happens-before and data races

The happens-before relation of the C++/Rust memory model on a sequence of accesses (oldest first), with positions in the sequence as names.
-/

namespace Origin.Life

/-- The thread that makes the access. -/
def Acc.actor : Acc → Inst
  | .init p _ => p
  | .plain t _ => t
  | .atomic t _ _ _ _ => t
  | .user t _ => t

/-- A non-atomic access to `h`'s record. -/
def Acc.Touches (h : Inst) : Acc → Prop
  | .init _ h' => h' = h
  | .plain _ h' => h' = h
  | .atomic .. | .user .. => False

/-- Access `i` happens before access `j`. -/
inductive HB (tr : List Acc) : Nat → Nat → Prop
  /-- program order -/
  | po {i j a b} : i < j → tr[i]? = some a → tr[j]? = some b → a.actor = b.actor → HB tr i j
  /-- what a thread did before it started `h` happens before everything `h` does -/
  | spawn {i j p h b} : i < j → tr[i]? = some (.init p h) → tr[j]? = some b → b.actor = h → HB tr i j
  /-- an atomic read synchronises with the write it reads from, the last one before it -/
  | sync {i j t u h l r w} : i < j → tr[i]? = some (.atomic t h l r true) → tr[j]? = some (.atomic u h l true w) →
      (∀ k t' r', i < k → k < j → tr[k]? ≠ some (.atomic t' h l r' true)) → HB tr i j
  | trans {i j k} : HB tr i j → HB tr j k → HB tr i k

/-- No data race on `h`'s record: of any two non-atomic accesses, one happens before the other. -/
def RaceFree (tr : List Acc) (h : Inst) : Prop :=
  ∀ i j a b, i < j → tr[i]? = some a → tr[j]? = some b → a.Touches h → b.Touches h → HB tr i j

end Origin.Life
