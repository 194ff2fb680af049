/-!
# Specification: the initial stack as the System V ABI describes it
-/

namespace Origin.Boot

/-- The words `xs` are stored one after another from address `a`. -/
def Words {w : Nat} (ws : Nat) (mem : Nat → BitVec w) (a : Nat) (xs : List (BitVec w)) : Prop :=
  ∀ i (h : i < xs.length), mem (a + i * ws) = xs[i]

/-- The kernel's initial stack at `sp`: argc, the argument pointers, NULL, the environment pointers,
NULL, the auxiliary vector's words. -/
def InitialStack {w : Nat} (ws : Nat) (mem : Nat → BitVec w) (sp : Nat) (argv envp auxv : List (BitVec w)) : Prop :=
  Words ws mem sp (BitVec.ofNat w argv.length :: (argv ++ 0#w :: (envp ++ 0#w :: auxv)))

end Origin.Boot
