import Verif.Model.Ctors
import Verif.Spec.Process
import Verif.Spec.LogProc
/-!
# What the linker does with `.init_array` sections
-/

namespace Origin.Ctors

open Proc (Cfg Ev)

/-- `e` must not come after `e'`: lower numbers first, then the sections without a number. -/
def Entry.NotAfter (e e' : Entry) : Prop :=
  match e.prio, e'.prio with
  | _, none => True
  | none, some _ => False
  | some p, some q => p ≤ q

/-- `e` comes before `e'`. -/
def Entry.Before (e e' : Entry) : Prop := ¬ e'.NotAfter e

/-- The array `a` is what the linker makes of the entries `es` of all object files (GNU ld's `SORT_BY_INIT_PRIORITY`): all of them, by priority; the order of entries with the
same priority is left open.  (Its addresses are in `Cfg.Ok`.) -/
structure Linked (es a : List Entry) : Prop where
  perm : a.Perm es
  sorted : a.Pairwise Entry.NotAfter

/-- The function in slot `i` has been called. -/
def Called (c : Cfg) (l : List Ev) (i : Nat) : Prop := .ctor (slot c i) c.args ∈ l

/-- A slot of the array that holds `e`. -/
def At (a : List Entry) (i : Nat) (e : Entry) : Prop := a[i]? = some e

end Origin.Ctors
