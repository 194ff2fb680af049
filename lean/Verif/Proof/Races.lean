import Verif.Spec.Races
import Verif.Proof.Lifecycle6
/-!
# Happens-before: proofs
-/

namespace Origin.Life

variable {sig : Bool} {s s' : State} {tr es : List Acc}

theorem lt_of_some {α : Type} {l : List α} {i : Nat} {a : α} (h : l[i]? = some a) : i < l.length := by
  rw [List.getElem?_eq_some_iff] at h; exact h.1

theorem some_app {α : Type} {l : List α} (es : List α) {i : Nat} {a : α} (h : l[i]? = some a) : (l ++ es)[i]? = some a := by
  rw [List.getElem?_append_left (lt_of_some h)]; exact h

theorem HB.lt {i j : Nat} (h : HB tr i j) : i < j := by
  induction h with
  | po h => exact h
  | spawn h => exact h
  | sync h => exact h
  | trans _ _ h1 h2 => omega

theorem HB.app (es : List Acc) {i j : Nat} (h : HB tr i j) : HB (tr ++ es) i j := by
  induction h with
  | po h a b e => exact .po h (some_app es a) (some_app es b) e
  | spawn h a b e => exact .spawn h (some_app es a) (some_app es b) e
  | sync h a b e =>
    refine .sync h (some_app es a) (some_app es b) fun k t' r' h1 h2 => ?_
    rw [List.getElem?_append_left (by have := lt_of_some b; omega)]
    exact e k t' r' h1 h2
  | trans _ _ h1 h2 => exact .trans h1 h2

/-- Access `i` happens before whatever `j` does next. -/
def Bef (tr : List Acc) (i : Nat) (j : Inst) : Prop :=
  (∃ p, tr[i]? = some (.init p j)) ∨ ∃ k b, tr[k]? = some b ∧ b.actor = j ∧ (k = i ∨ HB tr i k)

theorem Bef.app (es : List Acc) {i : Nat} {j : Inst} (h : Bef tr i j) : Bef (tr ++ es) i j := by
  rcases h with ⟨p, h⟩ | ⟨k, b, h1, h2, h3⟩
  · exact .inl ⟨p, some_app es h⟩
  · exact .inr ⟨k, b, some_app es h1, h2, h3.imp id (HB.app es)⟩

theorem last_get (e : Acc) : (tr ++ [e])[tr.length]? = some e := by simp

theorem Bef.hb {i : Nat} {j : Inst} (h : Bef tr i j) {e : Acc} (he : e.actor = j) : HB (tr ++ [e]) i tr.length := by
  rcases h with ⟨p, h⟩ | ⟨k, b, h1, h2, h3⟩
  · exact .spawn (lt_of_some h) (some_app _ h) (last_get e) he
  · have hk : HB (tr ++ [e]) k tr.length := .po (lt_of_some h1) (some_app _ h1) (last_get e) (h2.trans he.symm)
    rcases h3 with rfl | h3
    · exact hk
    · exact .trans (h3.app _) hk

/-- All accesses to `h`'s record happen before whatever `j` does next. -/
def Knows (tr : List Acc) (j h : Inst) : Prop := ∀ i a, tr[i]? = some a → a.Touches h → Bef tr i j

theorem getElem?_app {α : Type} {l es : List α} {i : Nat} {a : α} (h : (l ++ es)[i]? = some a) : l[i]? = some a ∨ a ∈ es := by
  by_cases hi : i < l.length
  · rw [List.getElem?_append_left hi] at h; exact .inl h
  · rw [List.getElem?_append_right (by omega)] at h; exact .inr (List.mem_of_getElem? h)

theorem Knows.app {j h : Inst} (K : Knows tr j h) (hes : ∀ e ∈ es, ¬ e.Touches h) : Knows (tr ++ es) j h := by
  intro i a hi ht
  rcases getElem?_app hi with hi | hi
  · exact (K i a hi ht).app es
  · exact absurd ht (hes a hi)

/-- After an access by `j` itself. -/
theorem Knows.self {j h : Inst} (K : Knows tr j h) {e : Acc} (he : e.actor = j) : Knows (tr ++ [e]) j h := by
  intro i a hi ht
  by_cases hl : i < tr.length
  · rw [List.getElem?_append_left hl] at hi; exact (K i a hi ht).app _
  · have hi' := lt_of_some hi
    simp at hi'
    have : i = tr.length := by omega
    subst this
    rw [last_get] at hi; injection hi with hi; subst hi
    exact .inr ⟨_, _, last_get _, he, .inl rfl⟩

/-- All accesses to `h`'s record happen before the last write to its field `l`. -/
def VKnows (tr : List Acc) (h : Inst) (l : Loc) : Prop :=
  ∃ k t r, tr[k]? = some (.atomic t h l r true) ∧ (∀ k' t' r', k < k' → tr[k']? ≠ some (.atomic t' h l r' true)) ∧
    ∀ i a, tr[i]? = some a → a.Touches h → HB tr i k

theorem VKnows.app {h : Inst} {l : Loc} (K : VKnows tr h l) (hes : ∀ e ∈ es, ¬ e.Touches h)
    (hw : ∀ t r, .atomic t h l r true ∉ es) : VKnows (tr ++ es) h l := by
  obtain ⟨k, t, r, h1, h2, h3⟩ := K
  refine ⟨k, t, r, some_app es h1, fun k' t' r' hk hc => ?_, fun i a hi ht => ?_⟩
  · rcases getElem?_app hc with hc | hc
    · exact h2 k' t' r' hk hc
    · exact hw _ _ hc
  · rcases getElem?_app hi with hi | hi
    · exact (h3 i a hi ht).app es
    · exact absurd ht (hes a hi)

/-- A write by a thread that knows. -/
theorem Knows.write {t h : Inst} {l : Loc} {r : Bool} (K : Knows tr t h) : VKnows (tr ++ [.atomic t h l r true]) h l := by
  refine ⟨tr.length, t, r, last_get _, fun k' t' r' hk hc => ?_, fun i a hi ht => ?_⟩
  · have := lt_of_some hc; simp at this; omega
  · rcases getElem?_app hi with hi | hi
    · exact (K i a hi ht).hb rfl
    · simp at hi; subst hi; exact absurd ht (by simp [Acc.Touches])

/-- A read of that write. -/
theorem VKnows.read {j h : Inst} {l : Loc} {w : Bool} (K : VKnows tr h l) : Knows (tr ++ [.atomic j h l true w]) j h := by
  obtain ⟨k, t, r, h1, h2, h3⟩ := K
  intro i a hi ht
  rcases getElem?_app hi with hi | hi
  · refine .inr ⟨tr.length, _, last_get _, rfl, .inr (.trans ((h3 i a hi ht).app _) ?_)⟩
    refine .sync (lt_of_some h1) (some_app _ h1) (last_get _) fun k' t' r' q1 q2 => ?_
    rw [List.getElem?_append_left q2]
    exact h2 k' t' r' q1
  · simp at hi; subst hi; exact absurd ht (by simp [Acc.Touches])

theorem RaceFree.app {h : Inst} (R : RaceFree tr h) (hes : ∀ e ∈ es, ¬ e.Touches h) : RaceFree (tr ++ es) h := by
  intro i j a b hij hi hj ha hb
  rcases getElem?_app hi with hi | hi
  · rcases getElem?_app hj with hj | hj
    · exact (R i j a b hij hi hj ha hb).app es
    · exact absurd hb (hes _ hj)
  · exact absurd ha (hes _ hi)

theorem RaceFree.self {j h : Inst} (R : RaceFree tr h) (K : Knows tr j h) {e : Acc} (he : e.actor = j) : RaceFree (tr ++ [e]) h := by
  intro i k a b hik hi hk ha hb
  have hk' := lt_of_some hk
  simp at hk'
  rw [List.getElem?_append_left (by omega)] at hi
  by_cases hl : k < tr.length
  · rw [List.getElem?_append_left hl] at hk
    exact (R i k a b hik hi hk ha hb).app _
  · have : k = tr.length := by omega
    subst this
    exact (K i a hi ha).hb he

/-! ## the invariant -/

/-- The call's own accesses so far have made it see everything `h` did. -/
def Call.Informed : Call → Prop
  | .swap .. | .loadRet .. => False
  | .load k _ _ | .wait k _ _ _ | .blocked k _ _ => k = .detach
  | .readFields .. | .drop .. | .unmap .. => True

/-- `h` is past the store of its return value (or has taken the detached path). -/
def Stage.Stored : Stage → Prop
  | .exitCall | .kClear | .kWake | .dead => True
  | _ => False

/-- No thread but `h` has accessed plain fields of `h`'s record. -/
def Quiet (s : State) (h : Inst) : Prop :=
  match s.cons h with
  | none | some (_, _, .start) | some (_, _, .waiting) => True
  | some (j, .join, .freeing) => ∃ a, s.call j = some (.loadRet a h)
  | _ => False

structure RInv (h : Inst) (s : State) (tr : List Acc) : Prop where
  touched : ∀ a x, a ∈ tr → a.Touches x → s.thr x ≠ none
  own : ∀ T, s.thr h = some T → ¬ T.stage.gone → Knows tr h h
  det : ∀ T r, s.thr h = some T → s.view T.addr h = some r → r.detached = .abandoned → Quiet s h → VKnows tr h .detached
  ret : ∀ T, s.thr h = some T → T.stage.Stored → Quiet s h → VKnows tr h .ret
  call : ∀ j c, s.call j = some c → c.target = h → c.Informed → Knows tr j h
  free : RaceFree tr h

/-- Steps that leave what matters for `h`. -/
theorem RInv.frame {h : Inst} (R : RInv h s tr) (es : List Acc)
    (hes : ∀ e ∈ es, ¬ e.Touches h) (hw : ∀ t l r, .atomic t h l r true ∉ es)
    (k0 : ∀ x, s.thr x ≠ none → s'.thr x ≠ none) (k0' : ∀ e x, e ∈ es → e.Touches x → s'.thr x ≠ none)
    (k1 : ∀ T', s'.thr h = some T' → ∃ T, s.thr h = some T ∧ T.addr = T'.addr ∧ (T.stage.gone → T'.stage.gone) ∧
      (T'.stage.Stored → Quiet s' h → T.stage.Stored))
    (k2 : ∀ T r', s.thr h = some T → s'.view T.addr h = some r' → r'.detached = .abandoned →
      ∃ r, s.view T.addr h = some r ∧ r.detached = .abandoned)
    (k3 : Quiet s' h → Quiet s h)
    (k4 : ∀ j c', s'.call j = some c' → c'.target = h → c'.Informed → ∃ c, s.call j = some c ∧ c.target = h ∧ c.Informed) :
    RInv h s' (tr ++ es) where
  touched a x ha ht := by
    rcases List.mem_append.mp ha with ha | ha
    · exact k0 x (R.touched a x ha ht)
    · exact k0' a x ha ht
  own T' hT hg := by
    obtain ⟨T, q1, -, q2, -⟩ := k1 T' hT
    exact (R.own T q1 fun h => hg (q2 h)).app hes
  det T' r' hT hv hr hq := by
    obtain ⟨T, q1, q2, -, -⟩ := k1 T' hT
    obtain ⟨r, p1, p2⟩ := k2 T r' q1 (by rw [q2]; exact hv) hr
    exact (R.det T r q1 p1 p2 (k3 hq)).app hes (fun t r => hw t _ r)
  ret T' hT hst hq := by
    obtain ⟨T, q1, -, -, q2⟩ := k1 T' hT
    exact (R.ret T q1 (q2 hst hq) (k3 hq)).app hes (fun t r => hw t _ r)
  call j c' hc ht hi := by
    obtain ⟨c, q1, q2, q3⟩ := k4 j c' hc ht hi
    exact (R.call j c q1 q2 q3).app hes
  free := R.free.app hes

end Origin.Life
