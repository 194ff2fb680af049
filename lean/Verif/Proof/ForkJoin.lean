import Verif.Spec.ForkJoin
import Verif.Proof.Programs2
set_option linter.unusedSimpArgs false
/-! # Fork-join programs on the abstract machine -/

namespace Origin.ForkJoin
open User

variable {S : Type} {J : Job S}

/-- Where thread `i` is, when its cell is `x`. -/
inductive WInv (J : Job S) (i : Nat) (x : S) : AThr Pt → Prop
  | begin {tid} : x = J.start i → WInv J i x ⟨.run (.begin i) .start, [], tid⟩
  | work {tid} (k) : k ≤ (J.body i).length → x = ((J.body i).take k).foldl (fun x f => f x) (J.start i) →
      WInv J i x ⟨.run (.work i k) .start, [.atEnd i], tid⟩
  | give {tid} : x = J.result i → WInv J i x ⟨.run (.give (J.val i (J.result i))) .start, [.atEnd i], tid⟩
  | ending {tid} : x = J.result i → WInv J i x ⟨.next (.ending (J.val i (J.result i))), [.atEnd i], tid⟩
  | atEnd {tid} : x = J.result i → WInv J i x ⟨.run (.atEnd i) (.ending (J.val i (J.result i))), [], tid⟩
  | endRet {tid} : x = J.last i (J.result i) → WInv J i x ⟨.run .endRet (.ending (J.val i (J.result i))), [], tid⟩
  | over {tid} : x = J.last i (J.result i) → WInv J i x ⟨.next (.ending (J.val i (J.result i))), [], tid⟩
  | done {tid} : x = J.last i (J.result i) → WInv J i x ⟨.done (J.val i (J.result i)), [], tid⟩

/-- Thread `i` has finished. -/
def Over (J : Job S) (i : Nat) (W : AThr Pt) : Prop := W.pos = .done (J.val i (J.result i))

/-- The values of the first `k` threads. -/
def vals (J : Job S) (k : Nat) : List Nat := (List.range k).map fun i => J.val i (J.result i)

/-- Where the main thread is; `ws`: the others, `l`: those joined. -/
inductive MInv (J : Job S) (l : List Nat) (ws : List (AThr Pt)) (res : List Nat) : Bool → Pos Pt → Prop
  | ctors : ws = [] → l = [] → MInv J l ws res false (.next (.ctors []))
  | make : ws.length ≤ J.n → l = [] → MInv J l ws res false (.run (.make (List.range' 1 ws.length)) .main)
  | collect (k d) : ws.length = J.n → k + d = J.n → (∀ i W, i < k → ws[i]? = some W → Over J i W) → (∀ u ∈ l, u ≤ k) →
      MInv J l ws res false (.run (.collect (List.range' (k + 1) d) (vals J k)) .main)
  | fin {b p} : ws.length = J.n → (∀ i W, ws[i]? = some W → Over J i W) → res = vals J J.n →
      (p = .run .fin .main ∧ b = false ∨ p = .next (.exitT 0) ∧ b = false ∨ p = .next (.exitP 0) ∧ b = false ∨ p = .next (.fini 0 []) ∨ p = .next (.imm 0)) →
      MInv J l ws res b p

structure FInv (J : Job S) (l : List Nat) (a : Abs (Mem S) Pt) (M : AThr Pt) (ws : List (AThr Pt)) : Prop where
  thr : a.thr = M :: ws
  mfns : M.fns = []
  fns : a.fns = []
  others : ∀ i W, ws[i]? = some W → WInv J i (a.mem.cell i) W
  rest : ∀ i, ws.length ≤ i → a.mem.cell i = J.start i
  main : MInv J l ws a.mem.res a.closed M.pos
  status : ∀ v, a.status = some v → v = 0 ∧ M.pos = .next (.imm 0)

/-- Steps left to a thread. -/
def wRank (J : Job S) (W : AThr Pt) : Nat :=
  match W.pos with
  | .run (.begin i) _ => (J.body i).length + 7
  | .run (.work i k) _ => (J.body i).length - k + 6
  | .run (.give _) _ => 5
  | .next _ => 1 + 3 * W.fns.length
  | .run (.atEnd _) _ => 3
  | .run .endRet _ => 2
  | _ => 0

def wSum (J : Job S) (ws : List (AThr Pt)) : Nat := (ws.map (wRank J)).sum

/-- Steps left to the main thread, and to threads it has to create: those from `k` on, `d` of them. -/
def toMake (J : Job S) (k : Nat) : Nat → Nat
  | 0 => 0
  | d + 1 => (J.body k).length + 8 + toMake J (k + 1) d

def mRank (J : Job S) : Pos Pt → Nat
  | .next (.ctors _) => toMake J 0 J.n + J.n + 10
  | .run (.make us) _ => toMake J us.length (J.n - us.length) + J.n + 9
  | .run (.collect us _) _ => us.length + 8
  | .run .fin _ => 7
  | .next (.exitT _) => 6
  | .next (.exitP _) => 5
  | .next (.fini _ _) => 4
  | .next (.imm _) => 3
  | _ => 0

def rank (J : Job S) (a : Abs (Mem S) Pt) : Nat :=
  match a.thr with
  | M :: ws => mRank J M.pos + wSum J ws
  | [] => 0

theorem wSum_set {ws : List (AThr Pt)} {i : Nat} {W W' : AThr Pt} (h : ws[i]? = some W) (hlt : wRank J W' < wRank J W) : wSum J (ws.set i W') < wSum J ws := by
  induction ws generalizing i with
  | nil => simp at h
  | cons V ws ih =>
    cases i with
    | zero =>
      simp at h; subst h
      simp only [wSum, List.set_cons_zero, List.map_cons, List.sum_cons]; omega
    | succ i =>
      simp at h
      have := ih h
      simp only [wSum, List.set_cons_succ, List.map_cons, List.sum_cons] at this ⊢; omega

theorem FInv.uses {a : Abs (Mem S) Pt} {l : List Nat} {M : AThr Pt} {ws : List (AThr Pt)} (I : FInv J l a M ws) (j : Nat) : a.uses (prg J) (j + 1) = none := by
  unfold Abs.uses
  rw [I.thr, List.getElem?_cons_succ]
  cases hW : ws[j]? with
  | none => rfl
  | some W => cases I.others j W hW <;> rfl

/-- A thread other than the main one makes a step. -/
theorem wstep {lk : Bool} {a a' : Abs (Mem S) Pt} {l : List Nat} {M : AThr Pt} {ws : List (AThr Pt)} {j x : Nat} {r : Option Nat} {W : AThr Pt}
    (I : FInv J l a M ws) (hW : ws[j]? = some W) (h : astep (prg J) lk a (j + 1) r x = some a') :
    ∃ W', FInv J l a' M (ws.set j W') ∧ wRank J W' < wRank J W ∧ a'.thr = M :: ws.set j W' := by
  have hT : a.thr[j + 1]? = some W := by rw [I.thr]; simpa using hW
  have hjlt : j < ws.length := (List.getElem?_eq_some_iff.mp hW).1
  unfold astep at h
  split at h
  · cases h
  next hst =>
  have h0 : a.status = none := by simpa using hst
  simp only [hT] at h
  -- what a step of the thread on its cell leaves
  have fin : ∀ (y : S) (W' : AThr Pt), WInv J j y W' → (Over J j W → Over J j W') →
      FInv J l ({ a with mem := a.mem.set j y }.setThr (j + 1) W') M (ws.set j W') := by
    intro y W' hw ho
    refine ⟨by simp [Abs.setThr, I.thr], I.mfns, I.fns, fun i V hV => ?_, fun i hi => ?_, ?_, by simp [Abs.setThr, h0]⟩
    · rw [List.getElem?_set] at hV
      by_cases hij : j = i
      · subst hij
        simp [hjlt] at hV; subst hV
        simpa [Abs.setThr, Mem.set] using hw
      · simp [hij] at hV
        have := I.others i V hV
        have hne : i ≠ j := fun h => hij h.symm
        simpa [Abs.setThr, Mem.set, hne] using this
    · simp only [List.length_set] at hi
      have hne : i ≠ j := by omega
      simpa [Abs.setThr, Mem.set, hne] using I.rest i hi
    · have key : ∀ k, (∀ i V, i < k → ws[i]? = some V → Over J i V) → ∀ i V, i < k → (ws.set j W')[i]? = some V → Over J i V := by
        intro k hk i V hi hV
        rw [List.getElem?_set] at hV
        by_cases hij : j = i
        · subst hij
          simp [hjlt] at hV; subst hV
          exact ho (hk j W hi hW)
        · simp [hij] at hV
          exact hk i V hi hV
      have hm := I.main
      simp only [Abs.setThr, Mem.set]
      generalize M.pos = p at hm ⊢
      generalize a.closed = b at hm ⊢
      cases hm with
      | ctors h1 _ => subst h1; simp at hW
      | make h1 h2 => have := MInv.make (J := J) (l := l) (ws := ws.set j W') (res := a.mem.res) (by simpa using h1) h2; simpa using this
      | collect k d h1 h2 h3 h4 => exact .collect k d (by simpa using h1) h2 (key k h3) h4
      | fin h1 h2 h3 h4 =>
        refine .fin (by simpa using h1) (fun i V hV => ?_) h3 h4
        have : i < (ws.set j W').length := (List.getElem?_eq_some_iff.mp hV).1
        exact key ws.length (fun i V _ => h2 i V) i V (by simpa using this) hV
  have fin' : ∀ (W' : AThr Pt), WInv J j (a.mem.cell j) W' → (Over J j W → Over J j W') → FInv J l (a.setThr (j + 1) W') M (ws.set j W') := by
    intro W' hw ho
    have := fin (a.mem.cell j) W' hw ho
    have he : a.mem.set j (a.mem.cell j) = a.mem := by
      simp only [Mem.set]
      congr
      funext i
      split
      · next h => rw [h]
      · rfl
    rwa [he] at this
  have hthr : ∀ (m' : Mem S) (W' : AThr Pt), ({ a with mem := m' }.setThr (j + 1) W').thr = M :: ws.set j W' := by
    intro m' W'; simp [Abs.setThr, I.thr]
  cases I.others j W hW with
  | begin hx =>
    simp only [opStep, prg, Option.some.injEq] at h; subst h
    exact ⟨_, fin' _ (.work 0 (Nat.zero_le _) (by simpa using hx)) (by simp [Over]), by simp [wRank], hthr _ _⟩
  | work k hk hx =>
    simp only [opStep, prg] at h
    cases hb : (J.body j)[k]? with
    | some f =>
      have hlt : k < (J.body j).length := (List.getElem?_eq_some_iff.mp hb).1
      simp only [hb, Option.some.injEq] at h; subst h
      refine ⟨_, fin _ _ (.work (k + 1) hlt ?_) (by simp [Over]), by simp [wRank]; omega, hthr _ _⟩
      rw [List.take_add_one, hb]
      simp [← hx]
    | none =>
      have hge : (J.body j).length ≤ k := List.getElem?_eq_none_iff.mp hb
      have hx' : a.mem.cell j = J.result j := by rw [hx, List.take_of_length_le hge]; rfl
      simp only [hb, Option.some.injEq, hx'] at h; subst h
      exact ⟨_, fin' _ (.give hx') (by simp [Over]), by simp [wRank], hthr _ _⟩
  | give hx =>
    simp only [opStep, prg, Option.some.injEq] at h; subst h
    exact ⟨_, fin' _ (.ending hx) (by simp [Over]), by simp [wRank], hthr _ _⟩
  | ending hx =>
    simp only [nextStep, Option.some.injEq] at h; subst h
    exact ⟨_, fin' _ (.atEnd hx) (by simp [Over]), by simp [wRank], hthr _ _⟩
  | atEnd hx =>
    simp only [opStep, prg, Option.some.injEq] at h; subst h
    exact ⟨_, fin _ _ (.endRet (by rw [hx])) (by simp [Over]), by simp [wRank], hthr _ _⟩
  | endRet hx =>
    simp only [opStep, prg, Option.some.injEq] at h; subst h
    exact ⟨_, fin' _ (.over hx) (by simp [Over]), by simp [wRank], hthr _ _⟩
  | over hx =>
    simp only [nextStep, Option.some.injEq] at h; subst h
    exact ⟨_, fin' _ (.done hx) (by simp [Over]), by simp [wRank], hthr _ _⟩
  | done hx => cases h

/-- The main thread makes a step. -/
theorem mstep {lk : Bool} {a a' : Abs (Mem S) Pt} {l : List Nat} {M : AThr Pt} {ws : List (AThr Pt)} {x : Nat} {r : Option Nat}
    (I : FInv J l a M ws) (h : astep (prg J) lk a 0 r x = some a') :
    ∃ M' ws', FInv J ((a.uses (prg J) 0).toList ++ l) a' M' ws' ∧ (a'.status.isSome = true ∨ rank J a' < rank J a) := by
  obtain ⟨p, f, tid⟩ := M
  have hf := I.mfns
  have hm := I.main
  simp only at hf hm
  subst hf
  have hT : a.thr[0]? = some ⟨p, [], tid⟩ := by rw [I.thr]; rfl
  unfold astep at h
  split at h
  · cases h
  next hst =>
  have h0 : a.status = none := by simpa using hst
  simp only [hT] at h
  unfold Abs.uses
  rw [hT]
  have fin : ∀ (l' : List Nat) (p' : Pos Pt) (res : List Nat) (b : Bool), MInv J l' ws res b p' → mRank J p' < mRank J p →
      ∃ M' ws', FInv J l' ({ a with mem := { a.mem with res := res }, closed := b }.setThr 0 ⟨p', [], tid⟩) M' ws' ∧
        ((({ a with mem := { a.mem with res := res }, closed := b }.setThr 0 ⟨p', [], tid⟩).status.isSome = true ∨
        rank J ({ a with mem := { a.mem with res := res }, closed := b }.setThr 0 ⟨p', [], tid⟩) < rank J a)) := by
    intro l' p' res b hm' hr
    refine ⟨⟨p', [], tid⟩, ws, ⟨by simp [Abs.setThr, I.thr], rfl, I.fns, I.others, I.rest, hm', by simp [Abs.setThr, h0]⟩, .inr ?_⟩
    simp only [rank, Abs.setThr, I.thr, List.set_cons_zero]; omega
  cases hc : a.closed with
  | true =>
    rw [hc] at hm
    cases hm with
    | fin h1 h2 h3 h4 =>
      simp at h4
      rcases h4 with rfl | rfl
      · simp only [nextStep, Option.some.injEq] at h; subst h
        exact fin l (.next (.imm 0)) a.mem.res a.closed (.fin h1 h2 h3 (by simp)) (by simp [mRank])
      · simp only [nextStep, Option.some.injEq] at h; subst h
        exact ⟨⟨.next (.imm 0), [], tid⟩, ws, ⟨I.thr, rfl, I.fns, I.others, I.rest, by simp only [hc]; exact .fin h1 h2 h3 (by simp), fun v hv => by cases hv; exact ⟨rfl, rfl⟩⟩,
          .inl rfl⟩
  | false => 
    have nocl : ({ a with mem := { a.mem with res := a.mem.res }, closed := false } : Abs (Mem S) Pt) = a := by rw [← hc]
    have fin0 : ∀ (l' : List Nat) (p' : Pos Pt), MInv J l' ws a.mem.res false p' → mRank J p' < mRank J p →
        ∃ M' ws', FInv J l' (a.setThr 0 ⟨p', [], tid⟩) M' ws' ∧
        (((a.setThr 0 ⟨p', [], tid⟩).status.isSome = true ∨ rank J (a.setThr 0 ⟨p', [], tid⟩) < rank J a)) := by
      intro l' p' h1 h2
      have := fin l' p' a.mem.res false h1 h2
      rwa [nocl] at this
    rw [hc] at hm
    cases hm with
    | ctors h1 h2 =>
      simp only [nextStep, prg, Option.some.injEq] at h; subst h
      exact fin0 l _ (by subst h1; exact .make (Nat.zero_le _) h2) (by simp [mRank])
    | make h1 h2 =>
      simp only [opStep, prg, List.length_range'] at h ⊢
      by_cases hlt : ws.length < J.n
      · simp only [if_pos hlt] at h ⊢
        split at h
        · next hx =>
          simp only [Option.some.injEq] at h; subst h
          simp only [I.thr, List.set_cons_zero, List.length_cons, List.cons_append, Option.toList_none, List.nil_append]
          refine ⟨_, ws ++ [⟨.run (.begin ws.length) .start, [], x⟩], ⟨rfl, rfl, I.fns, fun i W hW => ?_, fun i hi => ?_, ?_, by simp [h0]⟩, .inr ?_⟩
          · rw [List.getElem?_append] at hW
            split at hW
            · exact I.others i W hW
            · next hge =>
              have : i = ws.length := by
                have := (List.getElem?_eq_some_iff.mp hW).1
                simp at this; omega
              subst this
              simp at hW; subst hW
              exact .begin (I.rest _ (Nat.le_refl _))
          · simp at hi
            exact I.rest i (by omega)
          · have := MInv.make (J := J) (l := l) (ws := ws ++ [⟨.run (.begin ws.length) .start, [], x⟩]) (res := a.mem.res) (by simp; omega) h2
            simp only [List.length_append, List.length_cons, List.length_nil, Nat.zero_add] at this
            rw [List.range'_concat] at this
            simp only [hc]
            simpa [Nat.add_comm] using this
          · have : toMake J ws.length (J.n - ws.length) = (J.body ws.length).length + 8 + toMake J (ws.length + 1) (J.n - (ws.length + 1)) := by
              rw [show J.n - ws.length = (J.n - (ws.length + 1)) + 1 by omega]; rfl
            simp only [rank, I.thr, mRank, wSum, List.length_append, List.length_range', List.length_cons, List.length_nil, List.map_append, List.sum_append, List.map_cons, List.map_nil,
              List.sum_cons, List.sum_nil, wRank, Nat.zero_add, this]
            omega
        · cases h
      · simp only [if_neg hlt, Option.some.injEq] at h ⊢
        subst h
        have hn : ws.length = J.n := by omega
        refine fin0 l _ ?_ (by simp [mRank]; omega)
        rw [hn]
        exact .collect 0 J.n hn (by omega) (fun _ _ h => absurd h (Nat.not_lt_zero _)) (by subst h2; simp)
    | collect k d h1 h2 h3 h4 =>
      cases d with
      | zero =>
        simp only [opStep, prg, List.range'_zero, Option.some.injEq] at h ⊢; subst h
        have hk : k = J.n := by omega
        subst hk
        have := fin l (.run .fin .main) (vals J J.n) false (.fin h1 (fun i W hW => h3 i W (by have := (List.getElem?_eq_some_iff.mp hW).1; omega) hW) rfl (by simp)) (by simp [mRank])
        rw [← hc] at this
        exact this
      | succ d =>
        simp only [opStep, prg, List.range'_succ] at h ⊢
        split at h
        · next v f i hu =>
          simp only [Option.some.injEq] at h; subst h
          rw [I.thr, List.getElem?_cons_succ] at hu
          have hw := I.others k _ hu
          cases hw
          have hv : vals J k ++ [J.val k (J.result k)] = vals J (k + 1) := by simp [vals, List.range_succ]
          rw [hv]
          refine fin0 _ _ (.collect (k + 1) d h1 (by omega) ?_ ?_) (by simp [mRank])
          · intro i W hi hW
            rcases Nat.lt_succ_iff_lt_or_eq.mp hi with h | rfl
            · exact h3 i W h hW
            · rw [hu] at hW; cases hW; rfl
          · intro u hu
            simp at hu
            rcases hu with rfl | hu
            · exact Nat.le_refl _
            · exact Nat.le_succ_of_le (h4 u hu)
        · cases h
    | fin h1 h2 h3 h4 =>
      simp only [and_true] at h4
      rcases h4 with rfl | rfl | rfl | rfl | rfl
      · simp only [opStep, prg, Option.some.injEq] at h ⊢; subst h
        exact fin0 l _ (.fin h1 h2 h3 (by simp)) (by simp [mRank])
      · simp only [nextStep, Option.some.injEq] at h ⊢; subst h
        exact fin0 l _ (.fin h1 h2 h3 (by simp)) (by simp [mRank])
      · simp only [nextStep, hc, I.fns, prg, Option.some.injEq, Bool.false_eq_true, if_false] at h; subst h
        have := fin l (.next (.fini 0 [])) a.mem.res lk (.fin h1 h2 h3 (by simp)) (by simp [mRank])
        simp only [I.fns] at this
        exact this
      · simp only [nextStep, Option.some.injEq] at h ⊢; subst h
        exact fin0 l _ (.fin h1 h2 h3 (by simp)) (by simp [mRank])
      · simp only [nextStep, Option.some.injEq] at h ⊢; subst h
        exact ⟨⟨.next (.imm 0), [], tid⟩, ws, ⟨I.thr, rfl, I.fns, I.others, I.rest, by simp only [hc]; exact .fin h1 h2 h3 (by simp), fun v hv => by cases hv; exact ⟨rfl, rfl⟩⟩,
          .inl rfl⟩

theorem finv {lk : Bool} {l : List Nat} {a : Abs (Mem S) Pt} (A : AReachU (prg J) lk J.mem0 l a) : ∃ M ws, FInv J l a M ws := by
  induction A with
  | init tid =>
    exact ⟨_, [], rfl, rfl, rfl, by simp, fun _ _ => rfl, .ctors rfl rfl, by simp [ainit]⟩
  | @step l a t r x a' A hs ih =>
    obtain ⟨M, ws, I⟩ := ih
    cases t with
    | zero => obtain ⟨M', ws', I', -⟩ := mstep I hs; exact ⟨M', ws', I'⟩
    | succ j =>
      have hlt := astep_lt hs
      rw [I.thr] at hlt
      simp at hlt
      obtain ⟨W', I', -, -⟩ := wstep I (List.getElem?_eq_getElem hlt) hs
      rw [I.uses j]
      exact ⟨M, _, I'⟩

theorem rank_step {lk : Bool} {l : List Nat} {a a' : Abs (Mem S) Pt} {t x : Nat} {r : Option Nat} (A : AReachU (prg J) lk J.mem0 l a)
    (hs : astep (prg J) lk a t r x = some a') : a'.status.isSome = true ∨ rank J a' < rank J a := by
  obtain ⟨M, ws, I⟩ := finv A
  cases t with
  | zero => obtain ⟨M', ws', -, h⟩ := mstep I hs; exact h
  | succ j =>
    have hlt := astep_lt hs
    rw [I.thr] at hlt
    simp at hlt
    have hW : ws[j]? = some ws[j] := List.getElem?_eq_getElem hlt
    obtain ⟨W', I', h1, h2⟩ := wstep I hW hs
    right
    simp only [rank, h2, I.thr]
    have := wSum_set hW h1
    omega

/-- Some thread can always go on: the main thread, or the one it waits for. -/
theorem goes {lk : Bool} {l : List Nat} {a : Abs (Mem S) Pt} (A : AReachU (prg J) lk J.mem0 l a) (hst : a.status = none) :
    ∃ t r x, astep (prg J) lk a t r x ≠ none := by
  obtain ⟨⟨p, f, tid⟩, ws, I⟩ := finv A
  have hf := I.mfns
  have hm := I.main
  simp only at hf hm
  subst hf
  have hT : a.thr[0]? = some ⟨p, [], tid⟩ := by rw [I.thr]; rfl
  obtain ⟨x, hx⟩ := free_id a
  have zero : (∃ r, astep (prg J) lk a 0 r x ≠ none) → ∃ t r x, astep (prg J) lk a t r x ≠ none := fun ⟨r, h⟩ => ⟨0, r, x, h⟩
  generalize hc : a.closed = b at hm
  cases hm with
  | ctors h1 h2 => exact zero ⟨none, by simp [astep, hst, hT, nextStep]⟩
  | make h1 h2 =>
    refine zero ⟨none, ?_⟩
    by_cases hlt : ws.length < J.n
    · simp only [astep, hst, hT, opStep, prg, List.length_range', if_pos hlt, if_pos hx]; simp
    · simp only [astep, hst, hT, opStep, prg, List.length_range', if_neg hlt]; simp
  | collect k d h1 h2 h3 h4 =>
    cases d with
    | zero => exact zero ⟨none, by simp [astep, hst, hT, opStep, prg]⟩
    | succ d =>
      have hlt : k < ws.length := by omega
      have hW : ws[k]? = some ws[k] := List.getElem?_eq_getElem hlt
      have hT' : a.thr[k + 1]? = some ws[k] := by rw [I.thr]; simp
      generalize ws[k] = W at hW hT'
      cases I.others k W hW with
      | done hx' => exact zero ⟨none, by simp [astep, hst, hT, opStep, prg, List.range'_succ, hT']⟩
      | begin => exact ⟨k + 1, none, x, by simp [astep, hst, hT', opStep, prg]⟩
      | work => exact ⟨k + 1, none, x, by simp [astep, hst, hT', opStep, prg]⟩
      | give => exact ⟨k + 1, none, x, by simp [astep, hst, hT', opStep, prg]⟩
      | ending => exact ⟨k + 1, none, x, by simp [astep, hst, hT', nextStep]⟩
      | atEnd => exact ⟨k + 1, none, x, by simp [astep, hst, hT', opStep, prg]⟩
      | endRet => exact ⟨k + 1, none, x, by simp [astep, hst, hT', opStep, prg]⟩
      | over => exact ⟨k + 1, none, x, by simp [astep, hst, hT', nextStep]⟩
  | fin h1 h2 h3 h4 =>
    refine zero ⟨none, ?_⟩
    rcases h4 with ⟨rfl, rfl⟩ | ⟨rfl, rfl⟩ | ⟨rfl, rfl⟩ | rfl | rfl <;> simp [astep, hst, hT, opStep, nextStep, prg, hc, I.fns]

/-- The program keeps to the contract. -/
theorem proper {c : Proc.Cfg} (h1 : c.thread = true) (h2 : c.threadAtExit = true) : Proper (prg J) c J.mem0 := by
  intro l a t A _
  obtain ⟨⟨p, f, tid⟩, ws, I⟩ := finv A
  unfold Abs.keeps
  cases t with
  | zero =>
    have hm := I.main
    simp only [I.thr, List.getElem?_cons_zero] at hm ⊢
    generalize a.closed = b at hm
    cases hm with
    | ctors => trivial
    | make =>
      by_cases hlt : (List.range' 1 ws.length).length < J.n
      · simp only [prg, if_pos hlt]; exact h1
      · simp only [prg, if_neg hlt]
    | collect k d q1 q2 q3 q4 =>
      cases d with
      | zero => simp [prg]
      | succ d =>
        simp only [prg, List.range'_succ]
        refine ⟨by simp; omega, fun h => by have := q4 _ h; omega, fun t' ht' => ?_⟩
        obtain ⟨j, rfl⟩ := Nat.exists_eq_succ_of_ne_zero ht'
        exact fun h => by cases (I.uses j).symm.trans h
    | fin _ _ _ h4 =>
      rcases h4 with ⟨rfl, rfl⟩ | ⟨rfl, rfl⟩ | ⟨rfl, rfl⟩ | rfl | rfl <;> simp [prg]
  | succ j =>
    rw [I.thr, List.getElem?_cons_succ]
    cases hW : ws[j]? with
    | none => trivial
    | some W => cases I.others j W hW <;> simp [prg, h2]

/-- It joins only threads created before its first `join`. -/
theorem early (lk : Bool) : EarlyOnly (prg J) lk J.mem0 := by
  have key : ∀ w a, AReachW (prg J) lk J.mem0 w a → (∃ l, AReachU (prg J) lk J.mem0 l a) ∧ ∀ k, w = some k → k = J.n + 1 := by
    intro w a A
    induction A with
    | init tid => exact ⟨⟨_, .init tid⟩, by simp⟩
    | @step w a t r x a' A hs ih =>
      obtain ⟨⟨l, A'⟩, hw⟩ := ih
      refine ⟨⟨_, A'.step hs⟩, fun k hk => ?_⟩
      cases w with
      | some k' => exact hw k hk
      | none =>
        unfold noteWait at hk
        simp only [Option.ite_none_right_eq_some, Option.some.injEq] at hk
        obtain ⟨hwt, rfl⟩ := hk
        obtain ⟨⟨p, f, tid⟩, ws, I⟩ := finv A'
        unfold Abs.waits at hwt
        cases t with
        | zero =>
          have hm := I.main
          simp only [I.thr, List.getElem?_cons_zero] at hm hwt
          generalize a.closed = b at hm
          cases hm with
          | ctors => simp at hwt
          | make =>
            by_cases hlt : (List.range' 1 ws.length).length < J.n
            · simp only [prg, if_pos hlt] at hwt; cases hwt
            · simp only [prg, if_neg hlt] at hwt; cases hwt
          | collect k d q1 _ _ _ => simp [I.thr, q1]
          | fin _ _ _ h4 => rcases h4 with ⟨rfl, rfl⟩ | ⟨rfl, rfl⟩ | ⟨rfl, rfl⟩ | rfl | rfl <;> simp [prg] at hwt
        | succ j =>
          rw [I.thr, List.getElem?_cons_succ] at hwt
          cases hW : ws[j]? with
          | none => simp [hW] at hwt
          | some W => rw [hW] at hwt; cases I.others j W hW <;> simp [prg] at hwt
  intro n a t A
  obtain ⟨⟨l, A'⟩, hn⟩ := key _ _ A
  obtain rfl := hn n rfl
  obtain ⟨⟨p, f, tid⟩, ws, I⟩ := finv A'
  unfold Abs.early
  cases t with
  | zero =>
    have hm := I.main
    simp only [I.thr, List.getElem?_cons_zero] at hm ⊢
    generalize a.closed = b at hm
    cases hm with
    | ctors => trivial
    | make =>
      by_cases hlt : (List.range' 1 ws.length).length < J.n
      · simp only [prg, if_pos hlt]
      · simp only [prg, if_neg hlt]
    | collect k d q1 q2 _ _ =>
      cases d with
      | zero => simp [prg]
      | succ d => simp only [prg, List.range'_succ]; intro _; omega
    | fin _ _ _ h4 => rcases h4 with ⟨rfl, rfl⟩ | ⟨rfl, rfl⟩ | ⟨rfl, rfl⟩ | rfl | rfl <;> simp [prg]
  | succ j =>
    rw [I.thr, List.getElem?_cons_succ]
    cases hW : ws[j]? with
    | none => trivial
    | some W => cases I.others j W hW <;> simp [prg]

end Origin.ForkJoin

namespace Origin.User
variable {σ C : Type} {pr : Prg σ C} {m : σ} {lk : Bool} {ab : Nat → Abs σ C} {who : Nat → Option Nat}

/-- A run of a program in which fewer steps are left after each step stops; so the program does not register functions for ever. -/
theorem settles_ranked (rk : Abs σ C → Nat)
    (dec : ∀ l a a' t r x, AReachU pr lk m l a → astep pr lk a t r x = some a' → a'.status.isSome = true ∨ rk a' < rk a) : Settles pr lk m := by
  intro ab who X
  suffices h : ∃ N, ∀ n, N ≤ n → who n = none by
    obtain ⟨N, hN⟩ := h
    exact ⟨N, fun n t hn hw => by rw [hN n hn] at hw; cases hw⟩
  have dead : ∀ i, (ab i).status.isSome = true → ∀ j, i ≤ j → (ab j).status.isSome = true ∧ who j = none := by
    intro i hi j hj
    induction hj with
    | refl =>
      refine ⟨hi, ?_⟩
      cases hw : who i with
      | none => rfl
      | some t => obtain ⟨r, x, hs⟩ := X.next i t hw; simp [astep, hi] at hs
    | step hj ih =>
      rename_i j'
      have h1 : (ab (j' + 1)).status.isSome = true := by rw [X.idle _ ih.2]; exact ih.1
      refine ⟨h1, ?_⟩
      cases hw : who (j' + 1) with
      | none => rfl
      | some t => obtain ⟨r, x, hs⟩ := X.next _ t hw; simp [astep, h1] at hs
  have key : ∀ k i, rk (ab i) = k → ∃ N, ∀ n, N ≤ n → who n = none := by
    intro k
    induction k using Nat.strongRecOn with
    | ind k ih =>
      intro i hk
      by_cases hq : ∀ j, i ≤ j → who j = none
      · exact ⟨i, hq⟩
      · obtain ⟨j, hj, he, t, hwj⟩ := X.next_step hq
        obtain ⟨r, x, hs⟩ := X.next j t hwj
        obtain ⟨l, A⟩ := X.reachU j
        rcases dec l _ _ t r x A hs with h | h
        · exact ⟨j + 1, fun n hn => (dead _ h n hn).2⟩
        · rw [he, hk] at h; exact ih _ h (j + 1) rfl
  exact key _ 0 rfl

end Origin.User
