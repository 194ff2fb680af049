import Verif.Proof.Races4
/-!
# Happens-before: what a joined thread did happens before the return of `join`
-/

namespace Origin.Life

variable {w : Inst → Bool} {sig : Bool} {s s' : State} {tr es : List Acc} {h : Inst}

/-- Everything `h` did happens before whatever `j` does next. -/
def Sees (tr : List Acc) (j h : Inst) : Prop := ∀ (i : Nat) (a : Acc), tr[i]? = some a → a.actor = h → Bef tr i j

/-- The last thing `h` did is the store of its return value. -/
def Final (tr : List Acc) (h : Inst) : Prop :=
  ∃ (k : Nat) (t : Inst) (r : Bool), tr[k]? = some (.atomic t h .ret r true) ∧
    (∀ (k' : Nat) t' r', k < k' → tr[k']? ≠ some (.atomic t' h .ret r' true)) ∧
    ∀ (i : Nat) (a : Acc), tr[i]? = some a → a.actor = h → i = k ∨ HB tr i k

theorem Sees.app {j : Inst} (K : Sees tr j h) (hes : ∀ e ∈ es, e.actor ≠ h) : Sees (tr ++ es) j h := by
  intro i a hi ht
  rcases getElem?_app hi with hi | hi
  · exact (K i a hi ht).app es
  · exact absurd ht (hes a hi)

theorem Final.app (K : Final tr h) (hes : ∀ e ∈ es, e.actor ≠ h) (hw : ∀ t r, .atomic t h .ret r true ∉ es) : Final (tr ++ es) h := by
  obtain ⟨k, t, r, h1, h2, h3⟩ := K
  refine ⟨k, t, r, some_app es h1, fun k' t' r' hk hc => ?_, fun i a hi ht => ?_⟩
  · rcases getElem?_app hc with hc | hc
    · exact h2 k' t' r' hk hc
    · exact hw _ _ hc
  · rcases getElem?_app hi with hi | hi
    · exact (h3 i a hi ht).imp id (HB.app es)
    · exact absurd ht (hes a hi)

theorem Final.write : Final (tr ++ [.atomic h h .ret false true]) h := by
  refine ⟨tr.length, h, false, last_get _, fun k' t' r' hk hc => ?_, fun i a hi ht => ?_⟩
  · have := lt_of_some hc; simp at this; omega
  · by_cases hl : i < tr.length
    · exact .inr (.po hl hi (last_get _) ht)
    · have := lt_of_some hi; simp at this; exact .inl (by omega)

theorem Final.read {j : Inst} (K : Final tr h) (hne : j ≠ h) : Sees (tr ++ [.atomic j h .ret true false]) j h := by
  obtain ⟨k, t, r, h1, h2, h3⟩ := K
  have hk : HB (tr ++ [.atomic j h .ret true false]) k tr.length :=
    .sync (lt_of_some h1) (some_app _ h1) (last_get _) fun k' t' r' q1 q2 => by
      rw [List.getElem?_append_left q2]; exact h2 k' t' r' q1
  intro i a hi ht
  rcases getElem?_app hi with hi | hi
  · refine .inr ⟨tr.length, _, last_get _, rfl, .inr ?_⟩
    rcases h3 i a hi ht with rfl | h4
    · exact hk
    · exact .trans (h4.app _) hk
  · simp at hi; subst hi; exact absurd ht hne

/-- `join` is past the load of the return value. -/
def Call.Past : Call → Prop
  | .readFields .join .. | .drop .join .. | .unmap .join .. => True
  | _ => False

structure JInv (h : Inst) (s : State) (tr : List Acc) : Prop where
  acted : ∀ a ∈ tr, s.thr a.actor ≠ none
  seen : ∀ T, s.thr h = some T → T.stage.Stored → T.clear = true → Final tr h
  call : ∀ j c, s.call j = some c → c.target = h → c.Past → Sees tr j h
  joined : ∀ j v, Ev.joined j h v ∈ s.log → Sees tr j h

theorem JInv.frame (J : JInv h s tr) (es : List Acc) (k0 : ∀ x, s.thr x ≠ none → s'.thr x ≠ none) (hact : ∀ e ∈ es, s'.thr e.actor ≠ none)
    (hes : ∀ e ∈ es, e.actor ≠ h) (hw : ∀ t r, .atomic t h .ret r true ∉ es)
    (k1 : ∀ T', s'.thr h = some T' → T'.stage.Stored → T'.clear = true → ∃ T, s.thr h = some T ∧ T.stage.Stored ∧ T.clear = true)
    (k2 : ∀ j c', s'.call j = some c' → c'.target = h → c'.Past → ∃ c, s.call j = some c ∧ c.target = h ∧ c.Past)
    (k3 : ∀ j v, Ev.joined j h v ∈ s'.log → Ev.joined j h v ∈ s.log ∨ ∃ c, s.call j = some c ∧ c.target = h ∧ c.Past) :
    JInv h s' (tr ++ es) where
  acted a ha := by
    rcases List.mem_append.mp ha with ha | ha
    · exact k0 _ (J.acted a ha)
    · exact hact a ha
  seen T' q1 q2 q3 := by
    obtain ⟨T, p1, p2, p3⟩ := k1 T' q1 q2 q3
    exact (J.seen T p1 p2 p3).app hes hw
  call j c' q1 q2 q3 := by
    obtain ⟨c, p1, p2, p3⟩ := k2 j c' q1 q2 q3
    exact (J.call j c p1 p2 p3).app hes
  joined j v q := by
    rcases k3 j v q with q | ⟨c, p1, p2, p3⟩
    · exact (J.joined j v q).app hes
    · exact (J.call j c p1 p2 p3).app hes

theorem Call.Past.freeing {c : Call} (h : c.Past) : c.kind = .join ∧ c.phase = .freeing := by
  cases c with
  | readFields k => cases k <;> simp_all [Call.Past, Call.kind, Call.phase]
  | drop k => cases k <;> simp_all [Call.Past, Call.kind, Call.phase]
  | unmap k => cases k <;> simp_all [Call.Past, Call.kind, Call.phase]
  | _ => simp_all [Call.Past]

/-- A thread that has not made its `exit` call has not been joined. -/
theorem not_joined (I : Inv w sig s) (hw : w h = false) {T : Thr} (hT : s.thr h = some T) (hg : ¬ T.stage.gone) :
    (∀ j c, s.call j = some c → c.target = h → ¬ (c.kind = .join ∧ c.phase = .freeing)) ∧ ∀ j v, Ev.joined j h v ∉ s.log := by
  have G := (I.ok h T hT).good
  rw [hw] at G
  constructor
  · intro j c hc ht hk
    have C := (I.callOk j c hc).cons
    rw [ht] at C
    rw [C] at G
    rw [hk.1, hk.2] at G
    cases hst : T.stage <;> simp only [Good, hst, Live, Stuck, Aband, Over, Det, DetGone, Lost, Pending, Released] at G <;>
      simp [hst, Stage.gone] at G hg
  · intro j v hj
    have := (I.ok h T hT).link.jd j v hj
    rw [this] at G
    cases hst : T.stage <;> simp only [Good, hst, Live, Stuck, Aband, Over, Det, DetGone, Lost, Pending, Released] at G <;>
      simp [hst, Stage.gone] at G hg

/-- `h` itself does something. -/
theorem JInv.own (J : JInv h s tr) (I : Inv w sig s) (hw : w h = false) {T : Thr} (hT : s.thr h = some T) (hg : ¬ T.stage.gone)
    (k0 : ∀ x, s.thr x ≠ none → s'.thr x ≠ none) (hact : ∀ e ∈ es, e.actor = h)
    (k1 : ∀ T', s'.thr h = some T' → T'.stage.Stored → T'.clear = true → Final (tr ++ es) h)
    (k2 : s'.call = s.call) (k3 : ∀ j v, Ev.joined j h v ∈ s'.log → Ev.joined j h v ∈ s.log) : JInv h s' (tr ++ es) := by
  obtain ⟨n1, n2⟩ := not_joined I hw hT hg
  refine ⟨fun a ha => ?_, k1, fun j c q1 q2 q3 => ?_, fun j v q => absurd (k3 j v q) (n2 j v)⟩
  · rcases List.mem_append.mp ha with ha | ha
    · exact k0 _ (J.acted a ha)
    · rw [hact a ha]; exact k0 _ (by rw [hT]; simp)
  · rw [k2] at q1; exact absurd q3.freeing (n1 j c q1 q2)

/-- Nothing is accessed and nothing relevant changes. -/
theorem JInv.quiet (J : JInv h s tr) (k0 : ∀ x, s.thr x ≠ none → s'.thr x ≠ none)
    (k1 : ∀ T', s'.thr h = some T' → T'.stage.Stored → T'.clear = true → ∃ T, s.thr h = some T ∧ T.stage.Stored ∧ T.clear = true)
    (k2 : ∀ j c', s'.call j = some c' → c'.target = h → c'.Past → ∃ c, s.call j = some c ∧ c.target = h ∧ c.Past)
    (k3 : ∀ j v, Ev.joined j h v ∈ s'.log → Ev.joined j h v ∈ s.log) : JInv h s' (tr ++ []) :=
  J.frame [] k0 (by simp) (by simp) (by simp) k1 k2 fun j v q => .inl (k3 j v q)

theorem callAccess_actor {t : Inst} {c : Call} {e : Acc} (he : e ∈ callAccess t c) : e.actor = t := by
  cases c <;> simp [callAccess] at he <;> subst he <;> rfl

theorem ownAccess_actor {t : Inst} {r : Option Rec} {g : Stage} {e : Acc} (he : e ∈ ownAccess t r g) : e.actor = t := by
  cases g <;> simp [ownAccess] at he <;> subst he <;> rfl

theorem callAccess_ret {t u : Inst} {c : Call} {r : Bool} : .atomic u h .ret r true ∉ callAccess t c := by
  cases c <;> simp [callAccess]

theorem JInv.callStep (J : JInv h s tr) (I : Inv w sig s) (hw : w h = false) {t : Inst} {T : Thr} {c : Call} (hT : s.thr t = some T)
    (hc : s.call t = some c) {r : Rec} (hv : s.view c.addr c.target = some r) (hs : Life.callStep s t r c = some s') :
    JInv h s' (tr ++ callAccess t c) := by
  obtain ⟨f1, f2, f3, f4, f5⟩ := callStep_frame hv hs
  have k0 : ∀ x, s.thr x ≠ none → s'.thr x ≠ none := by rw [f1]; exact fun _ => id
  have C := I.callOk _ _ hc
  -- what the call becomes
  have hlog : ∀ j y v, Ev.joined j y v ∈ s'.log → Ev.joined j y v ∈ s.log ∨ (j = t ∧ c.target = y ∧ c.Past) := by
    intro j y v q
    cases c <;> simp only [Life.callStep] at hs <;> (try split at hs) <;> (try cases hs)
    case unmap k a z v' =>
      cases k <;> simp [State.finish, State.ev, State.setCall, State.setCons, State.setRec] at q
      · rcases q with ⟨rfl, rfl, -⟩ | q
        · exact .inr ⟨rfl, rfl, trivial⟩
        · exact .inl q
      · exact .inl q
    case drop.isFalse k a z v' o _ =>
      cases k <;> simp [State.finish, State.ev, State.setCall, State.setCons, State.setRec] at q
      · rcases q with ⟨rfl, rfl, -⟩ | q
        · exact .inr ⟨rfl, rfl, trivial⟩
        · exact .inl q
      · exact .inl q
    all_goals
      first
      | exact .inl q
      | (simp [State.ev, State.setCall, State.setCons, State.setRec] at q; exact .inl q)
  have hpast' : ∀ c', s'.call t = some c' → c'.Past → c.Past ∨ ∃ a y, c = .loadRet a y := by
    intro c' q1 q2
    cases c <;> simp only [Life.callStep] at hs <;> (try split at hs) <;> (try cases hs)
    case loadRet a y => exact .inr ⟨a, y, rfl⟩
    case unmap k a z v' => cases k <;> simp [State.finish, State.ev, State.setCall, State.setCons, State.setRec] at q1
    case drop.isFalse k a z v' o _ => cases k <;> simp [State.finish, State.ev, State.setCall, State.setCons, State.setRec] at q1
    case swap.isFalse => simp [State.ev, State.setCall, State.setCons, State.setRec] at q1
    case load.isTrue k a y _ =>
      simp [State.setCall, State.setCons] at q1; subst q1
      cases k <;> simp [afterWait, Call.Past] at q2
    case drop.isTrue k a z v' o _ =>
      simp [State.setCall] at q1; subst q1
      cases k
      · exact .inl trivial
      · exact q2.elim
    case readFields k a z v' =>
      simp [State.setCall] at q1; subst q1
      cases k
      · exact .inl trivial
      · exact q2.elim
    all_goals
      simp [State.setCall, State.setCons, State.setRec] at q1; subst q1; exact q2.elim
  have hpast : ∀ c', s'.call t = some c' → c'.Past → c.kind = .join ∧ c.phase = .freeing := by
    intro c' q1 q2
    rcases hpast' c' q1 q2 with h1 | ⟨a, y, rfl⟩
    · exact h1.freeing
    · exact ⟨rfl, rfl⟩
  by_cases hth : t = h
  · subst hth
    obtain ⟨T2, hT2, hu⟩ := C.actor
    have hg := user_not_gone hu
    obtain ⟨n1, n2⟩ := not_joined I hw hT2 hg
    have hself : c.target = t → ¬ c.Past := fun q1 q2 => n1 t c hc q1 q2.freeing
    refine ⟨fun a ha => ?_, fun T' q1 q2 _ => ?_, fun j c' q1 q2 q3 => ?_, fun j v q => ?_⟩
    · rcases List.mem_append.mp ha with ha | ha
      · exact k0 _ (J.acted a ha)
      · rw [callAccess_actor ha]; exact k0 _ (by rw [hT]; simp)
    · rw [f1, hT2] at q1; injection q1 with q1; subst q1; exact absurd q2 (user_not_stored hu)
    · exfalso
      by_cases hj : j = t
      · subst hj
        have hct := (f4 c' q1).symm.trans q2
        exact n1 _ c hc hct (hpast c' q1 q3)
      · rw [f3 j hj] at q1; exact n1 j c' q1 q2 q3.freeing
    · rcases hlog j t v q with q | ⟨-, q2, q3⟩
      · exact absurd q (n2 j v)
      · exact absurd q3 (hself q2)
  · have hes : ∀ e ∈ callAccess t c, e.actor ≠ h := fun e he => by rw [callAccess_actor he]; exact hth
    by_cases hl : ∃ a, c = .loadRet a h
    · obtain ⟨a, rfl⟩ := hl
      simp only [Life.callStep, Option.some.injEq] at hs
      subst hs
      obtain ⟨H, hH, hHa, -⟩ := C.target
      have G := (I.ok _ _ hH).good
      have hcons := C.cons
      simp only [Call.target, Call.addr] at hH hHa hcons hv
      simp only [Call.target] at G
      rw [hw, hcons, hHa, hv] at G
      have hov : H.stage.Stored ∧ H.clear = true := by
        cases hst : H.stage <;>
          simp only [Good, hst, Live, Stuck, Aband, Over, Det, DetGone, Lost, Pending, Released, Call.kind, Call.phase] at G <;>
          simp [Stage.Stored] at G ⊢ <;> exact G.1
      have K := (J.seen H hH hov.1 hov.2).read hth
      refine ⟨fun e he => ?_, fun T' q1 q2 q3 => (J.seen T' q1 q2 q3).app hes (fun _ _ => callAccess_ret), fun j c' q1 q2 q3 => ?_,
        fun j v q => (J.joined j v q).app hes⟩
      · rcases List.mem_append.mp he with he | he
        · exact J.acted e he
        · rw [callAccess_actor he]
          show s.thr t ≠ none
          rw [hT]; simp
      · by_cases hj : j = t
        · subst hj; exact K
        · rw [f3 j hj] at q1; exact (J.call j c' q1 q2 q3).app hes
    · refine J.frame _ k0 (fun e he => by rw [callAccess_actor he]; exact k0 _ (by rw [hT]; simp)) hes (fun _ _ => callAccess_ret)
        (fun T' q1 q2 q3 => ⟨T', by rw [← f1]; exact q1, q2, q3⟩) (fun j c' q1 q2 q3 => ?_) (fun j v q => ?_)
      · by_cases hj : j = t
        · subst hj
          have hct := (f4 c' q1).symm.trans q2
          refine ⟨c, hc, hct, ?_⟩
          rcases hpast' c' q1 q3 with h1 | ⟨a, y, h1⟩
          · exact h1
          · subst h1
            simp only [Call.target] at hct
            exact absurd ⟨a, by rw [hct]⟩ hl
        · rw [f3 j hj] at q1; exact ⟨c', q1, q2, q3⟩
      · rcases hlog j h v q with q | ⟨rfl, q2, q3⟩
        · exact .inl q
        · exact .inr ⟨c, hc, q2, q3⟩

end Origin.Life
