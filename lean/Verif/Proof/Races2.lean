import Verif.Proof.Races
/-!
# Happens-before: every step
-/

namespace Origin.Life

variable {w : Inst → Bool} {sig : Bool} {s s' : State} {tr es : List Acc} {h : Inst}

/-- Nothing that matters for `h` changes. -/
theorem RInv.same (R : RInv h s tr) (es : List Acc)
    (hes : ∀ e ∈ es, ¬ e.Touches h) (hw : ∀ t l r, .atomic t h l r true ∉ es)
    (k0 : ∀ x, s.thr x ≠ none → s'.thr x ≠ none) (k0' : ∀ e x, e ∈ es → e.Touches x → s'.thr x ≠ none)
    (e1 : ∀ T', s'.thr h = some T' → ∃ T, s.thr h = some T ∧ T.addr = T'.addr ∧ (T.stage.gone → T'.stage.gone) ∧
      (T'.stage.Stored → Quiet s h → T.stage.Stored))
    (e2 : s'.cons h = s.cons h)
    (e3 : ∀ T, s.thr h = some T → ∀ r', s'.view T.addr h = some r' → ∃ r, s.view T.addr h = some r ∧ r.detached = r'.detached)
    (e4 : ∀ j c, c.target = h → (s'.call j = some c ↔ s.call j = some c)) : RInv h s' (tr ++ es) := by
  have hq : Quiet s' h → Quiet s h := by
    unfold Quiet
    rw [e2]
    split <;> try exact id
    rintro ⟨a, ha⟩
    exact ⟨a, (e4 _ _ rfl).mp ha⟩
  refine R.frame es hes hw k0 k0' (fun T' hT' => ?_) (fun T r' hT hv hr => ?_) hq
    (fun j c hc ht hi => ⟨c, (e4 j c ht).mp hc, ht, hi⟩)
  · obtain ⟨T, q1, q2, q3, q4⟩ := e1 T' hT'
    exact ⟨T, q1, q2, q3, fun h1 h2 => q4 h1 (hq h2)⟩
  · obtain ⟨r, q1, q2⟩ := e3 T hT r' hv
    exact ⟨r, q1, q2.trans hr⟩

/-- Only the log changes. -/
theorem RInv.logOnly (R : RInv h s tr) (e1 : s'.thr = s.thr) (e2 : s'.cons = s.cons) (e3 : s'.recs = s.recs) (e4 : s'.call = s.call) :
    RInv h s' tr := by
  rw [← List.append_nil tr]
  refine R.same [] (by simp) (by simp) (by simp [e1]) (by simp) (fun T' hT' => ⟨T', by rw [← e1]; exact hT', rfl, id, fun h _ => h⟩)
    (by rw [e2]) (fun T _ r' hv => ⟨r', by unfold State.view at hv ⊢; rw [e3] at hv; exact hv, rfl⟩) (fun j c _ => by rw [e4])

/-- `h` itself accesses its record. -/
theorem RInv.plainOwn (R : RInv h s tr) {T : Thr} (hT : s.thr h = some T) (hg : ¬ T.stage.gone)
    (k0 : ∀ x, s.thr x ≠ none → s'.thr x ≠ none)
    (hdet : ∀ T' r', s'.thr h = some T' → s'.view T'.addr h = some r' → r'.detached ≠ .abandoned)
    (hst : ∀ T', s'.thr h = some T' → ¬ T'.stage.Stored)
    (hcall : ∀ j c, s'.call j = some c → c.target = h → ¬ c.Informed) : RInv h s' (tr ++ [.plain h h]) := by
  have K := R.own T hT hg
  refine ⟨fun a x ha ht => ?_, fun _ _ _ => K.self rfl, fun T' r' h1 h2 h3 _ => absurd h3 (hdet T' r' h1 h2),
    fun T' h1 h2 _ => absurd h2 (hst T' h1), fun j c h1 h2 h3 => absurd h3 (hcall j c h1 h2), R.free.self K rfl⟩
  rcases List.mem_append.mp ha with ha | ha
  · exact k0 x (R.touched a x ha ht)
  · simp at ha; subst ha
    simp only [Acc.Touches] at ht; subst ht
    exact k0 _ (by rw [hT]; simp)

/-- A consumer that knows accesses `h`'s record. -/
theorem RInv.plainOther (R : RInv h s tr) {j : Inst} {c : Call} (hc : s.call j = some c) (ht : c.target = h) (hi : c.Informed)
    (k0 : ∀ x, s.thr x ≠ none → s'.thr x ≠ none) (hth : s.thr h ≠ none)
    (hgone : ∀ T', s'.thr h = some T' → T'.stage.gone) (hq : ¬ Quiet s' h)
    (hcall : ∀ j' c', s'.call j' = some c' → c'.target = h → j' = j) : RInv h s' (tr ++ [.plain j h]) := by
  have K := R.call j c hc ht hi
  refine ⟨fun a x ha ht => ?_, fun T' h1 h2 => absurd (hgone T' h1) h2, fun _ _ _ _ _ h => absurd h hq, fun _ _ _ h => absurd h hq,
    fun j' c' h1 h2 _ => ?_, R.free.self K rfl⟩
  · rcases List.mem_append.mp ha with ha | ha
    · exact k0 x (R.touched a x ha ht)
    · simp at ha; subst ha
      simp only [Acc.Touches] at ht; subst ht
      exact k0 _ hth
  · rw [hcall j' c' h1 h2]; exact K.self rfl

theorem not_informed (I : Inv w sig s) (hw : w h = false) {T : Thr} (hT : s.thr h = some T)
    (hs : T.stage.user ∨ (∃ v, T.stage = .cas v) ∨ T.stage = .born ∨ Released (s.cons h)) :
    ∀ j c, s.call j = some c → c.target = h → ¬ c.Informed := by
  intro j c hc ht hi
  have C := I.callOk j c hc
  have G := (I.ok h T hT).good
  have hcons := C.cons
  rw [ht] at hcons
  have key : Live false T (s.cons h) (s.view T.addr h) ∨ Released (s.cons h) := by
    rw [hw] at G
    rcases hs with hs | ⟨v, hs⟩ | hs | hs
    · cases hst : T.stage <;> simp [hst, Stage.user] at hs <;> simp only [Good, hst] at G <;> exact .inl G.1
    · simp only [Good, hs] at G; exact .inl G.1
    · simp only [Good, hs] at G; exact .inl G.1
    · exact .inr hs
  rw [hcons] at key
  have hr : Released (some (j, c.kind, c.phase)) → False := by
    rintro ⟨j', h⟩
    simp only [Option.some.injEq, Prod.mk.injEq] at h
    cases c <;> simp [Call.phase] at h
  rcases key with ⟨-, ⟨h, -⟩ | ⟨r, -, -, ⟨-, h⟩ | ⟨-, h⟩⟩⟩ | h
  · cases h
  · rcases h with h | ⟨j', h⟩ | ⟨j', h⟩ | ⟨h, -⟩
    · cases h
    · simp only [Option.some.injEq, Prod.mk.injEq] at h
      cases c <;> simp_all [Call.phase, Call.kind, Call.Informed]
    · simp only [Option.some.injEq, Prod.mk.injEq] at h
      cases c <;> simp_all [Call.phase, Call.kind, Call.Informed]
    · cases h
  · exact hr h
  · exact hr h

/-- Before the compare-exchange and on the detached path the record is not marked abandoned. -/
theorem not_abandoned (I : Inv w sig s) (hw : w h = false) {T : Thr} (hT : s.thr h = some T)
    (hs : T.stage.user ∨ T.stage = .dRead ∨ (∃ o, T.stage = .dDrop o)) :
    ∀ r, s.view T.addr h = some r → r.detached ≠ .abandoned := by
  intro r hv hr
  have G := (I.ok h T hT).good
  rw [hw, hv] at G
  cases hst : T.stage <;> simp [hst, Stage.user] at hs <;> simp only [Good, hst, Live, Det, Lost] at G <;> simp at G <;> grind

theorem user_not_gone {T : Thr} (h : T.stage.user) : ¬ T.stage.gone := by
  cases hs : T.stage <;> simp_all [Stage.user, Stage.gone]

theorem user_not_stored {T : Thr} (h : T.stage.user) : ¬ T.stage.Stored := by
  cases hs : T.stage <;> simp_all [Stage.user, Stage.Stored]

/-- What a step of a call does not change. -/
theorem callStep_frame {t : Inst} {r : Rec} {c : Call} (hv : s.view c.addr c.target = some r) (hc : callStep s t r c = some s') :
    s'.thr = s.thr ∧ (∀ x, x ≠ c.target → s'.cons x = s.cons x) ∧ (∀ j, j ≠ t → s'.call j = s.call j) ∧
      (∀ c', s'.call t = some c' → c'.target = c.target) ∧ (∀ a x, x ≠ c.target → s'.view a x = s.view a x) := by
  refine ⟨callStep_thr hc, ?_⟩
  obtain ⟨v1, v2⟩ := view_some hv
  have vw : ∀ (m : Option Rec), (∀ r', m = some r' → r'.owner = c.target) → ∀ (s2 : State), s2.recs = (fun b => if b = c.addr then m else s.recs b) →
      ∀ a x, x ≠ c.target → s2.view a x = s.view a x := by
    intro m hm s2 h2 a x hx
    unfold State.view
    rw [h2]
    by_cases ha : a = c.addr
    · subst ha
      simp only [if_true, v1]
      rw [if_neg (by rw [v2]; exact fun h => hx h.symm)]
      cases m with
      | none => rfl
      | some r' => simp only; rw [if_neg (by rw [hm r' rfl]; exact fun h => hx h.symm)]
    · simp only [if_neg ha]
  cases c <;> simp only [callStep] at hc <;> (try split at hc) <;> (try cases hc)
  case swap.isTrue a y _ =>
    exact ⟨fun x hx => by simp [State.setCons, State.setCall, State.setRec, show x ≠ y from hx], fun j hj => by simp [State.setCons, State.setCall, State.setRec, hj], fun c' h => by simp [State.setCons, State.setCall, State.setRec] at h; subst h; rfl,
      vw (some { r with detached := .detached }) (by simp [v2]) _ rfl⟩
  case swap.isFalse a y _ =>
    exact ⟨fun x hx => by simp [State.ev, State.setCons, State.setCall, State.setRec, show x ≠ y from hx], fun j hj => by simp [State.ev, State.setCons, State.setCall, State.setRec, hj], fun c' h => by simp [State.ev, State.setCons, State.setCall, State.setRec] at h,
      vw (some { r with detached := .detached }) (by simp [v2]) _ rfl⟩
  case load.isTrue k a y _ =>
    exact ⟨fun x hx => by simp [State.setCons, State.setCall, show x ≠ y from hx], fun j hj => by simp [State.setCons, State.setCall, hj],
      fun c' h => by simp [State.setCons, State.setCall] at h; subst h; cases k <;> rfl, fun _ _ _ => rfl⟩
  case unmap k a y v =>
    cases k <;>
    exact ⟨fun x hx => by simp [State.finish, State.ev, State.setCons, State.setCall, State.setRec, show x ≠ y from hx], fun j hj => by simp [State.finish, State.ev, State.setCons, State.setCall, State.setRec, hj],
      fun c' h => by simp [State.finish, State.ev, State.setCons, State.setCall, State.setRec] at h, vw none (by simp) _ rfl⟩
  case drop.isFalse k a y v o _ =>
    cases k <;>
    exact ⟨fun x hx => by simp [State.finish, State.ev, State.setCons, State.setCall, show x ≠ y from hx], fun j hj => by simp [State.finish, State.ev, State.setCons, State.setCall, hj],
      fun c' h => by simp [State.finish, State.ev, State.setCons, State.setCall] at h, fun _ _ _ => rfl⟩
  all_goals
    exact ⟨fun x hx => rfl, fun j hj => by simp [State.setCall, hj],
      fun c' h => by simp [State.setCall] at h; subst h; rfl, fun _ _ _ => rfl⟩

theorem callAccess_touch {t : Inst} {c : Call} (hne : c.target ≠ h) :
    (∀ e ∈ callAccess t c, ¬ e.Touches h) ∧ (∀ u l r, .atomic u h l r true ∉ callAccess t c) := by
  cases c <;> simp [callAccess, Acc.Touches] <;> simp [Call.target] at hne
  · grind
  all_goals exact hne

theorem callAccess_target {t : Inst} {c : Call} {e : Acc} {x : Inst} (he : e ∈ callAccess t c) (hx : e.Touches x) : x = c.target := by
  cases c <;> simp [callAccess] at he <;> subst he <;> simp [Acc.Touches] at hx <;> exact hx.symm

/-- A step of a call on `h`. -/
theorem RInv.callStep (R : RInv h s tr) (I : Inv w sig s) (hw : w h = false) {t : Inst} {c : Call} (hc : s.call t = some c)
    (ht : c.target = h) {r : Rec} (hv : s.view c.addr c.target = some r) (hs : Life.callStep s t r c = some s') :
    RInv h s' (tr ++ callAccess t c) := by
  obtain ⟨f1, f2, f3, f4, f5⟩ := callStep_frame hv hs
  have C := I.callOk _ _ hc
  obtain ⟨H, hH, hHa, hval⟩ := C.target
  have hcons := C.cons
  have G := (I.ok _ _ hH).good
  rw [ht] at hv hcons hH hval G
  rw [hw] at hval G
  rw [hHa, hcons, hv] at G
  have uniq : ∀ j' c', s'.call j' = some c' → c'.target = h → j' = t := by
    intro j' c' q1 q2
    by_cases hj : j' = t
    · exact hj
    · rw [f3 j' hj] at q1
      have := (I.callOk _ _ q1).cons
      rw [q2, hcons] at this
      simp only [Option.some.injEq, Prod.mk.injEq] at this
      exact this.1.symm
  have k0 : ∀ x, s.thr x ≠ none → s'.thr x ≠ none := by rw [f1]; exact fun _ => id
  -- what the invariant says when the memory is being freed
  have over : c.phase = .freeing → H.stage.gone ∧ H.stage.Stored := by
    intro hp
    rw [hp] at G
    cases hst : H.stage <;> simp only [Good, hst, Live, Stuck, Aband, Over, Det, DetGone, Lost, Pending, Released] at G <;>
      simp [Stage.gone, Stage.Stored] at G ⊢
  have goneS : c.phase = .freeing → ∀ T', s'.thr h = some T' → T'.stage.gone := by
    intro hp T' hT'
    rw [f1, hH] at hT'; injection hT' with hT'; subst hT'
    exact (over hp).1
  cases c with
  | swap a y =>
    simp only [Call.target] at ht; subst ht
    simp only [Life.callStep] at hs
    simp only [callAccess]
    have hqs : Quiet s y := by unfold Quiet; rw [hcons]; trivial
    have vnew : ∀ T r', s.thr y = some T → s'.view T.addr y = some r' → r'.detached = .detached := by
      intro T r' hT hv'
      rw [hH] at hT; injection hT with hT; subst hT
      obtain ⟨v1, v2⟩ := view_some hv'
      rw [hHa] at v1
      split at hs <;> injection hs with hs <;> subst hs <;> simp [State.ev, State.setCons, State.setCall, State.setRec, Call.addr] at v1 <;> rw [← v1]
    split at hs
    · next hab =>
      have K : Knows (tr ++ [.atomic t y .detached true true]) t y :=
        (R.det H r hH (by rw [hHa]; exact hv) hab hqs).read
      refine ⟨fun e x he hx => ?_, fun T' q1 q2 => ?_, fun T' r' q1 q2 q3 _ => ?_, fun T' q1 q2 _ => ?_, fun j c' q1 q2 q3 => ?_, ?_⟩
      · rcases List.mem_append.mp he with he | he
        · exact k0 x (R.touched e x he hx)
        · simp at he; subst he; exact absurd hx (by simp [Acc.Touches])
      · rw [f1] at q1
        exact (R.own T' q1 q2).app (by simp [Acc.Touches])
      · rw [f1] at q1
        rw [vnew T' r' q1 q2] at q3; cases q3
      · rw [f1] at q1
        exact (R.ret T' q1 q2 hqs).app (by simp [Acc.Touches]) (by simp)
      · rw [uniq j c' q1 q2]; exact K
      · exact R.free.app (by simp [Acc.Touches])
    · next hab =>
      injection hs with hs; subst hs
      refine ⟨fun e x he hx => ?_, fun T' q1 q2 => ?_, fun T' r' q1 q2 q3 _ => ?_, fun T' q1 q2 q3 => ?_, fun j c' q1 q2 q3 => ?_, ?_⟩
      · rcases List.mem_append.mp he with he | he
        · exact k0 x (R.touched e x he hx)
        · simp at he; subst he; exact absurd hx (by simp [Acc.Touches])
      · rw [f1] at q1
        exact (R.own T' q1 q2).app (by simp [Acc.Touches])
      · rw [f1] at q1
        rw [vnew T' r' q1 q2] at q3; cases q3
      · simp [Quiet, State.ev, State.setCons] at q3
      · have := uniq j c' q1 q2
        subst this
        simp [State.ev, State.setCons, State.setCall] at q1
      · exact R.free.app (by simp [Acc.Touches])
  | load k a y =>
    simp only [Call.target] at ht; subst ht
    simp only [Life.callStep] at hs
    simp only [callAccess]
    have hqs : Quiet s y := by unfold Quiet; rw [hcons]; trivial
    refine R.frame [] (by simp) (by simp) k0 (by simp) (fun T' q => ⟨T', by rw [← f1]; exact q, rfl, id, fun h _ => h⟩) ?_ (fun _ => hqs) ?_
    · intro T r' q1 q2 q3
      refine ⟨r', ?_, q3⟩
      rw [← q2]
      split at hs <;> injection hs with hs <;> subst hs <;> rfl
    · intro j c' q1 q2 q3
      have := uniq j c' q1 q2
      subst this
      refine ⟨_, hc, rfl, ?_⟩
      split at hs <;> injection hs with hs <;> subst hs <;> simp [State.setCons, State.setCall] at q1 <;> subst q1
      · cases k <;> simp [afterWait, Call.Informed] at q3 ⊢
      · exact q3
  | wait k a y v =>
    simp only [Call.target] at ht; subst ht
    simp only [Life.callStep] at hs
    simp only [callAccess]
    have hqs : Quiet s y := by unfold Quiet; rw [hcons]; trivial
    refine R.frame [] (by simp) (by simp) k0 (by simp) (fun T' q => ⟨T', by rw [← f1]; exact q, rfl, id, fun h _ => h⟩) ?_ (fun _ => hqs) ?_
    · intro T r' q1 q2 q3
      refine ⟨r', ?_, q3⟩
      rw [← q2]
      split at hs <;> injection hs with hs <;> subst hs <;> rfl
    · intro j c' q1 q2 q3
      have := uniq j c' q1 q2
      subst this
      refine ⟨_, hc, rfl, ?_⟩
      split at hs <;> injection hs with hs <;> subst hs <;> simp [State.setCall] at q1 <;> subst q1 <;> exact q3
  | blocked k a y => simp [Life.callStep] at hs
  | loadRet a y =>
    simp only [Call.target] at ht; subst ht
    simp only [Life.callStep, Option.some.injEq] at hs
    subst hs
    simp only [callAccess]
    have hqs : Quiet s y := by unfold Quiet; rw [hcons]; exact ⟨a, hc⟩
    have K : Knows (tr ++ [.atomic t y .ret true false]) t y := (R.ret H hH (over rfl).2 hqs).read
    refine ⟨fun e x he hx => ?_, fun T' q1 q2 => absurd (goneS rfl T' q1) q2, fun T' r' q1 q2 q3 q4 => ?_, fun T' q1 q2 q3 => ?_, fun j c' q1 q2 q3 => ?_, ?_⟩
    · rcases List.mem_append.mp he with he | he
      · exact k0 x (R.touched e x he hx)
      · simp at he; subst he; exact absurd hx (by simp [Acc.Touches])
    · simp [Quiet, State.setCall, hcons, Call.kind, Call.phase] at q4
    · simp [Quiet, State.setCall, hcons, Call.kind, Call.phase] at q3
    · rw [uniq j c' q1 q2]; exact K
    · exact R.free.app (by simp [Acc.Touches])
  | readFields k a y v =>
    simp only [Call.target] at ht; subst ht
    refine R.plainOther hc rfl trivial k0 (by rw [hH]; simp) (goneS rfl) ?_ uniq
    simp only [Life.callStep, Option.some.injEq] at hs
    subst hs
    cases k <;> simp [Quiet, State.setCall, hcons, Call.kind, Call.phase]
  | drop k a y v o =>
    simp only [Call.target] at ht; subst ht
    refine R.plainOther hc rfl trivial k0 (by rw [hH]; simp) (goneS rfl) ?_ uniq
    simp only [Life.callStep] at hs
    split at hs <;> injection hs with hs <;> subst hs
    · cases k <;> simp [Quiet, State.setCall, hcons, Call.kind, Call.phase]
    · cases k <;> simp [Quiet, State.finish, State.ev, State.setCall, State.setCons]
  | unmap k a y v =>
    simp only [Call.target] at ht; subst ht
    refine R.plainOther hc rfl trivial k0 (by rw [hH]; simp) (goneS rfl) ?_ uniq
    simp only [Life.callStep, Option.some.injEq] at hs
    subst hs
    cases k <;> simp [Quiet, State.finish, State.ev, State.setCall, State.setCons]

end Origin.Life
