import Verif.Proof.FairWhole
set_option linter.unusedSimpArgs false
/-! # The whole program on fair schedules: projections -/

namespace Origin.Proc

/-- A stack becomes empty only at the end of a thread's own exit. -/
theorem emptied {c : Cfg} {s s' : State} {x : Action} (S : SInv c s) (h : step c s x = some s') (hx : s'.stk x.tid = []) : s.stk x.tid = [.thrLoop] := by
  have Sh := S.shape x.tid
  unfold step at h
  split at h
  · cases h
  · split at h
    · cases h
    · next fn rest hs =>
      rw [hs] at Sh
      exfalso
      cases x <;> simp only [userStep, Action.tid] at h hs hx Sh <;> (repeat' split at h) <;> cases h <;>
        simp [State.setStk, State.ev, State.setTd, State.beginExit, hs] at hx
      · split at hx
        · cases hx
        · cases hx
      · next h1 h2 =>
        obtain ⟨a, r, h3, -⟩ := Sh.pop (user_base (fun e => h1 (by rw [e])) (fun e => h2 (by rw [e])))
        rw [hx] at h3; cases h3
    · next fr rest hnu hs =>
      split at h
      case isFalse => cases h
      rw [hs] at Sh
      generalize x.tid = t at h hs hx Sh ⊢
      cases fr <;> simp only [frameStep, State.acquire, State.release] at h
      case thrLoop => rw [hs, Sh.bottom_nil rfl]
      all_goals exfalso
      all_goals (repeat' split at h)
      all_goals first
        | (cases h; done)
        | (cases h; simp [State.setStk, State.ev, State.setTd, State.beginExit, hs] at hx
           try (obtain ⟨a, r, h3, -⟩ := Sh.pop rfl; rw [hx] at h3; cases h3))
        | (simp only [Option.map_eq_some_iff] at h; obtain ⟨s1, h1, rfl⟩ := h; cases h1; simp [State.setStk, State.ev, State.setTd] at hx)

end Origin.Proc

namespace Origin.Whole

variable {c : Proc.Cfg} {sig : Bool} {s s' : State} {P : Life.State → Life.Action → Prop}
variable {st : Nat → State} {act : Nat → Option Action}

theorem IsExec.reach (X : IsExec c sig P st act) : ∀ n, Reach c sig P (st n)
  | 0 => by obtain ⟨a, tid, h1, h2⟩ := X.start; rw [h2]; exact .init a tid h1
  | n + 1 => by
    cases h : act n with
    | none => rw [X.idle n h]; exact X.reach n
    | some x => exact .step (X.reach n) (X.next n x h).1 (X.next n x h).2

theorem Reach.parts (R : Reach c sig P s) : Life.Reach sig P s.l ∧ Proc.Reach c s.p ∧ (∀ e, .inl e ∈ s.log ↔ e ∈ s.l.log) ∧ ∀ e, .inr e ∈ s.log ↔ e ∈ s.p.log := by
  have K := R.known (o := none) (fun _ e => by cases e)
  exact ⟨K.life, K.proc, K.inv.inl, K.inv.inr⟩

/-- No stray wake-up, no crash. -/
theorem Reach.noCrash (R : Reach c sig (Life.Orderly sig) s) : s.crashed = false := by
  have R0 := R
  induction R with
  | init a tid h => rfl
  | step R hp hs ih =>
    obtain ⟨l', p', rfl, Q⟩ := step_parts hs
    obtain ⟨e1, ⟨e2, -⟩ | ⟨e2, -⟩⟩ := next_cases (s := _) l' p'
    · exfalso
      unfold State.next at e2
      split at e2
      · next hf =>
        rw [List.any_eq_true] at hf
        obtain ⟨e, he, hf⟩ := hf
        have he : e ∈ l'.log := List.mem_of_mem_take he
        cases e with
        | fault t h => exact Life.C23_no_use_after_free_partial ((by rw [← e1]; exact R0.parts.1 : Life.Reach sig (Life.Orderly sig) l').orderlyFor h) t he
        | _ => cases hf
      · cases e2
    · exact e2

theorem IsExec.life (X : IsExec c sig P st act) :
    Life.IsExec sig P (fun n => (st n).l) (fun n => (act n).bind Action.life?) := by
  refine ⟨⟨fun n h => ?_, fun n y h => ?_⟩, by
    obtain ⟨a, tid, h1, h2⟩ := X.start
    exact ⟨a, tid, h1, by rw [h2]; rfl⟩⟩
  · cases hx : act n with
    | none => simp only [X.idle n hx]
    | some x =>
      simp only [hx, Option.bind_some] at h
      obtain ⟨l', p', h2, Q⟩ := step_parts (X.next n x hx).2
      simp only [h2]; rw [(next_cases l' p').1]; exact Q.noLife h
  · cases hx : act n with
    | none => simp [hx] at h
    | some x =>
      simp only [hx, Option.bind_some] at h
      obtain ⟨l', p', h2, Q⟩ := step_parts (X.next n x hx).2
      simp only [h2, (next_cases l' p').1]
      exact ⟨(X.next n x hx).1 y h, Q.life y h⟩

theorem IsExec.proc (X : IsExec c sig P st act) (hc : ∀ n, (st n).crashed = false) :
    Proc.IsExec c (fun n => (st n).p) (fun n => (act n).bind Action.proc?) := by
  have key : ∀ n l' p', st (n + 1) = (st n).next l' p' → (st (n + 1)).p = p' := by
    intro n l' p' h
    have hc := hc (n + 1)
    rw [h] at hc ⊢
    obtain ⟨-, ⟨e2, -⟩ | ⟨-, -, e2, -⟩⟩ := next_cases (s := st n) l' p'
    · rw [hc] at e2; cases e2
    · exact e2
  refine ⟨⟨fun n h => ?_, fun n y h => ?_⟩, by obtain ⟨a, tid, h1, h2⟩ := X.start; simp only [h2]; rfl⟩
  · cases hx : act n with
    | none => simp only [X.idle n hx]
    | some x =>
      simp only [hx, Option.bind_some] at h
      obtain ⟨l', p', h2, Q⟩ := step_parts (X.next n x hx).2
      simp only [key n l' p' h2, Q.noProc h]
  · cases hx : act n with
    | none => simp [hx] at h
    | some x =>
      simp only [hx, Option.bind_some] at h
      obtain ⟨l', p', h2, Q⟩ := step_parts (X.next n x hx).2
      simp only [key n l' p' h2]
      exact Q.proc y h

theorem Fair.life (F : Fair c sig st act) (hd : ∀ n, (st n).p.dead = false) (hc : ∀ n, (st n).crashed = false) :
    Life.Fair sig (fun n => (st n).l) (fun n => (act n).bind Action.life?) := by
  constructor
  · intro t n
    obtain ⟨m, hm, h | h⟩ := F.threads t n
    · exact ⟨m, hm, .inl (by simp only [h]; rfl)⟩
    · refine ⟨m, hm, .inr ?_⟩
      simpa [step, hd m, hc m] using h
  · intro t n
    obtain ⟨m, hm, ⟨w, h⟩ | h⟩ := F.kernel t n
    · exact ⟨m, hm, .inl ⟨w, by simp only [h]; rfl⟩⟩
    · refine ⟨m, hm, .inr fun w => ?_⟩
      simpa [step, hd m, hc m] using h w

/-- A thread in origin's code can go on if its stack says so. -/
theorem Reach.enabled (R : Reach c sig (Life.Orderly sig) s) {t : Nat} {p' : Proc.State} (h : Proc.step c s.p (.step t) = some p') :
    Whole.step c sig s (.proc (.step t)) ≠ none ∨ Whole.step c sig s (.release t) ≠ none := by
  have hc := R.noCrash
  have L := R.linked hc
  have J := R.idle hc
  obtain ⟨RL, RP, -⟩ := R.parts
  have hd : s.p.dead = false := (Proc.step_tr h).1
  -- the stack
  obtain ⟨fr, rest, hs, hu⟩ : ∃ fr rest, s.p.stk t = fr :: rest ∧ ∀ fn, fr ≠ .user fn := by
    have h := h
    unfold Proc.step at h
    rw [hd] at h
    simp only [Proc.Action.tid, Bool.false_eq_true, if_false] at h
    split at h
    · cases h
    · cases h
    · next fr rest hnu hs => exact ⟨fr, rest, hs, fun fn e => hnu fn e⟩
  have hut : userTop s.p t = false := by
    unfold userTop
    rw [hs]
    cases fr <;> first | rfl | exact absurd rfl (hu _)
  have hcall : s.l.call t = none := Classical.byContradiction fun h => by rw [J.call t h] at hut; cases hut
  have hlt : t < s.l.next := by
    rw [L.next]
    rcases Nat.lt_or_ge t s.p.nextT with h' | h'
    · exact h'
    · rw [RP.sinv.new t h'] at hs; cases hs
  obtain ⟨T, hT⟩ : ∃ T, s.l.thr t = some T := by
    have := L.full t hlt
    unfold Life.clsOf at this
    cases hT : s.l.thr t with
    | none => rw [hT] at this; exact absurd rfl this
    | some T => exact ⟨T, rfl⟩
  have hst : T.stage = .body ∨ ∃ v, T.stage = .dtors v := by
    by_cases h0 : t = 0
    · subst h0; exact .inl ((RL.any.ok 0 T hT).main.1 rfl)
    · cases hg : T.stage with
      | born =>
        have := J.born t T hT hg
        rw [hs] at this; injection this with this; exact absurd this (hu _)
      | body => exact .inl rfl
      | dtors v => exact .inr ⟨v, rfl⟩
      | _ =>
        have := L.late t h0 (by simp [Life.clsOf, hT, hg, Life.Stage.cls])
        rw [(RP.rinv.gone t this).1] at hs; cases hs
  have hview : (s.l.view T.addr t).isSome = true := by
    have I := (RL.orderlyFor t).inv
    obtain ⟨r, hr, -⟩ := ((I.ok t T hT).good.user_rec (by rcases hst with h | ⟨v, h⟩ <;> rw [h] <;> trivial)).resolve_left (by simp [Life.only])
    rw [hr]; rfl
  have hrun : running s.l t = true := by
    unfold running Life.State.inUser
    rw [hT]
    rcases hst with h | ⟨v, h⟩ <;> simp [hcall, h, hview]
  by_cases he : p'.stk t = []
  · right
    have hl : s.p.stk t = [.thrLoop] := Proc.emptied RP.sinv h he
    have h0 : Life.clsOf s.l t = some .dtors := (L.in_dtors RP hl).1
    have hst : ∃ v, T.stage = .dtors v := by
      rcases hst with h | h
      · simp [Life.clsOf, hT, h, Life.Stage.cls] at h0
      · exact h
    obtain ⟨v, hst⟩ := hst
    have hls : Life.step sig s.l (.dtorsDone t) = some (s.l.setStage t (.cas v)) := by
      simp only [Life.step, hT, hst, hcall]
      rw [if_neg (by rw [Option.isNone_iff_eq_none]; intro h; rw [h] at hview; cases hview)]
    simp [Whole.step, hd, hc, hls, h, he, hl]
  · left
    simp [Whole.step, hd, hc, Proc.Action.tid, hrun, h, he]

theorem Fair.proc (F : Fair c sig st act) (X : IsExec c sig (Life.Orderly sig) st act) :
    Proc.Fair c (fun n => (st n).p) (fun n => (act n).bind Action.proc?) := by
  intro t n
  obtain ⟨m, hm, h | h | ⟨h1, h2⟩⟩ := F.origin t n
  · exact ⟨m, hm, .inl (by simp only [h]; rfl)⟩
  · exact ⟨m, hm, .inl (by simp only [h]; rfl)⟩
  · refine ⟨m, hm, .inr ?_⟩
    cases hs : Proc.step c (st m).p (.step t) with
    | none => rfl
    | some p' =>
      rcases (X.reach m).enabled hs with h | h
      · exact absurd h1 h
      · exact absurd h2 h

theorem IsExec.log_stays (X : IsExec c sig P st act) {e : Ev} {n m : Nat} (hm : n ≤ m) (he : e ∈ (st n).log) : e ∈ (st m).log := by
  induction hm with
  | refl => exact he
  | step hm ih =>
    rename_i k
    cases hx : act k with
    | none => rw [X.idle k hx]; exact ih
    | some x =>
      obtain ⟨l', p', h2, -⟩ := step_parts (X.next k x hx).2
      rw [h2]
      obtain ⟨-, ⟨-, -, e⟩ | ⟨-, -, -, e⟩⟩ := next_cases (s := st k) l' p' <;> rw [e] <;> exact List.mem_append_right _ ih

end Origin.Whole
