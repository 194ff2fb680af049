import Verif.Proof.Whole2
set_option linter.unusedSimpArgs false
/-! # Lifecycle and process model together: every step keeps the invariant -/

namespace Origin.Life

theorem Reach.mono {sig : Bool} {P Q : State → Action → Prop} (h : ∀ s x, P s x → Q s x) {s : State} (R : Reach sig P s) : Reach sig Q s := by
  induction R with
  | init a tid ht => exact .init a tid ht
  | step _ hp hs ih => exact .step ih (h _ _ hp) hs

end Origin.Life

namespace Origin.Whole
open Proc (TraceOk)

variable {c : Proc.Cfg} {sig : Bool} {s s' : State} {P : Life.State → Life.Action → Prop}

/-- What is known of a reachable state. -/
structure Known (c : Proc.Cfg) (sig : Bool) (P : Life.State → Life.Action → Prop) (o : Option Nat) (s : State) : Prop where
  life : Life.Reach sig P s.l
  proc : Proc.Reach c s.p
  inv : Inv o s

/-- Only the lifecycle model moves. -/
theorem Known.solo {o : Option Nat} (ho : ∀ h, o = some h → ∀ s x, P s x → Life.OrderlyFor h sig s x) (K : Known c sig P o s)
    (hcr : s.crashed = false) {x : Life.Action} (hP : P s.l x) {l' : Life.State} (h : Life.step sig s.l x = some l') (hx : x.solo = true) :
    Known c sig P o (s.next l' s.p) := by
  have L := K.inv.linked hcr
  have R' : Life.Reach sig P l' := .step K.life hP h
  have So := Life.step_solo h hx
  obtain ⟨le, hle⟩ := So.log
  obtain ⟨e1, e2⟩ := next_cases (s := s) l' s.p
  have e3 : (s.next l' s.p).p = s.p := by rcases e2 with ⟨-, h, -⟩ | ⟨-, -, h, -⟩ <;> exact h
  refine ⟨by rw [e1]; exact R', by rw [e3]; exact K.proc, ?_⟩
  refine K.inv.next (le := le) (pe := []) hle rfl ?_ ?_ ?_
  · intro _
    constructor
    · rw [e1, e3, So.next]; exact L.next
    · rw [e1, So.next]; intro u hu; rw [So.cls]; exact L.full u hu
    · rw [e1, e3]; intro u h0; rw [So.cls]; exact L.run u h0
    · rw [e1, e3]; intro u h0; rw [So.cls]; exact L.dtors u h0
    · rw [e1, e3]; intro u h0; rw [So.cls]; exact L.late u h0
    · rw [e3]; exact L.main
  · intro e he old h1 h2
    exact JOk.life L K.proc K.inv (fun h hh => (R'.mono (ho h hh)).inv) So.cls (by rw [hle]; exact List.mem_append_left _ he) h1 h2
  · intro _ e he; cases he

/-- Only the process model moves. -/
theorem Known.procStep {o : Option Nat} (ho : ∀ h, o = some h → ∀ s x, P s x → Life.OrderlyFor h sig s x) (K : Known c sig P o s)
    (hcr : s.crashed = false) {x : Proc.Action} {p' : Proc.State}
    (hx : Proc.step c s.p x = some p')
    (n1 : ∀ t, x ≠ .spawn t) (n2 : ∀ t st, x = .ret t st → s.p.stk t ≠ [.user .start]) (n3 : s.p.stk x.tid = [.thrLoop] → p'.stk x.tid ≠ []) :
    Known c sig P o (s.next s.l p') := by
  have L := K.inv.linked hcr
  have hnews : news s.l.log s.l.log = [] := news_append [] _
  have e : s.next s.l p' = { l := s.l, p := p', crashed := false, log := (news s.p.log p'.log).map .inr ++ s.log } := by
    unfold State.next; rw [hnews]; simp
  obtain ⟨pe, hpe, -⟩ := pstep_log hx
  refine ⟨by rw [e]; exact K.life, by rw [e]; exact .step K.proc hx, ?_⟩
  refine K.inv.next (le := []) (pe := pe) rfl hpe ?_ ?_ ?_
  · intro _
    exact L.proc K.proc K.life.any hx (by rw [e]) (by rw [e]) n1 n2 n3
  · intro e he; cases he
  · intro _ e he old h1 h2
    exact JOk.proc L K.proc K.life.any (fun h hh => (K.life.mono (ho h hh)).inv) K.inv hx hpe (fun z hz _ => hz) he h1 h2

/-- A step of both. -/
theorem Known.both {o : Option Nat} (ho : ∀ h, o = some h → ∀ s x, P s x → Life.OrderlyFor h sig s x) (K : Known c sig P o s)
    (hcr : s.crashed = false) {x : Life.Action} (hP : P s.l x) {l' : Life.State} (h : Life.step sig s.l x = some l')
    {y : Proc.Action} {p' : Proc.State} (hy : Proc.step c s.p y = some p') {le : List Life.Ev} (hle : l'.log = le ++ s.l.log)
    (hev : ∀ e ∈ le, (∀ j h v, e ≠ .joined j h v) ∧ ∀ h j, e ≠ .unmap h j)
    (hk : (s.next l' p').crashed = false → (s.next l' p').p = p' → Linked (s.next l' p')) :
    Known c sig P o (s.next l' p') := by
  have L := K.inv.linked hcr
  have R' : Life.Reach sig P l' := .step K.life hP h
  obtain ⟨e1, e2⟩ := next_cases (s := s) l' p'
  obtain ⟨pe, hpe, -⟩ := pstep_log hy
  refine ⟨by rw [e1]; exact R', ?_, ?_⟩
  · rcases e2 with ⟨-, e, -⟩ | ⟨-, -, e, -⟩
    · rw [e]; exact K.proc
    · rw [e]; exact .step K.proc hy
  · refine K.inv.next hle hpe ?_ ?_ ?_
    · intro hc
      rcases e2 with ⟨e, -⟩ | ⟨-, -, e, -⟩
      · rw [hc] at e; cases e
      · exact hk hc e
    · intro e he old _ _
      obtain ⟨h1, h2⟩ := hev e he
      cases e with
      | joined j h v => exact absurd rfl (h1 j h v)
      | unmap h j => exact absurd rfl (h2 h j)
      | _ => trivial
    · intro _ e he old h1 h2
      refine JOk.proc L K.proc K.life.any (fun h hh => (K.life.mono (ho h hh)).inv) K.inv hy hpe (l' := l') ?_ he h1 h2
      intro z hz hz'
      rw [hle] at hz
      refine (List.mem_append.mp hz).resolve_left fun hm => ?_
      obtain ⟨h1, h2⟩ := hev z hm
      rcases hz' with ⟨j, h, v, rfl⟩ | ⟨h, j, rfl⟩
      · exact h1 _ _ _ rfl
      · exact h2 _ _ rfl

theorem Known.faulted {o : Option Nat} (ho : ∀ h, o = some h → ∀ s x, P s x → Life.OrderlyFor h sig s x) (K : Known c sig P o s)
    (hcr : s.crashed = false) {x : Life.Action} (hP : P s.l x) {l' : Life.State} (h : Life.step sig s.l x = some l')
    {y : Proc.Action} {p' : Proc.State} (hy : Proc.step c s.p y = some p') (hf : Life.Faulted s.l l') : Known c sig P o (s.next l' p') := by
  have hc := fault_crashes (p' := p') hf
  obtain ⟨t, u, rfl⟩ := hf
  refine K.both ho hcr hP h hy (le := [.fault t u]) rfl (by simp) fun hc' _ => ?_
  rw [hc] at hc'; cases hc'

theorem Known.step {o : Option Nat} (ho : ∀ h, o = some h → ∀ s x, P s x → Life.OrderlyFor h sig s x) (K : Known c sig P o s) {x : Action}
    (hP : ∀ y, x.life? = some y → P s.l y) (h : step c sig s x = some s') : Known c sig P o s' := by
  unfold Whole.step at h
  split at h
  · cases h
  next hd =>
  have hcr : s.crashed = false := by
    cases hc : s.crashed <;> simp [hc] at hd ⊢
  have L := K.inv.linked hcr
  have S := K.proc.sinv
  cases x with
  | life y =>
    have hP := hP y rfl
    have one : ∀ {l'}, Life.step sig s.l y = some l' → y.solo = true → Known c sig P o (s.next l' s.p) := fun h1 h2 => K.solo ho hcr hP h1 h2
    simp only at h
    split at h
    · cases h
    · cases h
    · cases h
    all_goals
      first
      | (split at h
         · rw [Option.map_eq_some_iff] at h; obtain ⟨l', h1, rfl⟩ := h; exact one h1 rfl
         · cases h)
      | skip
    rw [Option.map_eq_some_iff] at h; obtain ⟨l', h1, rfl⟩ := h
    refine one h1 ?_
    cases y <;> simp_all [Life.Action.solo]
  | proc y =>
    simp only at h
    split at h
    case isFalse => cases h
    split at h
    · cases h
    · next t st =>
      split at h
      · cases h
      · next hne =>
        rw [Option.map_eq_some_iff] at h; obtain ⟨p', h1, rfl⟩ := h
        refine K.procStep ho hcr h1 (by simp) (fun t' st' e => by cases e; exact hne) fun hs => ?_
        exfalso
        unfold Proc.step at h1
        split at h1
        · cases h1
        · rw [hs] at h1; simp at h1
    · next h1 h2 =>
      rw [Option.bind_eq_some_iff] at h; obtain ⟨p', h3, h4⟩ := h
      split at h4
      · cases h4
      · next hne =>
        cases h4
        exact K.procStep ho hcr h3 h1 (fun t st e => absurd e (h2 t st)) fun _ => hne
  | create t a tid =>
    simp only at h
    rw [Option.bind_eq_some_iff] at h; obtain ⟨l', h1, h⟩ := h
    rw [Option.map_eq_some_iff] at h; obtain ⟨p', h2, rfl⟩ := h
    rcases Life.create_sync h1 with hf | ⟨q1, q2, q3, q4⟩
    · exact K.faulted ho hcr (hP _ rfl) h1 h2 hf
    · refine K.both ho hcr (hP _ rfl) h1 h2 (le := [_]) q2 (by simp) fun _ ep => ?_
      have e1 := (next_cases (s := s) l' p').1
      obtain ⟨o1, o2, -⟩ := Proc.step_other h2
      have o2 : p'.nextT = s.p.nextT + 1 ∧ p'.stk s.p.nextT = [.user .start] := by
        rcases o2 with ⟨t', -, h3⟩ | h3
        · exact h3
        · exfalso
          unfold Proc.step at h2
          split at h2
          · cases h2
          · split at h2
            · cases h2
            · simp only [Proc.userStep] at h2
              split at h2
              · cases h2; have := h3.1; simp [Proc.State.ev, Proc.State.setStk] at this
              · cases h2
            · simp at h2
      have hstk : ∀ u, u ≠ s.p.nextT → p'.stk u = s.p.stk u := by
        intro u hu
        unfold Proc.step at h2
        split at h2
        · cases h2
        · split at h2
          · cases h2
          · simp only [Proc.userStep] at h2
            split at h2
            · cases h2; simp [Proc.State.ev, Proc.State.setStk, hu]
            · cases h2
          · simp at h2
      have hlog : ∀ e ∈ s.p.log, e ∈ p'.log := by
        obtain ⟨pe, h, -⟩ := pstep_log h2
        intro e he; rw [h]; exact List.mem_append_right _ he
      have hn : s.l.next = s.p.nextT := L.next
      constructor
      · rw [e1, ep, q1, o2.1, hn]
      · rw [e1, q1]; intro u hu
        by_cases hun : u = s.l.next
        · subst hun; rw [q3]; simp
        · rw [q4 u hun]; exact L.full u (Nat.lt_of_le_of_ne (Nat.le_of_lt_succ hu) hun)
      · rw [e1, ep]; intro u h0 hu
        by_cases hun : u = s.l.next
        · subst hun; rw [hn, o2.2]; rfl
        · rw [q4 u hun] at hu; rw [hstk u (by rw [← hn]; exact hun)]; exact L.run u h0 hu
      · rw [e1, ep]; intro u h0 hu
        by_cases hun : u = s.l.next
        · subst hun; rw [q3] at hu; cases hu
        · rw [q4 u hun] at hu; rw [hstk u (by rw [← hn]; exact hun)]; exact L.dtors u h0 hu
      · rw [e1, ep]; intro u h0 hu
        by_cases hun : u = s.l.next
        · subst hun; rw [q3] at hu; cases hu
        · rw [q4 u hun] at hu; exact hlog _ (L.late u h0 hu)
      · rw [ep, hstk 0 (Nat.ne_of_lt S.pos)]; exact L.main
  | ret t v =>
    simp only at h
    split at h
    case isFalse => cases h
    next hst =>
    rw [Option.bind_eq_some_iff] at h; obtain ⟨l', h1, h⟩ := h
    rw [Option.map_eq_some_iff] at h; obtain ⟨p', h2, rfl⟩ := h
    rcases Life.ret_sync h1 with hf | ⟨q1, q2, q3, q4, q5, q6⟩
    · exact K.faulted ho hcr (hP _ rfl) h1 h2 hf
    · refine K.both ho hcr (hP _ rfl) h1 h2 (le := [_]) q2 (by simp) fun _ ep => ?_
      have e1 := (next_cases (s := s) l' p').1
      have hp' : p' = s.p.setStk t [.thrLoop] := by
        unfold Proc.step at h2
        split at h2
        · cases h2
        · simp only [Proc.Action.tid] at h2
          rw [hst] at h2
          simp only [Proc.userStep] at h2
          cases h2; rfl
      subst hp'
      constructor
      · rw [e1, ep, q1]; exact L.next
      · rw [e1, q1]; intro u hu
        by_cases hun : u = t
        · subst hun; rw [q5]; simp
        · rw [q6 u hun]; exact L.full u hu
      · rw [e1, ep]; intro u h0 hu
        by_cases hun : u = t
        · subst hun; rw [q5] at hu; cases hu
        · rw [q6 u hun] at hu; simp only [Proc.State.setStk]; rw [if_neg hun]; exact L.run u h0 hu
      · rw [e1, ep]; intro u h0 hu
        by_cases hun : u = t
        · subst hun; simp [Proc.State.setStk]
        · rw [q6 u hun] at hu; simp only [Proc.State.setStk]; rw [if_neg hun]; exact L.dtors u h0 hu
      · rw [e1, ep]; intro u h0 hu
        by_cases hun : u = t
        · subst hun; rw [q5] at hu; cases hu
        · rw [q6 u hun] at hu; exact L.late u h0 hu
      · rw [ep]; simp only [Proc.State.setStk]; rw [if_neg (fun h => q3 h.symm)]; exact L.main
  | release t =>
    simp only at h
    rw [Option.bind_eq_some_iff] at h; obtain ⟨l', h1, h⟩ := h
    rw [Option.bind_eq_some_iff] at h; obtain ⟨p', h2, h⟩ := h
    split at h
    case isFalse => cases h
    next hst =>
    cases h
    rcases Life.dtorsDone_sync h1 with hf | ⟨q1, q2, q3, q4, q5⟩
    · exact K.faulted ho hcr (hP _ rfl) h1 h2 hf
    · refine K.both ho hcr (hP _ rfl) h1 h2 (le := []) q2 (by simp) fun _ ep => ?_
      have e1 := (next_cases (s := s) l' p').1
      have hlog : ∀ e ∈ s.p.log, e ∈ p'.log := by
        obtain ⟨pe, h, -⟩ := pstep_log h2
        intro e he; rw [h]; exact List.mem_append_right _ he
      obtain ⟨-, o2, -⟩ := Proc.step_other h2
      have o2 : p'.nextT = s.p.nextT ∧ ∀ u, u ≠ t → p'.stk u = s.p.stk u := by
        rcases o2 with ⟨t', h3, -⟩ | h3
        · cases h3
        · exact h3
      have h0t : t ≠ 0 := by
        rintro rfl
        unfold Life.clsOf at q3
        rw [Option.map_eq_some_iff] at q3
        obtain ⟨T, hT, hc⟩ := q3
        rw [(K.life.any.ok 0 T hT).main.1 rfl] at hc
        cases hc
      have hrel : .released t ∈ p'.log := by
        have hb := (Proc.step_tr h2).2.bottom S (u := t) (by
          intro e; rw [S.new t (Nat.le_of_eq e.symm)] at hst; exact hst.1 rfl)
        have hd := L.dtors t h0t q3
        rcases hb with hb | ⟨-, hb⟩ | ⟨hb, -⟩ | hb
        · rw [hst.2, hd] at hb; cases hb
        · rw [hst.2] at hb; cases hb
        · exact released_of h2 hb hst.2
        · rw [hd] at hb; cases hb.1
      constructor
      · rw [e1, ep, q1, o2.1]; exact L.next
      · rw [e1, q1]; intro u hu
        by_cases hun : u = t
        · subst hun; rw [q4]; simp
        · rw [q5 u hun]; exact L.full u hu
      · rw [e1, ep]; intro u h0 hu
        by_cases hun : u = t
        · subst hun; rw [q4] at hu; cases hu
        · rw [q5 u hun] at hu; rw [o2.2 u hun]; exact L.run u h0 hu
      · rw [e1, ep]; intro u h0 hu
        by_cases hun : u = t
        · subst hun; rw [q4] at hu; cases hu
        · rw [q5 u hun] at hu; rw [o2.2 u hun]; exact L.dtors u h0 hu
      · rw [e1, ep]; intro u h0 hu
        by_cases hun : u = t
        · subst hun; exact hrel
        · rw [q5 u hun] at hu; exact hlog _ (L.late u h0 hu)
      · rw [ep, o2.2 0 (fun h => h0t h.symm)]; exact L.main

theorem Known.init (o : Option Nat) (a tid : Nat) (h : tid ≠ 0) : Known c sig P o (init a tid) := by
  refine ⟨.init a tid h, .init, fun _ => Linked.init a tid, ?_, ?_, ?_⟩
  · intro e; simp [Whole.init, Life.init]
  · intro e; simp [Whole.init, Life.init, Proc.init]
  · exact ⟨trivial, trivial⟩

theorem Reach.known {o : Option Nat} (ho : ∀ h, o = some h → ∀ s x, P s x → Life.OrderlyFor h sig s x) (R : Reach c sig P s) :
    Known c sig P o s := by
  induction R with
  | init a tid h => exact .init o a tid h
  | step _ hp hs ih => exact ih.step ho hp hs

end Origin.Whole
