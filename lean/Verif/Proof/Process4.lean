import Verif.Proof.Process3
/-! # Program `at_exit` functions -/

namespace Origin.Proc

def pregs (l : List Ev) : List FnId := l.filterMap fun | .pReg _ f => some f | _ => none
def ptakes (l : List Ev) : List FnId := l.filterMap fun | .pTake _ _ f => some f | _ => none

theorem mem_pregs {l : List Ev} {f : FnId} : f ∈ pregs l ↔ PRegd l f := by
  simp only [pregs, List.mem_filterMap, PRegd]
  constructor
  · rintro ⟨e, h1, h2⟩
    cases e <;> simp at h2
    subst h2; exact ⟨_, h1⟩
  · rintro ⟨t, h⟩; exact ⟨_, h, rfl⟩

theorem mem_ptakes {l : List Ev} {f : FnId} : f ∈ ptakes l ↔ PTaken l f := by
  simp only [ptakes, List.mem_filterMap, PTaken]
  constructor
  · rintro ⟨e, h1, h2⟩
    cases e <;> simp at h2
    subst h2; exact ⟨_, _, h1⟩
  · rintro ⟨t, e, h⟩; exact ⟨_, h, rfl⟩

/-- What holds when an event about program `at_exit` functions happens. -/
def POk (c : Cfg) (e : Ev) (old : List Ev) : Prop :=
  match e with
  | .pReg _ f => ¬ PRegd old f ∧ (c.thread = true → ¬ PFinished old)
  | .pTake _ _ f => PRegd old f ∧ ¬ PTaken old f ∧
      ∀ g t₁ t₂, Later old (.pReg t₁ g) (.pReg t₂ f) → PTaken old g
  | .pCall t e f => Ev.pTake t e f ∈ old ∧ ¬ PCalled old f
  | .pDone t _ => (∀ f, PRegd old f → PTaken old f) ∧ (∀ e f, Ev.pTake t e f ∈ old → Ev.pCall t e f ∈ old) ∧
      (c.thread = true → c.programAtExit = true → ¬ PFinished old)
  | _ => True

/-- A function between being taken and being called. -/
def Frame.holds : Frame → Option (Exit × FnId)
  | .exitUnlock e _ f | .exitCall e _ f => some (e, f)
  | _ => none

structure PInv (c : Cfg) (s : State) : Prop where
  fresh : ∀ f, PRegd s.log f → f < s.nextF
  nd : (pregs s.log).Nodup
  pd : s.dtors = (pregs s.log).filter (· ∉ ptakes s.log)
  off : c.programAtExit = false → ∀ f, ¬ PRegd s.log f
  tk : ∀ t e f, Ev.pTake t e f ∈ s.log → Ev.pCall t e f ∈ s.log ∨ ∃ fr rest, s.stk t = fr :: rest ∧ fr.holds = some (e, f)
  fr : ∀ t fr e f, fr ∈ s.stk t → fr.holds = some (e, f) → Ev.pTake t e f ∈ s.log ∧ ¬ PCalled s.log f
  tr : TraceOk (POk c) s.log

theorem take_unique {c : Cfg} {l : List Ev} (h : TraceOk (POk c) l) {t t' : Tid} {e e' : Exit} {f : FnId}
    (h1 : Ev.pTake t e f ∈ l) (h2 : Ev.pTake t' e' f ∈ l) : t = t' ∧ e = e' := by
  induction l with
  | nil => cases h1
  | cons x l ih =>
    rcases List.mem_cons.mp h1 with k1 | k1 <;> rcases List.mem_cons.mp h2 with k2 | k2
    · rw [← k1] at k2; injection k2 with a b; exact ⟨a.symm, b.symm⟩
    · subst k1; exact absurd ⟨_, _, k2⟩ h.1.2.1
    · subst k2; exact absurd ⟨_, _, k1⟩ h.1.2.1
    · exact ih h.2 k1 k2

theorem PInv.init (c : Cfg) : PInv c init := by
  have h0 : ∀ t fr, fr ∈ Proc.init.stk t → fr = .entry := by
    intro t fr h
    simp only [Proc.init] at h
    split at h <;> simp at h
    exact h
  constructor
  · intro f ⟨t, h⟩; cases h
  · simp [Proc.init, pregs]
  · simp [Proc.init, pregs]
  · intro _ f ⟨t, h⟩; cases h
  · intro t e f h; cases h
  · intro t fr e f h hh; cases h0 t fr h; cases hh
  · trivial

def Ev.pother : Ev → Bool
  | .pReg .. | .pTake .. | .pCall .. => false
  | _ => true

/-- A step of `t` which is not about program `at_exit` functions; `evs` are its events. -/
theorem PInv.upd {c : Cfg} {s s' : State} (I : PInv c s) {t : Tid} {l : List Frame} (evs : List Ev)
    (h1 : s'.stk = fun x => if x = t then l else s.stk x) (h2 : s'.dtors = s.dtors) (h3 : s.nextF ≤ s'.nextF)
    (h4 : s'.log = evs ++ s.log) (h5 : ∀ e ∈ evs, e.pother = true) (h6 : TraceOk (POk c) (evs ++ s.log))
    (hl : ∀ x ∈ l, x.holds ≠ none → x ∈ s.stk t)
    (hl' : ∀ fr rest, s.stk t = fr :: rest → fr.holds ≠ none → ∃ fr' rest', l = fr' :: rest' ∧ fr'.holds = fr.holds) : PInv c s' := by
  have hr : pregs (evs ++ s.log) = pregs s.log := by
    have : pregs evs = [] := by
      simp only [pregs]
      rw [List.filterMap_eq_nil_iff]
      intro e he
      have := h5 e he
      cases e <;> simp_all [Ev.pother]
    unfold pregs at *
    rw [List.filterMap_append, this]; rfl
  have hk : ptakes (evs ++ s.log) = ptakes s.log := by
    have : ptakes evs = [] := by
      simp only [ptakes]
      rw [List.filterMap_eq_nil_iff]
      intro e he
      have := h5 e he
      cases e <;> simp_all [Ev.pother]
    unfold ptakes at *
    rw [List.filterMap_append, this]; rfl
  have hreg : ∀ f, PRegd s'.log f ↔ PRegd s.log f := by intro f; rw [← mem_pregs, ← mem_pregs, h4, hr]
  have hmem : ∀ e : Ev, e.pother = false → (e ∈ s'.log ↔ e ∈ s.log) := by
    intro e he
    rw [h4, List.mem_append]
    constructor
    · rintro (h | h)
      · rw [h5 e h] at he; cases he
      · exact h
    · exact .inr
  constructor
  · intro f hf; exact Nat.lt_of_lt_of_le (I.fresh f ((hreg f).mp hf)) h3
  · rw [h4, hr]; exact I.nd
  · rw [h2, h4, hr, hk]; exact I.pd
  · intro hc f hf; exact I.off hc f ((hreg f).mp hf)
  · intro t' e f hm
    rw [hmem _ rfl] at hm
    rw [hmem _ rfl]
    rcases I.tk t' e f hm with h | ⟨fr, rest, q1, q2⟩
    · exact .inl h
    · right
      rw [h1]; simp only; split
      · next h =>
        subst h
        obtain ⟨fr', rest', w1, w2⟩ := hl' fr rest q1 (by rw [q2]; simp)
        exact ⟨fr', rest', w1, by rw [w2, q2]⟩
      · exact ⟨fr, rest, q1, q2⟩
  · intro t' fr e f hm hh
    have hpc : PCalled s'.log f ↔ PCalled s.log f := by
      simp only [PCalled]
      constructor
      · rintro ⟨a, b, h⟩; exact ⟨a, b, (hmem _ rfl).mp h⟩
      · rintro ⟨a, b, h⟩; exact ⟨a, b, (hmem _ rfl).mpr h⟩
    rw [hmem _ rfl, hpc]
    rw [h1] at hm; simp only at hm; split at hm
    · next h => subst h; exact I.fr t' fr e f (hl fr hm (by rw [hh]; simp)) hh
    · exact I.fr t' fr e f hm hh
  · rw [h4]; exact h6

theorem Frame.under_holds {fr : Frame} (h : fr.under = true) : fr.holds = none := by
  cases fr <;> simp_all [Frame.under, Frame.holds]

theorem holds_head {c : Cfg} {s : State} (S : SInv c s) {t : Tid} {fr fr' : Frame} {rest : List Frame}
    (hs : s.stk t = fr :: rest) (hm : fr' ∈ s.stk t) (hh : fr'.holds ≠ none) : fr' = fr := by
  have Sh := S.shape t; rw [hs] at Sh hm
  rcases List.mem_cons.mp hm with h | h
  · exact h
  · exact absurd (Frame.under_holds (Sh.tail_under _ h)) hh

theorem PInv.finished {c : Cfg} {s : State} (I : PInv c s) (L : LInv c s) {t : Tid} {fr : Frame} {rest : List Frame}
    (hs : s.stk t = fr :: rest) (hh : fr.holds = none) (hd : (c.programAtExit = true → s.dtors = [] ∧ fr.crit = true)) (e : Exit) :
    POk c (.pDone t e) s.log := by
  refine ⟨?_, ?_, ?_⟩
  · intro f hf
    cases hc : c.programAtExit with
    | false => exact absurd hf (I.off hc f)
    | true =>
      have hd := (hd hc).1
      rw [I.pd, List.filter_eq_nil_iff] at hd
      have := hd f (mem_pregs.mpr hf)
      simp at this
      exact mem_ptakes.mp this
  · intro e' f hf
    rcases I.tk t e' f hf with h | ⟨fr', r', q1, q2⟩
    · exact h
    · rw [hs] at q1; cases q1
      rw [hh] at q2; cases q2
  · intro hct hpa
    exact (L.lk1 hct t fr (by rw [hs]; simp) (hd hpa).2).2

theorem PInv.step {c : Cfg} {s s' : State} (I : PInv c s) (S : SInv c s) (L : LInv c s) (h : Tr c s s') : PInv c s' := by
  cases h with
  | spawn t fn rest hs hc =>
    refine I.upd (t := s.nextT) (l := [.user .start]) [_] rfl rfl (Nat.le_refl _) rfl (by simp [Ev.pother]) ⟨trivial, I.tr⟩
      (by simp [Frame.holds]) ?_
    intro fr rest' h; rw [S.new _ (Nat.le_refl _)] at h; cases h
  | regThr t fn rest hs hc =>
    exact I.upd (t := t) (l := s.stk t) [.tReg t s.nextF] (by funext x; simp only [State.ev, State.setTd]; split <;> simp_all) rfl
      (Nat.le_succ _) rfl (by simp [Ev.pother]) ⟨trivial, I.tr⟩ (fun x hx _ => hx) (fun fr rest h _ => ⟨fr, rest, h, rfl⟩)
  | group t rest e st hs hd =>
    exact I.upd (t := t) (l := s.stk t) [.group t e st] (by funext x; simp only [State.ev]; split <;> simp_all) rfl
      (Nat.le_refl _) rfl (by simp [Ev.pother]) ⟨trivial, I.tr⟩ (fun x hx _ => hx) (fun fr rest h _ => ⟨fr, rest, h, rfl⟩)
  | regProg t fn rest hs hc =>
    exact I.upd [] rfl rfl (Nat.le_refl _) rfl (by simp) I.tr (by rw [hs]; grind [Frame.holds]) (by rw [hs]; grind [Frame.holds])
  | exit t fn rest st hs =>
    exact I.upd [_] rfl rfl (Nat.le_refl _) rfl (by simp [Ev.pother]) ⟨trivial, I.tr⟩ (by rw [hs]; grind [Frame.holds]) (by rw [hs]; grind [Frame.holds])
  | imm t fn rest st hs =>
    exact I.upd [_] rfl rfl (Nat.le_refl _) rfl (by simp [Ev.pother]) ⟨trivial, I.tr⟩ (by rw [hs]; grind [Frame.holds]) (by rw [hs]; grind [Frame.holds])
  | retMain t rest st hs =>
    exact I.upd [_, _] rfl rfl (Nat.le_refl _) rfl (by simp [Ev.pother]) ⟨trivial, trivial, I.tr⟩ (by rw [hs]; grind [Frame.holds]) (by rw [hs]; grind [Frame.holds])
  | retStart t rest hs =>
    exact I.upd [] rfl rfl (Nat.le_refl _) rfl (by simp) I.tr (by rw [hs]; grind [Frame.holds]) (by rw [hs]; grind [Frame.holds])
  | ret t fn rest hs h1 h2 =>
    exact I.upd [] rfl rfl (Nat.le_refl _) rfl (by simp) I.tr (by rw [hs]; grind [Frame.holds]) (by rw [hs]; grind [Frame.holds])
  | entry t rest hs =>
    exact I.upd [_] rfl rfl (Nat.le_refl _) rfl (by simp [Ev.pother]) ⟨trivial, I.tr⟩ (by rw [hs]; grind [Frame.holds]) (by rw [hs]; grind [Frame.holds])
  | initEnd t rest hs =>
    exact I.upd [_] rfl rfl (Nat.le_refl _) rfl (by simp [Ev.pother]) ⟨trivial, I.tr⟩ (by rw [hs]; grind [Frame.holds]) (by rw [hs]; grind [Frame.holds])
  | init t p rest hs hp =>
    exact I.upd [_] rfl rfl (Nat.le_refl _) rfl (by simp [Ev.pother]) ⟨trivial, I.tr⟩ (by rw [hs]; grind [Frame.holds]) (by rw [hs]; grind [Frame.holds])
  | thrCall t rest f fs hs hc ht =>
    exact I.upd [_] rfl rfl (Nat.le_refl _) rfl (by simp [Ev.pother]) ⟨trivial, I.tr⟩ (by rw [hs]; grind [Frame.holds]) (by rw [hs]; grind [Frame.holds])
  | thrEnd t rest hs ht =>
    exact I.upd [_] rfl rfl (Nat.le_refl _) rfl (by simp [Ev.pother]) ⟨trivial, I.tr⟩ (by simp) (by rw [hs]; grind [Frame.holds])
  | regLock t rest s1 hs ha =>
    obtain ⟨h0, -, h1, -, h2, -, -, h3⟩ := acquire_fields ha
    exact I.upd (l := .regPush :: rest) [] (by rw [← h0]; rfl) h1 (Nat.le_of_eq h2.symm) h3 (by simp) I.tr
      (by rw [hs]; grind [Frame.holds]) (by rw [hs]; grind [Frame.holds])
  | regPush t rest hs =>
    have hnew : ¬ PRegd s.log s.nextF := fun h => Nat.lt_irrefl _ (I.fresh _ h)
    have hnt : ¬ PTaken s.log s.nextF := by
      rintro ⟨t', e, h⟩
      obtain ⟨old, w1, w2⟩ := I.tr.mem h
      obtain ⟨⟨a, b⟩, -⟩ := w1
      exact hnew ⟨a, w2 _ b⟩
    have hr : pregs (.pReg t s.nextF :: s.log) = s.nextF :: pregs s.log := rfl
    have hk : ptakes (.pReg t s.nextF :: s.log) = ptakes s.log := rfl
    have hm : Frame.regPush ∈ s.stk t := by rw [hs]; simp
    constructor
    · rintro f ⟨t', hf⟩
      simp only [State.ev, State.setStk, List.mem_cons, Ev.pReg.injEq] at hf ⊢
      rcases hf with ⟨-, rfl⟩ | hf
      · exact Nat.lt_succ_self _
      · exact Nat.lt_succ_of_lt (I.fresh f ⟨t', hf⟩)
    · simp only [State.ev, State.setStk, hr]
      exact List.nodup_cons.mpr ⟨fun h => hnew (mem_pregs.mp h), I.nd⟩
    · simp only [State.ev, State.setStk, hr, hk]
      rw [List.filter_cons, if_pos (by simp; rw [mem_ptakes]; exact hnt), ← I.pd]
    · intro hc; have := L.pat _ _ hm (.inl rfl); rw [hc] at this; cases this
    · intro t' e f h
      simp only [State.ev, State.setStk, List.mem_cons, reduceCtorEq, false_or] at h ⊢
      rcases I.tk t' e f h with h | ⟨fr, r, q1, q2⟩
      · exact .inl h
      · right
        split
        · next h => subst h; rw [hs] at q1; cases q1; cases q2
        · exact ⟨fr, r, q1, q2⟩
    · intro t' fr e f h hh
      simp only [State.ev, State.setStk, PCalled, List.mem_cons, reduceCtorEq, false_or] at h ⊢
      split at h
      · next ht =>
        subst ht
        rcases List.mem_cons.mp h with rfl | h
        · cases hh
        · exact I.fr _ fr e f (by rw [hs]; exact List.mem_cons_of_mem _ h) hh
      · exact I.fr _ fr e f h hh
    · exact ⟨⟨hnew, fun hct => (L.lk1 hct t _ hm rfl).2⟩, I.tr⟩
  | regUnlock t rest f hs =>
    obtain ⟨h0, -, h1, -, h2, -, -, h3⟩ := release_fields c s
    exact I.upd (l := rest) [.pRegRet t f] (by rw [← h0]; rfl) h1 (Nat.le_of_eq h2.symm) (by rw [← h3]; rfl)
      (by simp [Ev.pother]) ⟨trivial, I.tr⟩ (by rw [hs]; grind [Frame.holds]) (by rw [hs]; grind [Frame.holds])
  | exitThrCall t rest e st f fs hs hc ht =>
    exact I.upd [_] rfl rfl (Nat.le_refl _) rfl (by simp [Ev.pother]) ⟨trivial, I.tr⟩ (by rw [hs]; grind [Frame.holds]) (by rw [hs]; grind [Frame.holds])
  | exitThr t rest e st hs ht =>
    exact I.upd [_] rfl rfl (Nat.le_refl _) rfl (by simp [Ev.pother]) ⟨trivial, I.tr⟩ (by rw [hs]; grind [Frame.holds]) (by rw [hs]; grind [Frame.holds])
  | exitLock t rest e st s1 hs hc ha =>
    obtain ⟨h0, -, h1, -, h2, -, -, h3⟩ := acquire_fields ha
    exact I.upd (l := .exitPop e st :: rest) [] (by rw [← h0]; rfl) h1 (Nat.le_of_eq h2.symm) h3 (by simp) I.tr
      (by rw [hs]; grind [Frame.holds]) (by rw [hs]; grind [Frame.holds])
  | exitNoLock t rest e st hs hc =>
    exact I.upd [_] rfl rfl (Nat.le_refl _) rfl (by simp [Ev.pother])
      ⟨I.finished L hs rfl (fun h => by rw [hc] at h; cases h) e, I.tr⟩
      (by rw [hs]; grind [Frame.holds]) (by rw [hs]; grind [Frame.holds])
  | exitPop t rest e st f fs hs hd =>
    have hpd := I.pd
    rw [hd] at hpd
    obtain ⟨A, B, q1, q2, q3, q4⟩ := filter_head hpd.symm
    have hfr : PRegd s.log f := by rw [← mem_pregs, q1]; simp
    have hnt : ¬ PTaken s.log f := by rw [← mem_ptakes]; simpa using q3
    have hr : pregs (.pTake t e f :: s.log) = pregs s.log := rfl
    have hk : ptakes (.pTake t e f :: s.log) = f :: ptakes s.log := rfl
    have hreg : ∀ g, PRegd (.pTake t e f :: s.log) g ↔ PRegd s.log g := by intro g; simp [PRegd]
    constructor
    · intro g hg; exact I.fresh g ((hreg g).mp hg)
    · exact I.nd
    · simp only [State.ev, State.setStk, hr, hk]
      have hnd := I.nd
      rw [q1] at hnd ⊢
      rw [List.filter_append, List.filter_cons]
      have a1 : A.filter (· ∉ f :: ptakes s.log) = [] := by
        rw [List.filter_eq_nil_iff]
        intro a ha
        have := q2 a ha
        simp at this ⊢
        exact fun _ => this
      rw [a1, if_neg (by simp only [List.mem_cons, true_or, not_true, decide_false]; simp), ← q4]
      simp only [List.nil_append]
      apply List.filter_congr
      intro b hb
      have : b ≠ f := by
        rintro rfl
        rw [List.nodup_append] at hnd
        exact (List.nodup_cons.mp hnd.2.1).1 hb
      simp [this]
    · intro hc g hg; exact I.off hc g ((hreg g).mp hg)
    · intro t' e' g hg
      simp only [State.ev, State.setStk, List.mem_cons, Ev.pTake.injEq, reduceCtorEq, false_or] at hg ⊢
      rcases hg with ⟨rfl, rfl, rfl⟩ | hg
      · exact .inr ⟨_, _, by rw [if_pos rfl], rfl⟩
      · rcases I.tk t' e' g hg with h | ⟨fr, r, w1, w2⟩
        · exact .inl h
        · right
          split
          · next h => subst h; rw [hs] at w1; cases w1; cases w2
          · exact ⟨fr, r, w1, w2⟩
    · intro t' fr e' g hm hh
      have hpc : PCalled (.pTake t e f :: s.log) g ↔ PCalled s.log g := by simp [PCalled]
      simp only [State.ev, State.setStk] at hm ⊢
      rw [hpc]
      split at hm
      · next ht =>
        subst ht
        rcases List.mem_cons.mp hm with rfl | hm
        · simp [Frame.holds] at hh
          obtain ⟨rfl, rfl⟩ := hh
          refine ⟨List.mem_cons_self, ?_⟩
          rintro ⟨a, b, h⟩
          obtain ⟨old, w1, w2⟩ := I.tr.mem h
          exact hnt ⟨_, _, w2 _ w1.1⟩
        · have := I.fr t' fr e' g (by rw [hs]; exact List.mem_cons_of_mem _ hm) hh
          exact ⟨List.mem_cons_of_mem _ this.1, this.2⟩
      · have := I.fr t' fr e' g hm hh
        exact ⟨List.mem_cons_of_mem _ this.1, this.2⟩
    · refine ⟨⟨hfr, hnt, ?_⟩, I.tr⟩
      intro g t1 t2 hg
      obtain ⟨A', B', w1, w2⟩ := later_filterMap (q := fun | .pReg _ f => some f | _ => none) (g := g) (f := f) hg rfl rfl
      have := q2 g (nodup_before I.nd q1 w1 w2)
      refine mem_ptakes.mp ?_
      have : g ∈ ptakes s.log := by simpa using this
      exact this
  | exitPopEnd t rest e st hs hd =>
    exact I.upd [_] rfl rfl (Nat.le_refl _) rfl (by simp [Ev.pother])
      ⟨I.finished L hs rfl (fun _ => ⟨hd, rfl⟩) e, I.tr⟩
      (by rw [hs]; grind [Frame.holds]) (by rw [hs]; grind [Frame.holds])
  | exitUnlock t rest e st f hs =>
    obtain ⟨h0, -, h1, -, h2, -, -, h3⟩ := release_fields c s
    have hfr := I.fr t (.exitUnlock e st f) e f (by rw [hs]; simp) rfl
    constructor
    · exact fun g hg => by
        have : s.nextF = ((s.release c).setStk t (.exitCall e st f :: rest)).nextF := h2.symm
        rw [← this]
        exact I.fresh g (by rw [← h3]; exact hg)
    · have := I.nd; rw [← h3] at this; exact this
    · have := I.pd; rw [← h3, ← h1] at this; exact this
    · intro hc g hg; exact I.off hc g (by rw [← h3]; exact hg)
    · intro t' e' g hg
      simp only [State.setStk] at hg ⊢
      rw [h3] at hg ⊢
      rcases I.tk t' e' g hg with h | ⟨fr, r, w1, w2⟩
      · exact .inl h
      · right
        split
        · next h =>
          subst h; rw [hs] at w1; cases w1
          exact ⟨_, _, rfl, w2⟩
        · rw [h0]; exact ⟨fr, r, w1, w2⟩
    · intro t' fr e' g hm hh
      simp only [State.setStk] at hm ⊢
      rw [h3]
      split at hm
      · next h =>
        subst h
        rcases List.mem_cons.mp hm with rfl | hm
        · exact I.fr t' (.exitUnlock e st f) e' g (by rw [hs]; simp) hh
        · exact I.fr t' fr e' g (by rw [hs]; exact List.mem_cons_of_mem _ hm) hh
      · rw [h0] at hm; exact I.fr t' fr e' g hm hh
    · have := I.tr; rw [← h3] at this; exact this
  | exitCall t rest e st f hs =>
    have hfr := I.fr t (.exitCall e st f) e f (by rw [hs]; simp) rfl
    have hr : pregs (.pCall t e f :: s.log) = pregs s.log := rfl
    have hk : ptakes (.pCall t e f :: s.log) = ptakes s.log := rfl
    have hreg : ∀ g, PRegd (.pCall t e f :: s.log) g ↔ PRegd s.log g := by intro g; simp [PRegd]
    have hx : ∀ x, x ∈ Frame.user (.pdtor f) :: .exitLock e st :: rest → x.holds ≠ none → x ∈ rest := by
      intro x hx hh; grind [Frame.holds]
    constructor
    · intro g hg; exact I.fresh g ((hreg g).mp hg)
    · exact I.nd
    · exact I.pd
    · intro hc g hg; exact I.off hc g ((hreg g).mp hg)
    · intro t' e' g hg
      simp only [State.ev, State.setStk, List.mem_cons, Ev.pCall.injEq, reduceCtorEq, false_or] at hg ⊢
      rcases I.tk t' e' g hg with h | ⟨fr, r, w1, w2⟩
      · exact .inl (.inr h)
      · split
        · next h => subst h; rw [hs] at w1; cases w1; simp [Frame.holds] at w2; exact .inl (.inl ⟨rfl, w2.1.symm, w2.2.symm⟩)
        · exact .inr ⟨fr, r, w1, w2⟩
    · intro t' fr e' g hm hh
      simp only [State.ev, State.setStk] at hm ⊢
      have old : fr ∈ s.stk t' ∧ t' ≠ t := by
        split at hm
        · next h =>
          subst h
          have hm := hx fr hm (by rw [hh]; simp)
          have := holds_head S hs (show fr ∈ s.stk t' by rw [hs]; exact List.mem_cons_of_mem _ hm) (by rw [hh]; simp)
          have Sh := S.shape t'; rw [hs] at Sh
          have hu := Sh.tail_under fr hm
          rw [Frame.under_holds hu] at hh; cases hh
        · next h => exact ⟨hm, h⟩
      have := I.fr t' fr e' g old.1 hh
      refine ⟨List.mem_cons_of_mem _ this.1, ?_⟩
      rintro ⟨a, b, h⟩
      rcases List.mem_cons.mp h with h | h
      · injection h with h1 h2 h3
        subst h3
        exact old.2 (take_unique I.tr this.1 hfr.1).1
      · exact this.2 ⟨a, b, h⟩
    · exact ⟨hfr, I.tr⟩
  | exitFiniEnd t rest e st hs =>
    exact I.upd [] rfl rfl (Nat.le_refl _) rfl (by simp) I.tr (by rw [hs]; grind [Frame.holds]) (by rw [hs]; grind [Frame.holds])
  | exitFini t rest e st p hs hp =>
    exact I.upd [_] rfl rfl (Nat.le_refl _) rfl (by simp [Ev.pother]) ⟨trivial, I.tr⟩ (by rw [hs]; grind [Frame.holds]) (by rw [hs]; grind [Frame.holds])

theorem Reach.pinv {c : Cfg} {s : State} (h : Reach c s) : PInv c s := by
  induction h with
  | init => exact PInv.init c
  | step hr hs ih => exact ih.step hr.sinv hr.linv (step_tr hs).2

end Origin.Proc
