import Verif.Proof.Unwind
import Verif.Props.FairProc
/-!
# Progress in the presence of panics: a panic leaves an `exit` call finitely often
-/

namespace Origin.Proc

set_option linter.unusedSimpArgs false

variable {c : Cfg} {s s' : State} {u u' : UState} {st : Nat → UState} {act : Nat → Option UAct}

/-! ### executions -/

theorem UExec.reach (X : UExec c st act) : ∀ n, UReach c (st n)
  | 0 => by rw [X.start]; exact .init
  | n + 1 => by
    cases h : act n with
    | none => rw [X.idle n h]; exact X.reach n
    | some x => exact .step (X.reach n) (X.next n x h)

theorem UExec.keeps (X : UExec c st act) {P : UState → Prop} (h : ∀ u u' x, P u → ustep c u x = some u' → P u') {n m : Nat} (hm : n ≤ m)
    (h0 : P (st n)) : P (st m) := by
  induction hm with
  | refl => exact h0
  | @step k hk ih =>
    cases ha : act k with
    | none => rw [X.idle k ha]; exact ih
    | some x => exact h _ _ x ih (X.next k x ha)

theorem ulog_mono {x : UAct} (h : ustep c u x = some u') {e : Ev} (he : e ∈ u.s.log) : e ∈ u'.s.log := by
  cases (ustep_tr h).2 with
  | act x s' hs => exact log_mono hs he
  | leave => exact he
  | abort => exact he

theorem UExec.log_stays (X : UExec c st act) {e : Ev} {n m : Nat} (hm : n ≤ m) (he : e ∈ (st n).s.log) : e ∈ (st m).s.log :=
  X.keeps (P := fun u => e ∈ u.s.log) (fun _ _ _ h hs => ulog_mono hs h) hm he

theorem UExec.aborted_stays (X : UExec c st act) {n m : Nat} (hm : n ≤ m) (h : (st n).aborted = true) : (st m).aborted = true :=
  X.keeps (P := fun u => u.aborted = true) (fun _ _ _ h hs => by rw [(ustep_tr hs).1] at h; cases h) hm h

theorem UExec.over_stays (X : UExec c st act) {n m : Nat} (hm : n ≤ m) : (st n).Over → (st m).Over
  | .inl h => .inl (X.aborted_stays hm h)
  | .inr ⟨t, e, v, h⟩ => .inr ⟨t, e, v, X.log_stays hm h⟩

theorem UReach.ended (h : UReach c u) : u.s.dead = true ↔ Ended u.s.log := by
  induction h with
  | init => exact Reach.ended (c := c) .init
  | step hr hs ih =>
    cases (ustep_tr hs).2 with
    | act x s' hs1 => exact ended_step ih (step_tr hs1).1 (step_tr hs1).2
    | leave => exact ih
    | abort => exact ih

/-! ### a function panics at most once -/

/-- `at_exit` functions running on a stack. -/
def Frame.hand : Frame → Option Fn
  | .user (.tdtor f) => some (.tdtor f)
  | .user (.pdtor f) => some (.pdtor f)
  | _ => none

def hands (l : List Frame) : List Fn := l.filterMap Frame.hand

/-- The function has been called. -/
def HCalled (l : List Ev) : Fn → Prop
  | .tdtor f => ∃ t, TCalled l t f
  | .pdtor f => PCalled l f
  | _ => True

theorem HCalled.mono {l l' : List Ev} (h : ∀ x ∈ l, x ∈ l') {fn : Fn} (hc : HCalled l fn) : HCalled l' fn := by
  cases fn with
  | tdtor f => obtain ⟨t, o, q⟩ := hc; exact ⟨t, o, h _ q⟩
  | pdtor f => obtain ⟨t, e, q⟩ := hc; exact ⟨t, e, h _ q⟩
  | _ => trivial

theorem treg_unique {l : List Ev} (h : TraceOk TOk l) {t t' : Tid} {f : FnId} (h1 : Ev.tReg t f ∈ l) (h2 : Ev.tReg t' f ∈ l) : t = t' := by
  induction l with
  | nil => cases h1
  | cons x l ih =>
    rcases List.mem_cons.mp h1 with k1 | k1 <;> rcases List.mem_cons.mp h2 with k2 | k2
    · rw [← k1] at k2; injection k2 with k2 _; exact k2.symm
    · subst k1; exact absurd k2 (h.1 t')
    · subst k2; exact absurd k1 (h.1 t)
    · exact ih h.2 k1 k2

theorem tdtor_fresh (T : TInv c s) {t : Tid} {f : FnId} {fs : List FnId} (hd : s.tdtors t = f :: fs) : ¬ HCalled s.log (.tdtor f) := by
  rintro ⟨t', o, h⟩
  have hf : f ∈ s.tdtors t := by rw [hd]; simp
  rw [T.td t, List.mem_filter] at hf
  obtain ⟨h1, h2⟩ := hf
  obtain ⟨old, h3, h4⟩ := T.tr.mem h
  have := treg_unique T.tr (mem_tregs.mp h1) (h4 _ h3.1)
  subst this
  simp at h2
  exact h2 (mem_tcalls.mpr ⟨o, h⟩)

/-- What a step does to the functions running. -/
theorem Tr.hands (tr : Tr c s s') (T : TInv c s) (P : PInv c s) : ∃ t, (∀ t', t' ≠ t → hands (s'.stk t') = hands (s.stk t')) ∧
    ((hands (s'.stk t)).Sublist (hands (s.stk t)) ∨
      ∃ h, hands (s'.stk t) = h :: hands (s.stk t) ∧ ¬ HCalled s.log h ∧ HCalled s'.log h) := by
  have upd : ∀ {t : Tid} {l : List Frame}, (s'.stk = fun x => if x = t then l else s.stk x) → (Proc.hands l).Sublist (Proc.hands (s.stk t)) →
      ∃ t, (∀ t', t' ≠ t → Proc.hands (s'.stk t') = Proc.hands (s.stk t')) ∧
    ((Proc.hands (s'.stk t)).Sublist (Proc.hands (s.stk t)) ∨
      ∃ h, Proc.hands (s'.stk t) = h :: Proc.hands (s.stk t) ∧ ¬ HCalled s.log h ∧ HCalled s'.log h) := by
    intro t l h hl
    exact ⟨t, fun t' ht' => by rw [h]; simp only [if_neg ht'], .inl (by rw [h]; simp only [if_self]; exact hl)⟩
  have psh : ∀ {t : Tid} {l : List Frame} {fn : Fn}, (s'.stk = fun x => if x = t then l else s.stk x) → Proc.hands l = fn :: Proc.hands (s.stk t) →
      ¬ HCalled s.log fn → HCalled s'.log fn →
      ∃ t, (∀ t', t' ≠ t → Proc.hands (s'.stk t') = Proc.hands (s.stk t')) ∧
    ((Proc.hands (s'.stk t)).Sublist (Proc.hands (s.stk t)) ∨
      ∃ h, Proc.hands (s'.stk t) = h :: Proc.hands (s.stk t) ∧ ¬ HCalled s.log h ∧ HCalled s'.log h) := by
    intro t l fn h hl h1 h2
    exact ⟨t, fun t' ht' => by rw [h]; simp only [if_neg ht'], .inr ⟨fn, by rw [h]; simp only [if_self]; exact hl, h1, h2⟩⟩
  have same : s'.stk = s.stk → ∃ t, (∀ t', t' ≠ t → Proc.hands (s'.stk t') = Proc.hands (s.stk t')) ∧
    ((Proc.hands (s'.stk t)).Sublist (Proc.hands (s.stk t)) ∨
      ∃ h, Proc.hands (s'.stk t) = h :: Proc.hands (s.stk t) ∧ ¬ HCalled s.log h ∧ HCalled s'.log h) :=
    fun h => ⟨0, fun t' _ => by rw [h], .inl (by rw [h]; exact List.Sublist.refl _)⟩
  cases tr with
  | spawn t fn rest hs _ => exact upd (t := s.nextT) rfl (List.nil_sublist _)
  | regThr t fn rest hs _ => exact same rfl
  | group t rest e v hs _ => exact same rfl
  | regLock t rest s1 hs ha => exact upd (t := t) (l := .regPush :: rest) (by simp [State.setStk, acquire_fields ha]) (by rw [hs]; exact List.Sublist.refl _)
  | exitLock t rest e v s1 hs _ ha =>
    exact upd (t := t) (l := .exitPop e v :: rest) (by simp [State.setStk, acquire_fields ha]) (by rw [hs]; exact List.Sublist.refl _)
  | regUnlock t rest f hs => exact upd (t := t) (l := rest) (by simp [State.setStk, State.ev]) (by rw [hs]; exact List.Sublist.refl _)
  | exitUnlock t rest e v f hs => exact upd (t := t) (l := .exitCall e v f :: rest) (by simp [State.setStk]) (by rw [hs]; exact List.Sublist.refl _)
  | ret t fn rest hs _ _ =>
    exact upd (t := t) rfl (by
      rw [hs]; unfold Proc.hands; rw [List.filterMap_cons]
      split
      · exact List.Sublist.refl _
      · exact List.sublist_cons_self _ _)
  | thrCall t rest f fs hs _ hd =>
    exact psh (t := t) (fn := .tdtor f) rfl (by rw [hs]; rfl) (tdtor_fresh T hd) ⟨t, _, List.mem_cons_self⟩
  | exitThrCall t rest e v f fs hs _ hd =>
    exact psh (t := t) (fn := .tdtor f) rfl (by rw [hs]; rfl) (tdtor_fresh T hd) ⟨t, _, List.mem_cons_self⟩
  | exitCall t rest e v f hs =>
    exact psh (t := t) (fn := .pdtor f) rfl (by rw [hs]; rfl) (P.fr t _ e f (by rw [hs]; exact List.mem_cons_self) rfl).2 ⟨t, _, List.mem_cons_self⟩
  | thrEnd t rest hs _ => exact upd (t := t) rfl (List.nil_sublist _)
  | regProg t fn rest hs _ => exact upd (t := t) rfl (by rw [hs]; exact List.Sublist.refl _)
  | exit t fn rest v hs => exact upd (t := t) rfl (by rw [hs]; exact List.Sublist.refl _)
  | imm t fn rest v hs => exact upd (t := t) rfl (by rw [hs]; exact List.Sublist.refl _)
  | retMain t rest v hs => exact upd (t := t) rfl (by rw [hs]; exact List.Sublist.refl _)
  | retStart t rest hs => exact upd (t := t) rfl (by rw [hs]; exact List.Sublist.refl _)
  | entry t rest hs => exact upd (t := t) rfl (by rw [hs]; exact List.Sublist.refl _)
  | initEnd t rest hs => exact upd (t := t) rfl (by rw [hs]; exact List.Sublist.refl _)
  | init t p rest hs _ => exact upd (t := t) rfl (by rw [hs]; exact List.Sublist.refl _)
  | regPush t rest hs => exact upd (t := t) rfl (by rw [hs]; exact List.Sublist.refl _)
  | exitThr t rest e v hs _ => exact upd (t := t) rfl (by rw [hs]; exact List.Sublist.refl _)
  | exitNoLock t rest e v hs _ => exact upd (t := t) rfl (by rw [hs]; exact List.Sublist.refl _)
  | exitPop t rest e v f fs hs _ => exact upd (t := t) rfl (by rw [hs]; exact List.Sublist.refl _)
  | exitPopEnd t rest e v hs _ => exact upd (t := t) rfl (by rw [hs]; exact List.Sublist.refl _)
  | exitFiniEnd t rest e v hs => exact upd (t := t) rfl (by rw [hs]; exact List.Sublist.refl _)
  | exitFini t rest e v p hs _ => exact upd (t := t) rfl (by rw [hs]; exact List.Sublist.refl _)

structure HInv (u : UState) : Prop where
  nd : ∀ t, (hands (u.s.stk t)).Nodup
  dis : ∀ t t' h, h ∈ hands (u.s.stk t) → h ∈ hands (u.s.stk t') → t = t'
  called : ∀ t, ∀ h ∈ hands (u.s.stk t), HCalled u.s.log h
  lnd : (u.left.map Prod.snd).Nodup
  lcalled : ∀ h ∈ u.left.map Prod.snd, (∃ f, h = .tdtor f ∨ h = .pdtor f) ∧ HCalled u.s.log h
  loff : ∀ h ∈ u.left.map Prod.snd, ∀ t, h ∉ hands (u.s.stk t)

theorem HInv.step {x : UAct} (H : HInv u) (I : UInv c u) (h : ustep c u x = some u') : HInv u' := by
  have mono : ∀ x ∈ u.s.log, x ∈ u'.s.log := fun x hx => ulog_mono h hx
  cases (ustep_tr h).2 with
  | abort t fn rest hs => exact ⟨H.nd, H.dis, H.called, H.lnd, H.lcalled, H.loff⟩
  | act x s' hs1 =>
    obtain ⟨t, h1, h2 | ⟨g, h2, h3, h4⟩⟩ := (step_tr hs1).2.hands I.T I.P
    · have sub : ∀ t' g, g ∈ hands (s'.stk t') → g ∈ hands (u.s.stk t') := by
        intro t' g hg
        by_cases ht : t' = t
        · subst ht; exact h2.subset hg
        · rw [h1 t' ht] at hg; exact hg
      refine ⟨?_, fun t1 t2 g ha hb => H.dis t1 t2 g (sub _ _ ha) (sub _ _ hb), fun t' g hg => (H.called t' g (sub _ _ hg)).mono mono, H.lnd,
        fun g hg => ⟨(H.lcalled g hg).1, (H.lcalled g hg).2.mono mono⟩, fun g hg t' hh => H.loff g hg t' (sub _ _ hh)⟩
      intro t'
      by_cases ht : t' = t
      · subst ht; exact h2.nodup (H.nd t')
      · show (hands (s'.stk t')).Nodup
        rw [h1 t' ht]; exact H.nd t'
    · have cas : ∀ t' f, f ∈ hands (s'.stk t') → f ∈ hands (u.s.stk t') ∨ (f = g ∧ t' = t) := by
        intro t' f hf
        by_cases ht : t' = t
        · subst ht
          rw [h2] at hf
          rcases List.mem_cons.mp hf with hf | hf
          · exact .inr ⟨hf, rfl⟩
          · exact .inl hf
        · rw [h1 t' ht] at hf; exact .inl hf
      have new : ∀ t', g ∉ hands (u.s.stk t') := fun t' hg => h3 (H.called t' g hg)
      refine ⟨?_, ?_, ?_, H.lnd, fun g hg => ⟨(H.lcalled g hg).1, (H.lcalled g hg).2.mono mono⟩, ?_⟩
      · intro t'
        by_cases ht : t' = t
        · subst ht
          show (hands (s'.stk t')).Nodup
          rw [h2]; exact List.nodup_cons.mpr ⟨new t', H.nd t'⟩
        · show (hands (s'.stk t')).Nodup
          rw [h1 t' ht]; exact H.nd t'
      · intro t1 t2 f ha hb
        rcases cas _ _ ha with ha | ⟨rfl, rfl⟩ <;> rcases cas _ _ hb with hb | ⟨hb, rfl⟩
        · exact H.dis t1 t2 f ha hb
        · subst hb; exact absurd ha (new t1)
        · exact absurd hb (new t2)
        · rfl
      · intro t' f hf
        rcases cas _ _ hf with hf | ⟨rfl, rfl⟩
        · exact (H.called t' f hf).mono mono
        · exact h4
      · intro f hf t' hh
        rcases cas _ _ hh with hh | ⟨rfl, rfl⟩
        · exact H.loff f hf t' hh
        · exact h3 (H.lcalled f hf).2
  | leave t e fn g below hl =>
    obtain ⟨fr, hs, hi, -, -, -, -⟩ := hl.shape
    have hfn : (Frame.user fn).hand = some fn ∧ ∃ f, fn = .tdtor f ∨ fn = .pdtor f := by
      cases hl with
      | thr f v h1 h2 => subst h1; exact ⟨rfl, f, .inl rfl⟩
      | prog f v h1 h2 => subst h1; exact ⟨rfl, f, .inr rfl⟩
    have hfr : fr.hand = none := by cases fr <;> first | rfl | (cases hi; done)
    have hh : hands (u.s.stk t) = fn :: hands (.user g :: below) := by
      rw [hs]; unfold hands; rw [List.filterMap_cons_some hfn.1, List.filterMap_cons_none hfr]
    have nd := H.nd t
    rw [hh] at nd
    have sub : ∀ t' f, f ∈ hands ((u.s.setStk t (.user g :: below)).stk t') → f ∈ hands (u.s.stk t') := by
      intro t' f hf
      simp only [State.setStk] at hf
      split at hf
      · next ht => subst ht; rw [hh]; exact List.mem_cons_of_mem _ hf
      · exact hf
    have hin : fn ∈ hands (u.s.stk t) := by rw [hh]; exact List.mem_cons_self
    refine ⟨?_, fun t1 t2 f ha hb => H.dis t1 t2 f (sub _ _ ha) (sub _ _ hb), fun t' f hf => H.called t' f (sub _ _ hf), ?_, ?_, ?_⟩
    · intro t'
      simp only [State.setStk]
      split
      · exact (List.nodup_cons.mp nd).2
      · exact H.nd t'
    · simp only [List.map_cons]
      exact List.nodup_cons.mpr ⟨fun h => H.loff fn h t hin, H.lnd⟩
    · intro f hf
      simp only [List.map_cons] at hf
      rcases List.mem_cons.mp hf with rfl | hf
      · exact ⟨hfn.2, H.called t _ hin⟩
      · exact H.lcalled f hf
    · intro f hf t' hg
      simp only [List.map_cons] at hf
      rcases List.mem_cons.mp hf with rfl | hf
      · have ht := H.dis t t' _ hin (sub _ _ hg)
        subst ht
        simp only [State.setStk, if_self] at hg
        exact (List.nodup_cons.mp nd).1 hg
      · exact H.loff f hf t' (sub _ _ hg)

theorem UReach.hinv (h : UReach c u) : HInv u := by
  induction h with
  | init =>
    have h0 : ∀ t, hands (uinit.s.stk t) = [] := by intro t; simp only [uinit, Proc.init]; split <;> rfl
    constructor
    · intro t; rw [h0]; exact List.nodup_nil
    · intro t t' g hg; rw [h0] at hg; cases hg
    · intro t g hg; rw [h0] at hg; cases hg
    · exact List.nodup_nil
    · intro g hg; cases hg
    · intro g hg; cases hg
  | step hr hs ih => exact ih.step hr.inv hs

theorem called_regd (I : UInv c u) {fn : Fn} {f : FnId} (hf : fn = .tdtor f ∨ fn = .pdtor f) (h : HCalled u.s.log fn) : Regd u.s.log f := by
  rcases hf with rfl | rfl
  · obtain ⟨t, o, h⟩ := h
    obtain ⟨old, h1, h2⟩ := I.T.tr.mem h
    exact .inr ⟨t, h2 _ h1.1⟩
  · obtain ⟨t, e, h⟩ := h
    obtain ⟨old, h1, h2⟩ := I.P.tr.mem h
    obtain ⟨old', h3, h4⟩ := I.P.tr.mem (h2 _ h1.1)
    obtain ⟨t', h5⟩ := h3.1
    exact .inl ⟨t', h4 _ h5⟩

/-- Distinct numbers below `b`: at most `b`. -/
theorem length_le_of_lt : ∀ (b : Nat) (l : List Nat), l.Nodup → (∀ x ∈ l, x < b) → l.length ≤ b
  | 0, l, _, h => by cases l with
    | nil => exact Nat.le_refl _
    | cons x l => exact absurd (h x List.mem_cons_self) (Nat.not_lt_zero _)
  | b + 1, l, hn, h => by
    have := length_le_of_lt b (l.erase b) (hn.erase b) (fun x hx => by
      rw [hn.mem_erase_iff] at hx
      have := h x hx.2
      have := hx.1
      omega)
    rw [List.length_erase] at this
    split at this <;> omega

def Fn.code : Fn → Nat
  | .tdtor f => 2 * f
  | .pdtor f => 2 * f + 1
  | _ => 0

/-- A bounded number of panics leave an `exit` call. -/
theorem UReach.left_bound (h : UReach c u) {b : Nat} (hb : ∀ f, Regd u.s.log f → f < b) : u.left.length ≤ 2 * b := by
  have H := h.hinv
  have h1 : ((u.left.map Prod.snd).map Fn.code).Nodup := by
    rw [List.Nodup, List.pairwise_map]
    refine List.Pairwise.imp_of_mem ?_ H.lnd
    intro x y hx hy hxy hc
    obtain ⟨⟨f, hf⟩, -⟩ := H.lcalled x hx
    obtain ⟨⟨g, hg⟩, -⟩ := H.lcalled y hy
    rcases hf with rfl | rfl <;> rcases hg with rfl | rfl <;> simp only [Fn.code] at hc
    · exact hxy (by congr 1; simp only [FnId] at *; omega)
    · simp only [FnId] at *; omega
    · simp only [FnId] at *; omega
    · exact hxy (by congr 1; simp only [FnId] at *; omega)
  have h2 := length_le_of_lt (2 * b) _ h1 (fun x hx => by
    rw [List.mem_map] at hx
    obtain ⟨y, hy, rfl⟩ := hx
    obtain ⟨⟨f, hf⟩, hc⟩ := H.lcalled y hy
    have := hb f (called_regd h.inv hf hc)
    rcases hf with rfl | rfl <;> simp only [Fn.code] <;> simp only [FnId] at * <;> omega)
  simpa using h2

theorem left_mono {x : UAct} (h : ustep c u x = some u') : u.left.length ≤ u'.left.length := by
  cases (ustep_tr h).2 <;> simp

/-- From some time on, no panic leaves an `exit` call. -/
theorem left_settles (X : UExec c st act) (M : UFinitelyMany st) : ∃ N, ∀ n, N ≤ n → (st n).left.length = (st N).left.length := by
  obtain ⟨b, hb⟩ : ∃ b : Nat, ∀ n f, Regd (st n).s.log f → f < b := M
  have mono : ∀ {n m}, n ≤ m → (st n).left.length ≤ (st m).left.length := fun {n m} hm =>
    X.keeps (P := fun u => (st n).left.length ≤ u.left.length) (fun _ _ _ h hs => Nat.le_trans h (left_mono hs)) hm (Nat.le_refl _)
  obtain ⟨N, -, hN⟩ := descend (M := fun m d => 2 * b - (st m).left.length ≤ d)
    (Goal := fun N => ∀ n, N ≤ n → (st n).left.length = (st N).left.length) (2 * b) 0 (Nat.sub_le _ _) fun m d _ hd => by
      by_cases h : ∀ n, m ≤ n → (st n).left.length = (st m).left.length
      · exact ⟨m, Nat.le_refl _, .inl h⟩
      · have ⟨n, hn⟩ := Classical.not_forall.mp h
        have ⟨hmn, hn⟩ := Classical.not_imp.mp hn
        refine ⟨n, hmn, .inr ⟨2 * b - (st n).left.length, ?_, Nat.le_refl _⟩⟩
        have h1 := mono hmn
        have h2 := (X.reach n).left_bound (hb n)
        have hd : 2 * b - (st m).left.length ≤ d := hd
        omega
  exact ⟨N, hN⟩

end Origin.Proc
