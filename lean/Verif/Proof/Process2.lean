import Verif.Proof.Process
/-! # Thread `at_exit` functions -/

namespace Origin.Proc

def tregs (t : Tid) (l : List Ev) : List FnId :=
  l.filterMap fun | .tReg t' f => if t' = t then some f else none | _ => none

def tcalls (t : Tid) (l : List Ev) : List FnId :=
  l.filterMap fun | .tCall t' _ f => if t' = t then some f else none | _ => none

theorem mem_tregs {t : Tid} {l : List Ev} {f : FnId} : f ∈ tregs t l ↔ Ev.tReg t f ∈ l := by
  simp only [tregs, List.mem_filterMap]
  constructor
  · rintro ⟨e, h1, h2⟩
    cases e <;> simp at h2
    obtain ⟨rfl, rfl⟩ := h2; exact h1
  · intro h; exact ⟨_, h, by simp⟩

theorem mem_tcalls {t : Tid} {l : List Ev} {f : FnId} : f ∈ tcalls t l ↔ TCalled l t f := by
  simp only [tcalls, List.mem_filterMap, TCalled]
  constructor
  · rintro ⟨e, h1, h2⟩
    cases e <;> simp at h2
    obtain ⟨rfl, rfl⟩ := h2; exact ⟨_, h1⟩
  · rintro ⟨o, h⟩; exact ⟨_, h, by simp⟩

/-- What holds when an event about thread `at_exit` functions happens. -/
def TOk (e : Ev) (old : List Ev) : Prop :=
  match e with
  | .tCall t _ f => Ev.tReg t f ∈ old ∧ ¬ TCalled old t f ∧
      ∀ g, Later old (.tReg t g) (.tReg t f) → TCalled old t g
  | .tReg _ f => ∀ t', Ev.tReg t' f ∉ old
  | .tDone t _ | .released t => ∀ f, Ev.tReg t f ∈ old → TCalled old t f
  | _ => True

structure TInv (c : Cfg) (s : State) : Prop where
  fresh : ∀ t f, Ev.tReg t f ∈ s.log → f < s.nextF
  nd : ∀ t, (tregs t s.log).Nodup
  td : ∀ t, s.tdtors t = (tregs t s.log).filter (· ∉ tcalls t s.log)
  off : c.threadAtExit = false → ∀ t, s.tdtors t = []
  tr : TraceOk TOk s.log

theorem TInv.congr {c : Cfg} {s s' : State} (I : TInv c s) (h1 : s'.tdtors = s.tdtors) (h2 : s'.log = s.log)
    (h3 : s.nextF ≤ s'.nextF) : TInv c s' := by
  constructor
  · intro t f h; rw [h2] at h; exact Nat.lt_of_lt_of_le (I.fresh t f h) h3
  · rw [h2]; exact I.nd
  · rw [h1, h2]; exact I.td
  · rw [h1]; exact I.off
  · rw [h2]; exact I.tr

/-- Events which are not about registering or calling thread `at_exit` functions. -/
def Ev.tother : Ev → Bool
  | .tReg .. | .tCall .. => false
  | _ => true

theorem TInv.other {c : Cfg} {s s' : State} {e : Ev} (I : TInv c s) (h1 : s'.tdtors = s.tdtors) (h2 : s'.log = e :: s.log)
    (h3 : s.nextF ≤ s'.nextF) (he : e.tother = true) (ho : TOk e s.log) : TInv c s' := by
  have r : ∀ t, tregs t (e :: s.log) = tregs t s.log := by
    intro t; cases e <;> first | rfl | simp [Ev.tother] at he
  have k : ∀ t, tcalls t (e :: s.log) = tcalls t s.log := by
    intro t; cases e <;> first | rfl | simp [Ev.tother] at he
  constructor
  · intro t f h
    have : Ev.tReg t f ∈ s.log := by rw [← mem_tregs] at h ⊢; rw [h2, r] at h; exact h
    exact Nat.lt_of_lt_of_le (I.fresh t f this) h3
  · intro t; rw [h2, r]; exact I.nd t
  · intro t; rw [h1, h2, r, k]; exact I.td t
  · rw [h1]; exact I.off
  · rw [h2]; exact ⟨ho, I.tr⟩

theorem TInv.empty {c : Cfg} {s : State} (I : TInv c s) {t : Tid} (h : c.threadAtExit = true → s.tdtors t = []) :
    ∀ f, Ev.tReg t f ∈ s.log → TCalled s.log t f := by
  intro f hf
  have he : s.tdtors t = [] := by
    cases hc : c.threadAtExit with
    | true => exact h hc
    | false => exact I.off hc t
  rw [I.td t, List.filter_eq_nil_iff] at he
  have := he f (mem_tregs.mpr hf)
  simp at this
  exact mem_tcalls.mp this

/-- Popping and calling the top function. -/
theorem TInv.call {c : Cfg} {s : State} (I : TInv c s) {t : Tid} {f : FnId} {fs : List FnId} (o : Option Exit)
    (hc : c.threadAtExit = true) (ht : s.tdtors t = f :: fs) {s' : State}
    (h1 : s'.tdtors = fun x => if x = t then fs else s.tdtors x) (h2 : s'.log = .tCall t o f :: s.log)
    (h3 : s.nextF = s'.nextF) : TInv c s' := by
  have hr : ∀ t', tregs t' (.tCall t o f :: s.log) = tregs t' s.log := fun _ => rfl
  have hk : ∀ t', tcalls t' (.tCall t o f :: s.log) = if t = t' then f :: tcalls t' s.log else tcalls t' s.log := by
    intro t'
    simp only [tcalls, List.filterMap_cons]
    split <;> simp_all
  have htd := I.td t
  rw [ht] at htd
  obtain ⟨A, B, q1, q2, q3, q4⟩ := filter_head htd.symm
  have hfr : f ∈ tregs t s.log := by rw [q1]; simp
  constructor
  · intro t' f' h
    rw [← mem_tregs, h2, hr, mem_tregs] at h
    rw [← h3]; exact I.fresh t' f' h
  · intro t'; rw [h2, hr]; exact I.nd t'
  · intro t'
    rw [h1, h2, hr, hk]
    by_cases htt : t' = t
    · subst htt
      simp only [if_true]
      have hnd := I.nd t'
      rw [q1] at hnd ⊢
      rw [List.filter_append, List.filter_cons]
      have a1 : A.filter (· ∉ f :: tcalls t' s.log) = [] := by
        rw [List.filter_eq_nil_iff]
        intro a ha
        have := q2 a ha
        simp at this ⊢
        exact fun _ => this
      rw [a1, if_neg (by simp only [List.mem_cons, true_or, not_true, decide_false]; simp), ← q4]
      simp only [List.nil_append]
      apply List.filter_congr
      intro b hb
      have : b ≠ f := by
        rintro rfl
        rw [List.nodup_append] at hnd
        exact (List.nodup_cons.mp hnd.2.1).1 hb
      simp [this]
    · have htt' : ¬ t = t' := fun h => htt h.symm
      simp only [htt, htt', if_false]
      exact I.td t'
  · intro h; rw [hc] at h; cases h
  · rw [h2]
    refine ⟨⟨mem_tregs.mp hfr, ?_, ?_⟩, I.tr⟩
    · rw [← mem_tcalls]; simpa using q3
    · intro g hg
      obtain ⟨A', B', w1, w2⟩ := later_filterMap (q := fun | .tReg t' f => if t' = t then some f else none | _ => none)
        (g := g) (f := f) hg (by simp) (by simp)
      have := q2 g (nodup_before (I.nd t) q1 w1 w2)
      rw [← mem_tcalls]; simpa using this

theorem TInv.init (c : Cfg) : TInv c init := by
  constructor <;> simp [Proc.init, tregs, TraceOk]

theorem TInv.step {c : Cfg} {s s' : State} (I : TInv c s) (h : Tr c s s') : TInv c s' := by
  cases h with
  | spawn t fn rest hs hc => exact I.other rfl rfl (Nat.le_refl _) rfl trivial
  | regThr t fn rest hs hc =>
    have hr : ∀ t', tregs t' (.tReg t s.nextF :: s.log) = if t = t' then s.nextF :: tregs t' s.log else tregs t' s.log := by
      intro t'
      simp only [tregs, List.filterMap_cons]
      split <;> simp_all
    have hk : ∀ t', tcalls t' (.tReg t s.nextF :: s.log) = tcalls t' s.log := fun _ => rfl
    have hnew : ∀ t', Ev.tReg t' s.nextF ∉ s.log := fun t' hm => Nat.lt_irrefl _ (I.fresh t' _ hm)
    have hnc : ∀ t', ¬ TCalled s.log t' s.nextF := by
      rintro t' ⟨o, ho⟩
      obtain ⟨old, w1, w2⟩ := I.tr.mem ho
      exact hnew t' (w2 _ w1.1)
    constructor
    · intro t' f hm
      simp only [State.ev, State.setTd, List.mem_cons, Ev.tReg.injEq] at hm ⊢
      rcases hm with ⟨-, rfl⟩ | hm
      · exact Nat.lt_succ_self _
      · exact Nat.lt_succ_of_lt (I.fresh t' f hm)
    · intro t'
      simp only [State.ev, State.setTd, hr]
      split
      · rw [List.nodup_cons]
        exact ⟨fun hm => hnew t' (mem_tregs.mp hm), I.nd t'⟩
      · exact I.nd t'
    · intro t'
      simp only [State.ev, State.setTd, hr, hk]
      by_cases htt : t' = t
      · subst htt
        simp only [if_true]
        rw [List.filter_cons, if_pos (by simp; rw [mem_tcalls]; exact hnc t'), ← I.td t']
      · have htt' : ¬ t = t' := fun h => htt h.symm
        simp only [htt, htt', if_false]
        exact I.td t'
    · intro h; rw [hc] at h; cases h
    · exact ⟨fun t' => hnew t', I.tr⟩
  | regProg t fn rest hs hc => exact I.congr rfl rfl (Nat.le_refl _)
  | exit t fn rest st hs => exact I.other rfl rfl (Nat.le_refl _) rfl trivial
  | imm t fn rest st hs => exact I.other rfl rfl (Nat.le_refl _) rfl trivial
  | retMain t rest st hs =>
    have I' : TInv c (s.ev (.mainRet st)) := I.other rfl rfl (Nat.le_refl _) rfl trivial
    exact I'.other rfl rfl (Nat.le_refl _) rfl trivial
  | retStart t rest hs => exact I.congr rfl rfl (Nat.le_refl _)
  | ret t fn rest hs h1 h2 => exact I.congr rfl rfl (Nat.le_refl _)
  | entry t rest hs => exact I.other rfl rfl (Nat.le_refl _) rfl trivial
  | initEnd t rest hs => exact I.other rfl rfl (Nat.le_refl _) rfl trivial
  | init t p rest hs hp => exact I.other rfl rfl (Nat.le_refl _) rfl trivial
  | thrCall t rest f fs hs hc ht => exact I.call none hc ht rfl rfl rfl
  | thrEnd t rest hs ht => exact I.other rfl rfl (Nat.le_refl _) rfl (I.empty ht)
  | regLock t rest s1 hs ha =>
    obtain ⟨-, h1, -, -, h2, -, -, h3⟩ := acquire_fields ha
    exact I.congr h1 h3 (by rw [show (s1.setStk t _).nextF = s1.nextF from rfl, h2]; exact Nat.le_refl _)
  | regPush t rest hs => exact I.other rfl rfl (Nat.le_succ _) rfl trivial
  | regUnlock t rest f hs =>
    obtain ⟨-, h1, -, -, h2, -, -, h3⟩ := release_fields c s
    exact I.other (e := .pRegRet t f) h1 (by rw [← h3]; rfl) (by rw [← h2]; exact Nat.le_refl _) rfl trivial
  | exitThrCall t rest e st f fs hs hc ht => exact I.call (some e) hc ht rfl rfl rfl
  | exitThr t rest e st hs ht => exact I.other rfl rfl (Nat.le_refl _) rfl (I.empty ht)
  | exitLock t rest e st s1 hs hc ha =>
    obtain ⟨-, h1, -, -, h2, -, -, h3⟩ := acquire_fields ha
    exact I.congr h1 h3 (by rw [show (s1.setStk t _).nextF = s1.nextF from rfl, h2]; exact Nat.le_refl _)
  | exitNoLock t rest e st hs hc => exact I.other rfl rfl (Nat.le_refl _) rfl trivial
  | exitPop t rest e st f fs hs hd => exact I.other rfl rfl (Nat.le_refl _) rfl trivial
  | exitPopEnd t rest e st hs hd => exact I.other rfl rfl (Nat.le_refl _) rfl trivial
  | exitUnlock t rest e st f hs =>
    obtain ⟨-, h1, -, -, h2, -, -, h3⟩ := release_fields c s
    exact I.congr h1 h3 (by rw [show (((s.release c).setStk t _)).nextF = (s.release c).nextF from rfl, h2]; exact Nat.le_refl _)
  | exitCall t rest e st f hs => exact I.other rfl rfl (Nat.le_refl _) rfl trivial
  | exitFiniEnd t rest e st hs => exact I.congr rfl rfl (Nat.le_refl _)
  | exitFini t rest e st p hs hp => exact I.other rfl rfl (Nat.le_refl _) rfl trivial
  | group t rest e st hs hd => exact I.other rfl rfl (Nat.le_refl _) rfl trivial

theorem Reach.tinv {c : Cfg} {s : State} (h : Reach c s) : TInv c s := by
  induction h with
  | init => exact TInv.init c
  | step _ hs ih => exact ih.step (step_tr hs).2

end Origin.Proc
