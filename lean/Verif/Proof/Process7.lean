import Verif.Proof.Process6
set_option linter.unusedSimpArgs false
/-! # What a step leaves alone; the end of a thread; progress -/

namespace Origin.Proc

/-- Everything a step does happens on one thread (and, for a new thread, on that). -/
structure Eff (s s' : State) (t : Tid) : Prop where
  run : s.stk t ≠ []
  other : ∀ x, x ≠ t → x ≠ s.nextT → s'.stk x = s.stk x
  next : s.nextT ≤ s'.nextT
  log : ∃ evs, s'.log = evs ++ s.log ∧ (∀ x ∈ evs, ∀ u, x.on = some u → u = t) ∧
    (∀ x, Ev.released x ∈ evs → x = t ∧ s'.stk t = [] ∧ evs = [.released x]) ∧ (∀ x ∈ evs, x.isGroup = true → evs = [x] ∧ s'.dead = true)

theorem Eff.upd {s s' : State} {t : Tid} {l : List Frame} (evs : List Ev) (hr : s.stk t ≠ [])
    (h1 : s'.stk = fun x => if x = t then l else s.stk x) (h2 : s.nextT = s'.nextT) (h3 : s'.log = evs ++ s.log)
    (h4 : ∀ x ∈ evs, ∀ u, x.on = some u → u = t) (h5 : ∀ x, Ev.released x ∉ evs)
    (h6 : ∀ x ∈ evs, x.isGroup = true → evs = [x] ∧ s'.dead = true) : Eff s s' t :=
  ⟨hr, fun x hx _ => by rw [h1]; simp only; rw [if_neg hx], Nat.le_of_eq h2, evs, h3, h4, fun x h => absurd h (h5 x), h6⟩

theorem Tr.eff {c : Cfg} {s s' : State} (h : Tr c s s') : ∃ t, Eff s s' t := by
  cases h with
  | spawn t fn rest hs hc =>
    refine ⟨t, by simp [hs], ?_, Nat.le_succ _, [_], rfl, by simp [Ev.on], by simp, by simp [Ev.isGroup]⟩
    intro x _ hx; simp only [State.ev, State.setStk]; rw [if_neg hx]
  | regThr t fn rest hs hc =>
    exact ⟨t, .upd (l := s.stk t) [_] (by simp [hs]) (same_stk s.stk t) rfl rfl (by simp [Ev.on]) (by simp) (by simp [Ev.isGroup, State.ev])⟩
  | regProg t fn rest hs hc => exact ⟨t, .upd [] (by simp [hs]) rfl rfl rfl (by simp [Ev.on]) (by simp) (by simp [Ev.isGroup, State.ev])⟩
  | exit t fn rest st hs => exact ⟨t, .upd [_] (by simp [hs]) rfl rfl rfl (by simp [Ev.on]) (by simp) (by simp [Ev.isGroup, State.ev])⟩
  | imm t fn rest st hs => exact ⟨t, .upd [_] (by simp [hs]) rfl rfl rfl (by simp [Ev.on]) (by simp) (by simp [Ev.isGroup, State.ev])⟩
  | retMain t rest st hs => exact ⟨t, .upd [_, _] (by simp [hs]) rfl rfl rfl (by simp [Ev.on]) (by simp) (by simp [Ev.isGroup, State.ev])⟩
  | retStart t rest hs => exact ⟨t, .upd [] (by simp [hs]) rfl rfl rfl (by simp [Ev.on]) (by simp) (by simp [Ev.isGroup, State.ev])⟩
  | ret t fn rest hs h1 h2 => exact ⟨t, .upd [] (by simp [hs]) rfl rfl rfl (by simp [Ev.on]) (by simp) (by simp [Ev.isGroup, State.ev])⟩
  | entry t rest hs => exact ⟨t, .upd [_] (by simp [hs]) rfl rfl rfl (by simp [Ev.on]) (by simp) (by simp [Ev.isGroup, State.ev])⟩
  | initEnd t rest hs => exact ⟨t, .upd [_] (by simp [hs]) rfl rfl rfl (by simp [Ev.on]) (by simp) (by simp [Ev.isGroup, State.ev])⟩
  | init t p rest hs hpe => exact ⟨t, .upd [_] (by simp [hs]) rfl rfl rfl (by simp [Ev.on]) (by simp) (by simp [Ev.isGroup, State.ev])⟩
  | thrCall t rest f fs hs hc ht => exact ⟨t, .upd [_] (by simp [hs]) rfl rfl rfl (by simp [Ev.on]) (by simp) (by simp [Ev.isGroup, State.ev])⟩
  | thrEnd t rest hs ht =>
    refine ⟨t, by simp [hs], ?_, Nat.le_refl _, [_], rfl, by simp [Ev.on], ?_, by simp [Ev.isGroup]⟩
    · intro x hx _; simp only [State.ev, State.setStk]; rw [if_neg hx]
    · intro x hx; simp at hx; subst hx; exact ⟨rfl, by simp [State.ev, State.setStk], by simp⟩
  | regLock t rest s1 hs ha =>
    obtain ⟨h0, -, -, h9, -, h1, h2, h3⟩ := acquire_fields ha
    exact ⟨t, .upd (l := .regPush :: rest) [] (by simp [hs]) (by rw [← h0]; rfl) (by simp_all [State.setStk]) h3 (by simp [Ev.on]) (by simp) (by simp [Ev.isGroup, State.ev])⟩
  | regPush t rest hs => exact ⟨t, .upd [_] (by simp [hs]) rfl rfl rfl (by simp [Ev.on]) (by simp) (by simp [Ev.isGroup, State.ev])⟩
  | regUnlock t rest f hs =>
    obtain ⟨h0, -, -, h9, -, h1, h2, h3⟩ := release_fields c s
    exact ⟨t, .upd (l := rest) [_] (by simp [hs]) (by rw [← h0]; rfl) (by simp_all [State.setStk, State.ev]) (by rw [← h3]; rfl) (by simp [Ev.on]) (by simp) (by simp [Ev.isGroup, State.ev])⟩
  | exitThrCall t rest e st f fs hs hc ht => exact ⟨t, .upd [_] (by simp [hs]) rfl rfl rfl (by simp [Ev.on]) (by simp) (by simp [Ev.isGroup, State.ev])⟩
  | exitThr t rest e st hs ht => exact ⟨t, .upd [_] (by simp [hs]) rfl rfl rfl (by simp [Ev.on]) (by simp) (by simp [Ev.isGroup, State.ev])⟩
  | exitLock t rest e st s1 hs hc ha =>
    obtain ⟨h0, -, -, h9, -, h1, h2, h3⟩ := acquire_fields ha
    exact ⟨t, .upd (l := .exitPop e st :: rest) [] (by simp [hs]) (by rw [← h0]; rfl) (by simp_all [State.setStk]) h3 (by simp [Ev.on]) (by simp) (by simp [Ev.isGroup, State.ev])⟩
  | exitNoLock t rest e st hs hc => exact ⟨t, .upd [_] (by simp [hs]) rfl rfl rfl (by simp [Ev.on]) (by simp) (by simp [Ev.isGroup, State.ev])⟩
  | exitPop t rest e st f fs hs hd => exact ⟨t, .upd [_] (by simp [hs]) rfl rfl rfl (by simp [Ev.on]) (by simp) (by simp [Ev.isGroup, State.ev])⟩
  | exitPopEnd t rest e st hs hd => exact ⟨t, .upd [_] (by simp [hs]) rfl rfl rfl (by simp [Ev.on]) (by simp) (by simp [Ev.isGroup, State.ev])⟩
  | exitUnlock t rest e st f hs =>
    obtain ⟨h0, -, -, h9, -, h1, h2, h3⟩ := release_fields c s
    exact ⟨t, .upd (l := .exitCall e st f :: rest) [] (by simp [hs]) (by rw [← h0]; rfl) (by simp_all [State.setStk]) h3 (by simp [Ev.on]) (by simp) (by simp [Ev.isGroup, State.ev])⟩
  | exitCall t rest e st f hs => exact ⟨t, .upd [_] (by simp [hs]) rfl rfl rfl (by simp [Ev.on]) (by simp) (by simp [Ev.isGroup, State.ev])⟩
  | exitFiniEnd t rest e st hs => exact ⟨t, .upd [] (by simp [hs]) rfl rfl rfl (by simp [Ev.on]) (by simp) (by simp [Ev.isGroup, State.ev])⟩
  | exitFini t rest e st p hs hp => exact ⟨t, .upd [_] (by simp [hs]) rfl rfl rfl (by simp [Ev.on]) (by simp) (by simp [Ev.isGroup, State.ev])⟩
  | group t rest e st hs _ =>
    exact ⟨t, .upd (l := s.stk t) [_] (by simp [hs]) (same_stk s.stk t) rfl rfl (by simp [Ev.on]) (by simp) (by simp [Ev.isGroup, State.ev])⟩

theorem TCalled.mono {l l' : List Ev} {t : Tid} {f : FnId} (h : TCalled l t f) (hs : ∀ x ∈ l, x ∈ l') : TCalled l' t f := by
  obtain ⟨o, h⟩ := h; exact ⟨o, hs _ h⟩

/-- A thread whose exit is done: it does nothing more, and has nothing left to call. -/
structure RInv (s : State) : Prop where
  gone : ∀ t, Ev.released t ∈ s.log → s.stk t = [] ∧ t < s.nextT
  all : ∀ t f, Ev.released t ∈ s.log → Ev.tReg t f ∈ s.log → TCalled s.log t f

theorem RInv.step {c : Cfg} {s s' : State} (ih : RInv s) (S : SInv c s) (T0 : TInv c s) (tr : Tr c s s') : RInv s' := by
    have T := T0.step tr
    obtain ⟨t, hrun, hoth, hnext, evs, hl, hreg, hrel, -⟩ := tr.eff
    have hlt : t < s.nextT := by
      rcases Nat.lt_or_ge t s.nextT with h | h
      · exact h
      · exact absurd (S.new t h) hrun
    constructor
    · intro u hu
      rw [hl] at hu
      rcases List.mem_append.mp hu with hu | hu
      · obtain ⟨rfl, h1, -⟩ := hrel u hu
        exact ⟨h1, Nat.lt_of_lt_of_le hlt hnext⟩
      · obtain ⟨h1, h2⟩ := ih.gone u hu
        have hut : u ≠ t := by rintro rfl; exact hrun h1
        exact ⟨by rw [hoth u hut (Nat.ne_of_lt h2)]; exact h1, Nat.lt_of_lt_of_le h2 hnext⟩
    · intro u f hu hf
      rw [hl] at hu
      rcases List.mem_append.mp hu with hu | hu
      · obtain ⟨rfl, -, hno⟩ := hrel u hu
        have hf : Ev.tReg u f ∈ s.log := by
          rw [hl] at hf
          exact (List.mem_append.mp hf).resolve_left (by rw [hno]; simp)
        obtain ⟨e1, e2, rfl⟩ := List.append_of_mem hu
        have h : TOk (.released u) (e2 ++ s.log) := T.tr.at (newer := e1) (by rw [hl]; simp)
        exact TCalled.mono (h f (List.mem_append_right _ hf)) (by
          intro x hx; rw [hl, List.append_assoc]; exact List.mem_append_right _ (List.mem_cons_of_mem _ hx))
      · obtain ⟨h1, h2⟩ := ih.gone u hu
        have hut : u ≠ t := by rintro rfl; exact hrun h1
        rw [hl] at hf
        rcases List.mem_append.mp hf with hf | hf
        · exact absurd (hreg _ hf u rfl) hut
        · exact TCalled.mono (ih.all u f hu hf) (by intro x hx; rw [hl]; exact List.mem_append_right _ hx)

theorem Reach.rinv {c : Cfg} {s : State} (h : Reach c s) : RInv s := by
  induction h with
  | init => exact ⟨fun t h => (by simp [Proc.init] at h), fun t f h => (by simp [Proc.init] at h)⟩
  | step hr hs ih => exact ih.step hr.sinv hr.tinv (step_tr hs).2

/-- Nothing happens on a thread whose exit is done, and nothing at all after the end of the process. -/
def OnOk (x : Ev) (old : List Ev) : Prop :=
  (∀ u, x.on = some u → Ev.released u ∉ old) ∧ ∀ t e st, Ev.group t e st ∉ old

theorem onok_step {c : Cfg} {s s' : State} (ih : TraceOk OnOk s.log ∧ (s.dead = false → ∀ t e st, Ev.group t e st ∉ s.log)) (R : RInv s)
    (hd : s.dead = false) (tr : Tr c s s') : TraceOk OnOk s'.log ∧ (s'.dead = false → ∀ t e st, Ev.group t e st ∉ s'.log) := by
    obtain ⟨t, hrun, hoth, hnext, evs, hl, hon, hrel, hgr⟩ := tr.eff
    have key : ∀ pre suf, evs = pre ++ suf → TraceOk OnOk (suf ++ s.log) := by
      intro pre suf
      induction suf generalizing pre with
      | nil => intro _; exact ih.1
      | cons y ys ih2 =>
        intro he
        have hys := ih2 (pre ++ [y]) (by rw [he]; simp)
        have hy : y ∈ evs := by rw [he]; simp
        refine ⟨⟨?_, ?_⟩, hys⟩
        · intro u hu hru
          have := hon y hy u hu
          subst this
          rcases List.mem_append.mp hru with h | h
          · have hmem : Ev.released u ∈ evs := by rw [he]; simp [h]
            have hlen := congrArg List.length ((hrel u hmem).2.2)
            obtain ⟨a, b, hab⟩ := List.append_of_mem h
            rw [he, hab] at hlen; simp at hlen; omega
          · exact hrun (R.gone u h).1
        · intro t' e st hg
          rcases List.mem_append.mp hg with h | h
          · have hmem : Ev.group t' e st ∈ evs := by rw [he]; simp [h]
            have hlen := congrArg List.length (hgr _ hmem rfl).1
            obtain ⟨a, b, hab⟩ := List.append_of_mem h
            rw [he, hab] at hlen; simp at hlen; omega
          · exact ih.2 hd t' e st h
    constructor
    · rw [hl]; exact key [] evs rfl
    · intro hd' t' e st hg
      rw [hl] at hg
      rcases List.mem_append.mp hg with h | h
      · have := (hgr _ h rfl).2; rw [hd'] at this; cases this
      · exact ih.2 hd t' e st h

theorem Reach.onok {c : Cfg} {s : State} (h : Reach c s) :
    TraceOk OnOk s.log ∧ (s.dead = false → ∀ t e st, Ev.group t e st ∉ s.log) := by
  induction h with
  | init => exact ⟨trivial, fun _ t e st h => (by simp [Proc.init] at h)⟩
  | step hr hs ih => exact onok_step ih hr.rinv (step_tr hs).1 (step_tr hs).2

/-- When `program::at_exit` returns, its function has been registered, and (with threads) no `exit` call has
finished the program's functions. -/
def RetOk (c : Cfg) (x : Ev) (old : List Ev) : Prop :=
  match x with
  | .pRegRet t f => Ev.pReg t f ∈ old ∧ (c.thread = true → ¬ PFinished old)
  | _ => True

structure WInv (c : Cfg) (s : State) : Prop where
  fr : ∀ t f, Frame.regUnlock f ∈ s.stk t → Ev.pReg t f ∈ s.log
  tr : TraceOk (RetOk c) s.log

theorem retok_of {c : Cfg} {evs l : List Ev} (h : ∀ x ∈ evs, ∀ t f, x ≠ .pRegRet t f) (hl : TraceOk (RetOk c) l) :
    TraceOk (RetOk c) (evs ++ l) := by
  induction evs with
  | nil => exact hl
  | cons x xs ih =>
    refine ⟨?_, ih (fun y hy => h y (List.mem_cons_of_mem _ hy))⟩
    have := h x List.mem_cons_self
    cases x <;> first | trivial | exact absurd rfl (this _ _)

theorem WInv.upd {c : Cfg} {s s' : State} (W : WInv c s) {t : Tid} {fr : Frame} {rest l : List Frame} (evs : List Ev)
    (hs : s.stk t = fr :: rest)
    (h1 : s'.stk = fun x => if x = t then l else s.stk x) (h2 : s'.log = evs ++ s.log)
    (h3 : ∀ x ∈ evs, ∀ t f, x ≠ .pRegRet t f)
    (h4 : ∀ f, .regUnlock f ∈ l → .regUnlock f ∈ s.stk t) : WInv c s' := by
  refine ⟨fun u f hm => ?_, by rw [h2]; exact retok_of h3 W.tr⟩
  rw [h1] at hm; simp only at hm
  rw [h2]; apply List.mem_append_right
  split at hm
  · next h => subst h; exact W.fr _ _ (h4 f hm)
  · exact W.fr _ _ hm

theorem WInv.step {c : Cfg} {s s' : State} (ih : WInv c s) (L : LInv c s) (tr : Tr c s s') : WInv c s' := by
    cases tr with
    | spawn t fn rest hs hc =>
      refine ⟨fun u f hm => ?_, ⟨trivial, ih.tr⟩⟩
      simp only [State.ev, State.setStk] at hm ⊢
      split at hm
      · simp at hm
      · exact List.mem_cons_of_mem _ (ih.fr _ _ hm)
    | regThr t fn rest hs hc => exact ih.upd (l := s.stk t) [_] hs (same_stk s.stk t) rfl (by simp) (fun f h => h)
    | regPush t rest hs =>
      refine ⟨fun u f hm => ?_, ⟨trivial, ih.tr⟩⟩
      simp only [State.ev, State.setStk] at hm ⊢
      split at hm
      · next h =>
        subst h
        rcases List.mem_cons.mp hm with h | h
        · injection h with h; subst h; exact List.mem_cons_self
        · exact List.mem_cons_of_mem _ (ih.fr _ _ (by rw [hs]; exact List.mem_cons_of_mem _ h))
      · exact List.mem_cons_of_mem _ (ih.fr _ _ hm)
    | regUnlock t rest f hs =>
      obtain ⟨h0, -, -, -, -, h1, h2, h3⟩ := release_fields c s
      refine ⟨fun u g hm => ?_, ?_⟩
      · simp only [State.ev, State.setStk, h0, h3] at hm ⊢
        split at hm
        · next h => subst h; exact List.mem_cons_of_mem _ (ih.fr _ _ (by rw [hs]; exact List.mem_cons_of_mem _ hm))
        · exact List.mem_cons_of_mem _ (ih.fr _ _ hm)
      · show TraceOk (RetOk c) (_ :: (s.release c).log)
        rw [h3]
        exact ⟨⟨ih.fr t f (by rw [hs]; simp), fun hc => (L.lk1 hc t (.regUnlock f) (by rw [hs]; simp) rfl).2⟩, ih.tr⟩
    | regLock t rest s1 hs ha =>
      obtain ⟨h0, -, -, -, -, h1, h2, h3⟩ := acquire_fields ha
      exact ih.upd (l := .regPush :: rest) [] hs (by rw [← h0]; rfl) h3 (by simp) (by rw [hs]; simp)
    | exitLock t rest e st s1 hs hc ha =>
      obtain ⟨h0, -, -, -, -, h1, h2, h3⟩ := acquire_fields ha
      exact ih.upd (l := .exitPop e st :: rest) [] hs (by rw [← h0]; rfl) h3 (by simp) (by rw [hs]; simp)
    | exitUnlock t rest e st f hs =>
      obtain ⟨h0, -, -, -, -, h1, h2, h3⟩ := release_fields c s
      exact ih.upd (l := .exitCall e st f :: rest) [] hs (by rw [← h0]; rfl) h3 (by simp) (by rw [hs]; simp)
    | group t rest e st hs _ => exact ih.upd (l := s.stk t) [_] hs (same_stk s.stk t) rfl (by simp) (fun f h => h)
    | retMain t rest st hs => exact ih.upd [_, _] hs rfl rfl (by simp) (by rw [hs]; simp)
    | regProg t fn rest hs hc => exact ih.upd [] hs rfl rfl (by simp) (by rw [hs]; simp)
    | retStart t rest hs => exact ih.upd [] hs rfl rfl (by simp) (by rw [hs]; simp)
    | ret t fn rest hs h1 h2 => exact ih.upd [] hs rfl rfl (by simp) (by rw [hs]; simp)
    | exitFiniEnd t rest e st hs => exact ih.upd [] hs rfl rfl (by simp) (by rw [hs]; simp)
    | exit t fn rest st hs => exact ih.upd [_] hs rfl rfl (by simp) (by rw [hs]; simp)
    | imm t fn rest st hs => exact ih.upd [_] hs rfl rfl (by simp) (by rw [hs]; simp)
    | entry t rest hs => exact ih.upd [_] hs rfl rfl (by simp) (by rw [hs]; simp)
    | initEnd t rest hs => exact ih.upd [_] hs rfl rfl (by simp) (by rw [hs]; simp)
    | init t p rest hs hpe => exact ih.upd [_] hs rfl rfl (by simp) (by rw [hs]; simp)
    | thrCall t rest f fs hs hc ht => exact ih.upd [_] hs rfl rfl (by simp) (by rw [hs]; simp)
    | thrEnd t rest hs ht => exact ih.upd [_] hs rfl rfl (by simp) (by rw [hs]; simp)
    | exitThrCall t rest e st f fs hs hc ht => exact ih.upd [_] hs rfl rfl (by simp) (by rw [hs]; simp)
    | exitThr t rest e st hs ht => exact ih.upd [_] hs rfl rfl (by simp) (by rw [hs]; simp)
    | exitNoLock t rest e st hs hc => exact ih.upd [_] hs rfl rfl (by simp) (by rw [hs]; simp)
    | exitPop t rest e st f fs hs hd => exact ih.upd [_] hs rfl rfl (by simp) (by rw [hs]; simp)
    | exitPopEnd t rest e st hs hd => exact ih.upd [_] hs rfl rfl (by simp) (by rw [hs]; simp)
    | exitCall t rest e st f hs => exact ih.upd [_] hs rfl rfl (by simp) (by rw [hs]; simp)
    | exitFini t rest e st p hs hp => exact ih.upd [_] hs rfl rfl (by simp) (by rw [hs]; simp)

theorem Reach.winv {c : Cfg} {s : State} (h : Reach c s) : WInv c s := by
  induction h with
  | init => exact ⟨fun t f h => (by simp only [Proc.init] at h; split at h <;> simp at h), trivial⟩
  | step hr hs ih => exact ih.step hr.linv (step_tr hs).2

/-- Origin's own code never gets stuck, except waiting for the lock. -/
theorem frame_progress {c : Cfg} {s : State} {t : Tid} {fr : Frame} {rest : List Frame} (hd : s.dead = false)
    (hs : s.stk t = fr :: rest) (hu : ∀ fn, fr ≠ .user fn)
    (hl : c.thread = true → s.lock ≠ none → fr ≠ .regLock ∧ ∀ e st, fr = .exitLock e st → c.programAtExit = false) :
    ∃ s', step c s (.step t) = some s' := by
  have acq : (c.thread = true → s.lock = none) → ∃ s1, s.acquire c t = some s1 := by
    intro h
    unfold State.acquire
    cases hc : c.thread with
    | false => exact ⟨s, by simp⟩
    | true => exact ⟨_, by simp [h hc]; rfl⟩
  have key : ∃ s', frameStep c s t rest fr = some s' := by
    cases fr with
    | user fn => exact absurd rfl (hu fn)
    | regLock =>
      obtain ⟨s1, h1⟩ := acq (fun h => by
        cases hk : s.lock with
        | none => rfl
        | some u => exact absurd rfl (hl h (by simp [hk])).1)
      exact ⟨_, by simp only [frameStep, h1, Option.map_some]; rfl⟩
    | exitLock e st =>
      cases hc : c.programAtExit with
      | false => exact ⟨_, by simp only [frameStep, hc]; rfl⟩
      | true =>
        obtain ⟨s1, h1⟩ := acq (fun h => by
          cases hk : s.lock with
          | none => rfl
          | some u => exact absurd ((hl h (by simp [hk])).2 e st rfl) (by simp [hc]))
        exact ⟨_, by simp only [frameStep, hc, h1, Option.map_some, if_true]; rfl⟩
    | init p => simp only [frameStep]; split <;> exact ⟨_, rfl⟩
    | thrLoop => simp only [frameStep]; split <;> exact ⟨_, rfl⟩
    | exitThr e st => simp only [frameStep]; split <;> exact ⟨_, rfl⟩
    | exitPop e st => simp only [frameStep]; split <;> exact ⟨_, rfl⟩
    | exitFini e st p => simp only [frameStep]; split <;> exact ⟨_, rfl⟩
    | _ => exact ⟨_, rfl⟩
  obtain ⟨s', h'⟩ := key
  refine ⟨s', ?_⟩
  simp only [step, hd, Action.tid]
  rw [hs]
  cases fr with
  | user fn => exact absurd rfl (hu fn)
  | _ => simpa using h'

/-- The holder of the lock is inside one of the short locked regions, or has finished the program's
functions. -/
theorem LInv.holder {c : Cfg} {s : State} (L : LInv c s) (S : SInv c s) (hc : c.thread = true) {u : Tid} (hu : s.lock = some u)
    (hf : ¬ PFinished s.log) : ∃ fr rest, s.stk u = fr :: rest ∧ fr.crit = true := by
  rcases L.lk2 hc u hu with ⟨fr, hm, hcr⟩ | ⟨e, he⟩
  · cases hk : s.stk u with
    | nil => rw [hk] at hm; cases hm
    | cons a r =>
      rw [hk] at hm
      rcases List.mem_cons.mp hm with rfl | hm
      · exact ⟨_, _, rfl, hcr⟩
      · have Sh := S.shape u; rw [hk] at Sh
        rw [Frame.under_not_crit (Sh.tail_under _ hm)] at hcr; cases hcr
  · exact absurd ⟨u, e, he⟩ hf

theorem holder {c : Cfg} {s : State} (h : Reach c s) (hc : c.thread = true) {u : Tid} (hu : s.lock = some u)
    (hf : ¬ PFinished s.log) : ∃ fr rest, s.stk u = fr :: rest ∧ fr.crit = true := h.linv.holder h.sinv hc hu hf

end Origin.Proc
