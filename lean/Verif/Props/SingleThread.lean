import Verif.Props.Process
import Verif.Spec.SingleThread
/-!
# C31 and C32 without threads, and C31 without `program::at_exit`

Without the "thread" feature the list of functions has no lock, so `exit` cannot keep it: what is promised then depends on what the `.fini_array` functions do.
-/

namespace Origin.Proc

variable {c : Cfg} {s s' : State}

theorem FiniReach.reach {bad : Action → Prop} (h : FiniReach c bad s) : Reach c s := by
  induction h with
  | init => exact .init
  | step _ h1 _ ih => exact .step ih h1

/-- Without threads there is only the main thread. -/
theorem Reach.single (hc : c.thread = false) (h : Reach c s) : ∀ t, t ≠ 0 → s.stk t = [] := by
  have h1 : s.nextT = 1 := by
    induction h with
    | init => rfl
    | @step s s' x _ h1 ih =>
      cases (step_tr h1).2 with
      | spawn t fn rest hs ht => rw [hc] at ht; cases ht
      | regLock t rest s1 hs ha => simp [State.setStk, acquire_fields ha, ih]
      | exitLock t rest e v s1 hs hp ha => simp [State.setStk, acquire_fields ha, ih]
      | regUnlock | exitUnlock => simp [State.release, hc, State.ev, State.setStk, ih]
      | _ => simpa [State.ev, State.setStk, State.setTd, State.beginExit] using ih
  intro t ht
  exact h.sinv.new t (by rw [h1]; exact Nat.one_le_iff_ne_zero.mpr ht)

/-- Frames on top of the `.fini_array` loop: with `ex` the functions may call `exit`, otherwise `program::at_exit`. -/
def OnFini (ex : Bool) : Frame → Prop
  | .user (.fini _) | .exitImm .. | .exitFini .. => True
  | .exitThr .. | .exitLock .. | .exitPop .. => ex = true
  | .regLock | .regPush | .regUnlock _ => ex = false
  | _ => False

def FiniBase : Frame → Prop
  | .exitImm .. | .exitFini .. => True
  | _ => False

/-- The program's functions are done: the main thread is in the `.fini_array` loop, or what its functions call. -/
def After (ex : Bool) (s : State) : Prop :=
  (ex = true → s.dtors = []) ∧ ∃ a g b, s.stk 0 = a ++ g :: b ∧ (∀ fr ∈ a, OnFini ex fr) ∧ FiniBase g

/-- What `bad` stands for. -/
def Bad (ex : Bool) (x : Action) : Prop := if ex then x.IsReg else x.IsExit

theorem after_push {ex : Bool} {l : List Frame} {a b : List Frame} {g : Frame} (hl : ∀ fr ∈ l, OnFini ex fr) (ha : ∀ fr ∈ a, OnFini ex fr) (hg : FiniBase g) :
    ∃ a' g' b', l ++ (a ++ g :: b) = a' ++ g' :: b' ∧ (∀ fr ∈ a', OnFini ex fr) ∧ FiniBase g' :=
  ⟨l ++ a, g, b, by simp, fun fr hfr => (List.mem_append.mp hfr).elim (hl fr) (ha fr), hg⟩

/-- The stack of a step in that phase, and what it does. -/
theorem after_step {ex : Bool} (hc : c.thread = false) (ht : c.threadAtExit = false) (R : Reach c s) (A : After ex s) {x : Action} (h : step c s x = some s')
    (hx : ∀ p, Running s x.tid (.fini p) → ¬ Bad ex x) :
    After ex s' ∧ ∃ evs, s'.log = evs ++ s.log ∧ (ex = true → ∀ ev ∈ evs, ∀ t f, ev ≠ .pReg t f) ∧ (ex = false → ∀ ev ∈ evs, ∀ t e, ev ≠ .pDone t e) := by
  obtain ⟨hd, a, g, b, hs, ha, hg⟩ := A
  have h0 : x.tid = 0 := by
    refine Classical.byContradiction fun hne => ?_
    have := R.single hc _ hne
    simp [step, this] at h
  -- the frame on top, and what is below it
  obtain ⟨fr, rest, hfr, hon, hbelow⟩ : ∃ fr rest, s.stk 0 = fr :: rest ∧ OnFini ex fr ∧
      (FiniBase fr ∨ ∃ a' g' b', rest = a' ++ g' :: b' ∧ (∀ fr ∈ a', OnFini ex fr) ∧ FiniBase g') := by
    cases a with
    | nil => exact ⟨g, b, hs, by cases g <;> simp_all [FiniBase, OnFini], .inl hg⟩
    | cons fr a' => exact ⟨fr, a' ++ g :: b, hs, ha _ List.mem_cons_self, .inr ⟨a', g, b, rfl, fun f hf => ha f (List.mem_cons_of_mem _ hf), hg⟩⟩
  -- frames put in place of the one on top
  have put : ∀ (s1 : State) (l : List Frame), s1.stk 0 = l ++ rest → (∀ f ∈ l, OnFini ex f) → (∀ g, FiniBase fr → l.getLast? = some g → FiniBase g) → (FiniBase fr → l ≠ []) →
      (ex = true → s1.dtors = []) → After ex s1 := by
    intro s1 l h1 h2 h3 h4 h5
    refine ⟨h5, ?_⟩
    rcases hbelow with hb | ⟨a', g', b', hb1, hb2, hb3⟩
    · have hne := h4 hb
      have hl := List.dropLast_concat_getLast hne
      refine ⟨l.dropLast, l.getLast hne, rest, ?_, fun f hf => h2 f (List.dropLast_subset _ hf), h3 _ hb (List.getLast?_eq_some_getLast hne)⟩
      rw [h1]; conv => lhs; rw [← hl]
      simp
    · rw [h1, hb1]; exact after_push h2 hb2 hb3
  unfold step at h
  split at h
  · cases h
  rw [h0, hfr] at h
  cases fr with
  | user fn =>
    cases fn <;> simp only [OnFini] at hon
    rename_i p
    have hb : ¬ FiniBase (.user (.fini p)) := by simp [FiniBase]
    have hq := hx p ⟨rest, by rw [h0, hfr]⟩
    simp only at h
    cases x with
    | spawn t => simp [userStep, hc] at h
    | regThr t => simp [userStep, ht] at h
    | step t => simp [userStep] at h
    | regProg t =>
      have hex : ex = false := by
        cases ex with
        | false => rfl
        | true => exact absurd ⟨t, rfl⟩ hq
      simp only [userStep] at h
      split at h
      · simp only [Option.some.injEq] at h; subst h
        exact ⟨put _ [.regLock, .user (.fini p)] (by simp [State.setStk]) (by simp [OnFini, hex]) (fun _ h => absurd h hb) (fun h => absurd h hb) hd,
          [], by simp [State.setStk], by simp, by simp⟩
      · cases h
    | exit t v =>
      have hex : ex = true := by
        cases ex with
        | true => rfl
        | false => exact absurd ⟨t, v, rfl⟩ hq
      simp only [userStep, Option.some.injEq] at h; subst h
      exact ⟨put _ [.exitThr s.nextE v, .user (.fini p)] (by simp [State.beginExit, State.ev, State.setStk]) (by simp [OnFini, hex]) (fun _ h => absurd h hb) (fun h => absurd h hb) hd,
        [.exitBegin 0 s.nextE v], by simp [State.beginExit, State.ev, State.setStk], by simp, by simp⟩
    | immExit t v =>
      simp only [userStep, Option.some.injEq] at h; subst h
      exact ⟨put _ [.exitImm s.nextE v, .user (.fini p)] (by simp [State.ev, State.setStk]) (by simp [OnFini]) (fun _ h => absurd h hb) (fun h => absurd h hb) hd,
        [.immBegin 0 s.nextE v], by simp [State.ev, State.setStk], by simp, by simp⟩
    | ret t v =>
      simp only [userStep, Option.some.injEq] at h; subst h
      exact ⟨put _ [] (by simp [State.setStk]) (by simp) (fun _ h => absurd h hb) (fun h => absurd h hb) hd, [], by simp [State.setStk], by simp, by simp⟩
  | exitImm e v =>
    simp only at h
    split at h
    · simp only [frameStep, Option.some.injEq] at h; subst h
      exact ⟨put _ [.exitImm e v] (by simp [State.ev, hfr]) (by simp [OnFini]) (by simp [FiniBase]) (by simp) hd, [.group 0 e v], by simp [State.ev], by simp, by simp⟩
    · cases h
  | exitFini e v p =>
    simp only at h
    split at h
    · simp only [frameStep] at h
      split at h <;> (simp only [Option.some.injEq] at h; subst h)
      · exact ⟨put _ [.exitImm e v] (by simp [State.setStk]) (by simp [OnFini]) (by simp [FiniBase]) (by simp) hd, [], by simp [State.setStk], by simp, by simp⟩
      · exact ⟨put _ [.user (.fini (p - c.ws)), .exitFini e v (p - c.ws)] (by simp [State.ev, State.setStk]) (by simp [OnFini]) (by simp [FiniBase]) (by simp) hd,
          [.fini 0 e (p - c.ws)], by simp [State.ev, State.setStk], by simp, by simp⟩
    · cases h
  | exitThr e v =>
    have hex : ex = true := hon
    simp only at h
    split at h
    · simp only [frameStep, ht, Option.some.injEq] at h; subst h
      exact ⟨put _ [.exitLock e v] (by simp [State.ev, State.setStk]) (by simp [OnFini, hex]) (by simp [FiniBase]) (by simp) hd, [.tDone 0 e], by simp [State.ev, State.setStk], by simp, by simp⟩
    · cases h
  | exitLock e v =>
    have hex : ex = true := hon
    simp only at h
    split at h
    · simp only [frameStep] at h
      split at h
      · simp only [State.acquire, hc, Bool.false_eq_true, if_false, Option.map_some, Option.some.injEq] at h; subst h
        exact ⟨put _ [.exitPop e v] (by simp [State.setStk]) (by simp [OnFini, hex]) (by simp [FiniBase]) (by simp) hd, [], by simp [State.setStk], by simp, by simp⟩
      · simp only [Option.some.injEq] at h; subst h
        exact ⟨put _ [.exitFini e v c.finiFirst] (by simp [State.ev, State.setStk]) (by simp [OnFini]) (by simp [FiniBase]) (by simp) hd, [.pDone 0 e], by simp [State.ev, State.setStk], by simp,
          by simp [hex]⟩
    · cases h
  | exitPop e v =>
    have hex : ex = true := hon
    simp only at h
    split at h
    · simp only [frameStep, hd hex, Option.some.injEq] at h; subst h
      exact ⟨put _ [.exitFini e v c.finiFirst] (by simp [State.ev, State.setStk]) (by simp [OnFini]) (by simp [FiniBase]) (by simp) (by intro _; simp [State.ev, State.setStk, hd hex]),
        [.pDone 0 e], by simp [State.ev, State.setStk], by simp, by simp [hex]⟩
    · cases h
  | regLock =>
    have hex : ex = false := hon
    simp only at h
    split at h
    · simp only [frameStep, State.acquire, hc, Bool.false_eq_true, if_false, Option.map_some, Option.some.injEq] at h; subst h
      exact ⟨put _ [.regPush] (by simp [State.setStk]) (by simp [OnFini, hex]) (by simp [FiniBase]) (by simp) hd, [], by simp [State.setStk], by simp, by simp⟩
    · cases h
  | regPush =>
    have hex : ex = false := hon
    simp only at h
    split at h
    · simp only [frameStep, Option.some.injEq] at h; subst h
      exact ⟨put _ [.regUnlock s.nextF] (by simp [State.ev, State.setStk]) (by simp [OnFini, hex]) (by simp [FiniBase]) (by simp) (by simp [hex]), [.pReg 0 s.nextF], by simp [State.ev, State.setStk],
        by simp [hex], by simp⟩
    · cases h
  | regUnlock f =>
    have hex : ex = false := hon
    simp only at h
    split at h
    · simp only [frameStep, State.release, hc, Bool.false_eq_true, if_false, Option.some.injEq] at h; subst h
      exact ⟨put _ [] (by simp [State.ev, State.setStk]) (by simp) (fun _ h => absurd h (by simp [FiniBase])) (fun h => absurd h (by simp [FiniBase])) (by simp [hex]), [.pRegRet 0 f],
        by simp [State.ev, State.setStk], by simp, by simp⟩
    · cases h
  | _ => simp only [OnFini] at hon

/-- Each step adds to the history at most one `pReg` or `pDone`, as its newest event. -/
theorem step_adds {x : Action} (h : step c s x = some s') : ∃ evs, s'.log = evs ++ s.log ∧ evs.length ≤ 2 ∧ (∀ ev ∈ evs, ((∃ t e, ev = .pDone t e) ∨ ∃ t f, ev = .pReg t f) → evs = [ev]) := by
  have ac : ∀ {t s1}, s.acquire c t = some s1 → s1.log = s.log := fun h => by simp [acquire_fields h]
  cases (step_tr h).2 with
  | regLock t rest s1 hs ha => exact ⟨[], by simp [State.setStk, ac ha], by simp, by simp⟩
  | exitLock t rest e v s1 hs hp ha => exact ⟨[], by simp [State.setStk, ac ha], by simp, by simp⟩
  | regProg | retStart | ret | exitFiniEnd => exact ⟨[], by simp [State.setStk], by simp, by simp⟩
  | exitUnlock => exact ⟨[], by simp [State.setStk], by simp, by simp⟩
  | regUnlock t rest f => exact ⟨[.pRegRet t f], by simp [State.ev, State.setStk], by simp, by simp⟩
  | retMain t rest v => exact ⟨[.exitBegin t s.nextE v, .mainRet v], by simp [State.beginExit, State.ev, State.setStk], by simp, by simp⟩
  | _ => exact ⟨[_], rfl, by simp, by simp⟩

theorem finished_enters {ex : Bool} (hc : c.thread = false) (R : Reach c s) {x : Action} (h : step c s x = some s') (h0 : ¬ PFinished s.log) (h1 : PFinished s'.log) : After ex s' := by
  have old : s'.log = s.log → False := fun h => h0 (h ▸ h1)
  have other : ∀ {ev}, s'.log = ev :: s.log → (∀ t e, ev ≠ .pDone t e) → False := by
    intro ev h hne
    obtain ⟨t, e, hm⟩ := h1
    rw [h] at hm
    rcases List.mem_cons.mp hm with hm | hm
    · exact hne t e hm.symm
    · exact h0 ⟨t, e, hm⟩
  have zero : ∀ {t fr rest}, s.stk t = fr :: rest → t = 0 := by
    intro t fr rest hs
    refine Classical.byContradiction fun hne => ?_
    rw [R.single hc t hne] at hs; cases hs
  have ac : ∀ {t s1}, s.acquire c t = some s1 → s1.log = s.log := fun h => by simp [acquire_fields h]
  cases (step_tr h).2 with
  | exitNoLock t rest e v hs hp =>
    obtain rfl := zero hs
    refine ⟨fun _ => ?_, [], .exitFini e v c.finiFirst, rest, by simp [State.ev, State.setStk], by simp, trivial⟩
    have : (pregs s.log) = [] := by
      rw [List.eq_nil_iff_forall_not_mem]
      intro f hf
      exact R.pinv.off hp f (mem_pregs.mp hf)
    simp [State.ev, State.setStk, R.pinv.pd, this]
  | exitPopEnd t rest e v hs hd =>
    obtain rfl := zero hs
    exact ⟨fun _ => by simp [State.ev, State.setStk, hd], [], .exitFini e v c.finiFirst, rest, by simp [State.ev, State.setStk], by simp, trivial⟩
  | regLock t rest s1 hs ha => exact (old (by simp [State.setStk, ac ha])).elim
  | exitLock t rest e v s1 hs hp ha => exact (old (by simp [State.setStk, ac ha])).elim
  | regProg | retStart | ret | exitFiniEnd => exact (old rfl).elim
  | exitUnlock => exact (old (by simp [State.setStk])).elim
  | regUnlock t rest f hs => exact (other (ev := .pRegRet t f) (by simp [State.ev, State.setStk]) (by simp)).elim
  | retMain t rest v hs =>
    obtain ⟨u, e, hm⟩ := h1
    simp [State.beginExit, State.ev, State.setStk] at hm
    exact absurd ⟨u, e, hm⟩ h0
  | _ => exact (other rfl (by simp)).elim

/-- The invariant of such histories. -/
theorem FiniReach.inv {ex : Bool} (hc : c.thread = false) (ht : c.threadAtExit = false) (h : FiniReach c (Bad ex) s) :
    (PFinished s.log → After ex s) ∧ (ex = true → ∀ t f, Whenever s.log (.pReg t f) fun old => ¬ PFinished old) ∧
    (ex = false → ∀ t e, Whenever s.log (.pDone t e) fun old => ¬ PFinished old) := by
  induction h with
  | init =>
    refine ⟨fun ⟨_, _, h⟩ => (by cases h), fun _ t f n o h => ?_, fun _ t f n o h => ?_⟩ <;> (cases n <;> cases h)
  | @step s s' x h0 h1 hx ih =>
    have R := h0.reach
    obtain ⟨i1, i2, i3⟩ := ih
    obtain ⟨evs, l1, -, l3⟩ := step_adds h1
    -- a new event of the kind in question comes right on top of the history
    have top : ∀ ev, ((∃ t e, ev = .pDone t e) ∨ ∃ t f, ev = Ev.pReg t f) → ∀ newer older, s'.log = newer ++ ev :: older →
        (newer = [] ∧ older = s.log ∧ s'.log = ev :: s.log) ∨ ∃ n', s.log = n' ++ ev :: older := by
      intro ev hk newer older hl
      rw [l1] at hl
      by_cases hm : ev ∈ evs
      · have he := l3 ev hm hk
        rw [he] at hl l1
        cases newer with
        | nil =>
          simp only [List.singleton_append, List.nil_append, List.cons.injEq, true_and] at hl
          exact .inl ⟨rfl, hl.symm, l1⟩
        | cons y ys =>
          simp only [List.cons_append, List.cons.injEq] at hl
          exact .inr ⟨ys, hl.2⟩
      · rcases List.append_eq_append_iff.mp hl with ⟨as, h2, h3⟩ | ⟨bs, h2, h3⟩
        · exact .inr ⟨as, h3⟩
        · cases bs with
          | nil => exact .inr ⟨[], by simpa using h3.symm⟩
          | cons y ys =>
            simp only [List.cons_append, List.cons.injEq] at h3
            exact absurd (by rw [h2, h3.1]; simp) hm
    by_cases hf : PFinished s.log
    · obtain ⟨a1, evs', l1', a2, a3⟩ := after_step hc ht R (i1 hf) h1 hx
      obtain rfl : evs' = evs := List.append_cancel_right (l1'.symm.trans l1)
      refine ⟨fun _ => a1, fun hex t f newer older hl => ?_, fun hex t e newer older hl => ?_⟩
      · rcases top _ (.inr ⟨_, _, rfl⟩) newer older hl with ⟨-, -, h3⟩ | ⟨n', h3⟩
        · rw [l1] at h3
          have : evs' = [.pReg t f] := List.append_cancel_right (h3.trans (List.singleton_append).symm)
          exact absurd rfl (a2 hex _ (by rw [this]; simp) t f)
        · exact i2 hex t f n' older h3
      · rcases top _ (.inl ⟨_, _, rfl⟩) newer older hl with ⟨-, -, h3⟩ | ⟨n', h3⟩
        · rw [l1] at h3
          have : evs' = [.pDone t e] := List.append_cancel_right (h3.trans (List.singleton_append).symm)
          exact absurd rfl (a3 hex _ (by rw [this]; simp) t e)
        · exact i3 hex t e n' older h3
    · refine ⟨fun h => finished_enters hc R h1 hf h, fun hex t f newer older hl => ?_, fun hex t e newer older hl => ?_⟩
      · rcases top _ (.inr ⟨_, _, rfl⟩) newer older hl with ⟨-, h3, -⟩ | ⟨n', h3⟩
        · rw [h3]; exact hf
        · exact i2 hex t f n' older h3
      · rcases top _ (.inl ⟨_, _, rfl⟩) newer older hl with ⟨-, h3, -⟩ | ⟨n', h3⟩
        · rw [h3]; exact hf
        · exact i3 hex t e n' older h3

theorem pdone_unique' {l : List Ev} (h : ∀ t e, Whenever l (.pDone t e) fun old => ¬ PFinished old) {t t' : Tid} {e e' : Exit} (a : .pDone t e ∈ l) (b : .pDone t' e' ∈ l) : e = e' := by
  induction l with
  | nil => cases a
  | cons x xs ih =>
    rcases List.mem_cons.mp a with a' | a' <;> rcases List.mem_cons.mp b with b' | b'
    · rw [← a'] at b'; injection b' with _ hb; exact hb.symm
    · subst a'; exact absurd ⟨_, _, b'⟩ (h _ _ [] xs rfl)
    · subst b'; exact absurd ⟨_, _, a'⟩ (h _ _ [] xs rfl)
    · exact ih (fun t e n o hl => h t e (x :: n) o (by rw [hl]; rfl)) a' b'

/-- **C31 (without threads).** Without the "thread" feature, with or without `program::at_exit`: if no `.fini_array` function calls `exit` — whatever else the program does, in any number
of nested `exit`s — the `.fini_array` functions that have been called are, in order, an initial part of the array read from the last slot to the first: each is called at most once. -/
theorem C31_single_thread {n m : Nat} (hok : c.Ok n m) (hc : c.thread = false) (h : FiniReach c Action.IsExit s) :
    finiCalls s.log <+: finiOrder c m ∧ (finiCalls s.log).Nodup := by
  have ht : c.threadAtExit = false := by
    cases h1 : c.threadAtExit with
    | false => rfl
    | true => rw [hok.tae h1] at hc; cases hc
  obtain ⟨-, -, h3⟩ := FiniReach.inv (ex := false) hc ht h
  exact fini_once_pu hok (fun hx he => h.reach.course hok hx he) (pdone_unique' (h3 rfl))

/-- **C31 (without `program::at_exit`).** With any features: so it is too as long as only one call of `exit` has been made. -/
theorem C31_one_exit {n m : Nat} (hok : c.Ok n m) (h : Reach c s) {e : Exit} (h1 : ∀ t e' v, .exitBegin t e' v ∈ s.log → e' = e) :
    finiCalls s.log <+: finiOrder c m ∧ (finiCalls s.log).Nodup := by
  have all : ∀ {t e'}, .pDone t e' ∈ s.log → e' = e := by
    intro t e' hd
    obtain ⟨t', v, h2 | ⟨ts, ps, h2⟩⟩ := h.course hok hd rfl
    · have := h2.subset (mem_course hd rfl); simp at this
    · have hb : Ev.exitBegin t' e' v ∈ course e' s.log := by
        cases hcs : course e' s.log with
        | nil => exact absurd (mem_course hd rfl) (by rw [hcs]; simp)
        | cons y ys =>
          rw [hcs] at h2
          simp only [exitCourse, List.append_assoc, List.cons_append, List.nil_append, List.cons_prefix_cons] at h2
          rw [h2.1]; simp
      exact h1 _ _ _ (by simp [course] at hb; exact hb.1)
  exact fini_once_pu hok (fun hx he => h.course hok hx he) (fun a b => (all a).trans (all b).symm)

/-- **C32 (without threads).** Without the "thread" feature: if no `.fini_array` function calls `program::at_exit` — `exit` it may call — nothing is registered once an `exit` call has finished
with the program's functions, and a function whose registration was reported as done, at any time, has been taken by then. -/
theorem C32_single_thread {n m : Nat} (hok : c.Ok n m) (hc : c.thread = false) (h : FiniReach c Action.IsReg s) :
    (∀ t f, Whenever s.log (.pReg t f) fun old => ¬ PFinished old) ∧ ∀ t f, PFinished s.log → .pRegRet t f ∈ s.log → PTaken s.log f := by
  have ht : c.threadAtExit = false := by
    cases h1 : c.threadAtExit with
    | false => rfl
    | true => rw [hok.tae h1] at hc; cases hc
  obtain ⟨-, h2, -⟩ := FiniReach.inv (ex := true) hc ht h
  refine ⟨h2 rfl, fun t f ⟨u, e, hd⟩ hr => ?_⟩
  have W := h.reach.winv
  have P := h.reach.pinv
  obtain ⟨v, hv⟩ : PRegd s.log f := by
    obtain ⟨old, k1, k2⟩ := W.tr.mem hr
    exact ⟨t, k2 _ k1.1⟩
  obtain ⟨newer, older, hl⟩ := List.append_of_mem hd
  have hold : .pReg v f ∈ older := by
    rw [hl] at hv
    rcases List.mem_append.mp hv with hv | hv
    · obtain ⟨a, b, hab⟩ := List.append_of_mem hv
      exact absurd ⟨u, e, by simp⟩ (h2 rfl v f a (b ++ .pDone u e :: older) (by rw [hl, hab]; simp))
    · simpa using hv
  obtain ⟨t', e', h3⟩ := (P.tr.at hl).1 f ⟨v, hold⟩
  exact ⟨t', e', by rw [hl]; simp [h3]⟩

/-! ### Concrete cases -/

/-- A `.fini_array` function is running on `t`. -/
def finiTop (s : State) (t : Tid) : Bool := match s.stk t with | .user (.fini _) :: _ => true | _ => false

/-- Run a list of actions, if no `.fini_array` function makes a call `bad` says is of the kind in question. -/
def finiRun (c : Cfg) (bad : Action → Bool) (s : State) : List Action → Option State
  | [] => some s
  | x :: xs =>
    if finiTop s x.tid = true ∧ bad x = true then none
    else (step c s x).bind (finiRun c bad · xs)

theorem finiRun_reach {bad : Action → Bool} {P : Action → Prop} (hb : ∀ x, P x → bad x = true) : ∀ (xs : List Action) {s s' : State}, FiniReach c P s → finiRun c bad s xs = some s' → FiniReach c P s'
  | [], _, _, h, h1 => by simp only [finiRun, Option.some.injEq] at h1; exact h1 ▸ h
  | x :: xs, s, _, h, h1 => by
    simp only [finiRun] at h1
    split at h1
    · cases h1
    · next hn =>
      rw [Option.bind_eq_some_iff] at h1
      obtain ⟨d, h2, h3⟩ := h1
      refine finiRun_reach hb xs (.step h h2 fun p ⟨r, hr⟩ hbad => ?_) h3
      exact hn ⟨by rw [finiTop, hr], hb x hbad⟩

theorem finiReach_with {bad : Action → Bool} {P : Action → Prop} (hb : ∀ x, P x → bad x = true) (xs : List Action) (Q : State → Bool) (h : (finiRun c bad init xs).map Q = some true) :
    ∃ s, FiniReach c P s ∧ Q s = true := by
  rw [Option.map_eq_some_iff] at h
  obtain ⟨s, h1, h2⟩ := h
  exact ⟨s, finiRun_reach hb xs .init h1, h2⟩

/-- Without threads. -/
def solo : Cfg := { demo with thread := false, threadAtExit := false }

theorem solo_ok : solo.Ok 2 2 := by constructor <;> decide

/-- `origin_main` registers a function and returns; the function calls `exit` itself, both `.fini_array` functions are called, and the first of them registers a function: its hypotheses are met. -/
example : ∃ s, FiniReach solo Action.IsExit s ∧ s.dead = true ∧ (finiCalls s.log).length = 2 ∧ (∃ f, .pRegRet 0 f ∈ s.log ∧ ¬ PTaken s.log f) := by
  obtain ⟨s, h1, h2⟩ := finiReach_with (c := solo) (P := Action.IsExit) (bad := fun x => match x with | .exit .. => true | _ => false) (by rintro _ ⟨t, v, rfl⟩; rfl)
    (toMain ++ [.regProg 0] ++ steps 0 3 ++ [.ret 0 7] ++ steps 0 5 ++ [.exit 0 9] ++ steps 0 4 ++ [.regProg 0] ++ steps 0 3 ++ [.ret 0 0, .step 0, .ret 0 0] ++ steps 0 2)
    (fun s => s.dead && decide ((finiCalls s.log).length = 2) && decide (Ev.pRegRet 0 1 ∈ s.log) && s.log.all (fun x => match x with | .pTake _ _ 1 => false | _ => true)) (by decide)
  simp only [Bool.and_eq_true, decide_eq_true_eq] at h2
  refine ⟨s, h1, h2.1.1.1, h2.1.1.2, 1, h2.1.2, fun ⟨t, e, hm⟩ => ?_⟩
  have := List.all_eq_true.mp h2.2 _ hm
  simp at this

/-- `origin_main` registers a function and returns; the first `.fini_array` function called calls `exit`. -/
example : ∃ s, FiniReach solo Action.IsReg s ∧ PFinished s.log ∧ .pRegRet 0 0 ∈ s.log ∧ finiCalls s.log = [208, 208] := by
  obtain ⟨s, h1, h2⟩ := finiReach_with (c := solo) (P := Action.IsReg) (bad := fun x => match x with | .regProg .. => true | _ => false) (by rintro _ ⟨t, rfl⟩; rfl)
    (toMain ++ [.regProg 0] ++ steps 0 3 ++ [.ret 0 7] ++ steps 0 5 ++ [.ret 0 0] ++ steps 0 3 ++ [.exit 0 3] ++ steps 0 4)
    (fun s => decide (.pDone 0 0 ∈ s.log ∧ .pRegRet 0 0 ∈ s.log ∧ finiCalls s.log = [208, 208])) (by decide)
  have h3 := of_decide_eq_true h2
  exact ⟨s, h1, ⟨_, _, h3.1⟩, h3.2⟩

/-- One call of `exit`, with the functions called, without `program::at_exit`. -/
example : ∃ s, Reach { demo with programAtExit := false } s ∧ (∀ t e' v, .exitBegin t e' v ∈ s.log → e' = 0) ∧ (finiCalls s.log).length = 2 := by
  obtain ⟨s, h1, h2⟩ := reach_with (c := { demo with programAtExit := false }) (toMain ++ [.spawn 0, .exit 1 2] ++ steps 1 3 ++ [.ret 1 0] ++ steps 1 1)
    (fun s => decide ((finiCalls s.log).length = 2) && s.log.all (fun x => match x with | .exitBegin _ e _ => e == 0 | _ => true)) (by decide)
  simp only [Bool.and_eq_true, decide_eq_true_eq, List.all_eq_true] at h2
  exact ⟨s, h1, fun t e' v hm => by simpa using h2.2 _ hm, h2.1⟩

end Origin.Proc
