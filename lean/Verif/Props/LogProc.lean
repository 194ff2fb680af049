import Verif.Proof.LogProc2
/-!
# C68: start, `at_exit` and exit with the `log` feature

`Reach c s`: any program, any logger.  `QReach c s`: any program, and a logger that does not register a function for a thread that is announcing its exit, and does not call
back into origin from the last message of `exit` (what happens otherwise is at the end).  `s.log` is the history of events and messages, newest first; `real s.log` is the
history of events alone.
-/

namespace Origin.LogProc

open Proc

set_option linter.unusedSimpArgs false

variable {c : Cfg} {s s' : State}

/-! ### histories -/

theorem mem_real {l : List LEv} {x : Ev} : x ∈ real l ↔ .ev x ∈ l := by
  constructor
  · intro h
    obtain ⟨y, h1, h2⟩ := List.mem_filterMap.mp h
    cases y with
    | ev e => injection h2 with h2; exact h2 ▸ h1
    | msg t m => cases h2
  · intro h
    exact List.mem_filterMap.mpr ⟨_, h, rfl⟩

theorem mem_plain {l : List LEv} {x : Ev} (hx : announced x = false) : x ∈ plain c l ↔ .ev x ∈ l := by
  constructor
  · intro h
    obtain ⟨y, h1, h2⟩ := List.mem_filterMap.mp h
    cases y with
    | ev e =>
      simp only at h2
      split at h2
      · cases h2
      · injection h2 with h2; exact h2 ▸ h1
    | msg t m => cases m <;> cases h2 <;> cases hx
  · intro h
    exact List.mem_filterMap.mpr ⟨_, h, by simp [hx]⟩

theorem mem_plain_ann {l : List LEv} {x : Ev} (hx : announced x = true) : x ∈ plain c l ↔ ∃ t m, .msg t m ∈ l ∧ m.announces c t = some x := by
  constructor
  · intro h
    obtain ⟨y, h1, h2⟩ := List.mem_filterMap.mp h
    cases y with
    | ev e =>
      simp only at h2
      split at h2
      · cases h2
      · next hn => injection h2 with h2; subst h2; rw [hx] at hn; simp at hn
    | msg t m => exact ⟨t, m, h1, h2⟩
  · rintro ⟨t, m, h1, h2⟩
    exact List.mem_filterMap.mpr ⟨_, h1, h2⟩

theorem announces_tCall {t u : Tid} {m : Msg} {o f} : m.announces c u = some (.tCall t o f) ↔ u = t ∧ m = .tdtor o f := by
  cases m <;> simp [Msg.announces, and_assoc]

theorem announces_pCall {t u : Tid} {m : Msg} {e f} : m.announces c u = some (.pCall t e f) ↔ u = t ∧ m = .pdtor e f := by
  cases m <;> simp [Msg.announces, and_assoc]

theorem plain_append (l l' : List LEv) : plain c (l ++ l') = plain c l ++ plain c l' := by simp [plain]
theorem real_append (l l' : List LEv) : real (l ++ l') = real l ++ real l' := by simp [real]
theorem plain_ev {x : Ev} (hx : announced x = false) (l : List LEv) : plain c (.ev x :: l) = x :: plain c l := by simp [plain, hx]
theorem plain_msg {t m} {x : Ev} (hx : Msg.announces c t m = some x) (l : List LEv) : plain c (.msg t m :: l) = x :: plain c l := by simp [plain, hx]

/-- Where an event is in the history with the messages. -/
theorem real_split {x : Ev} : ∀ {l : List LEv} {a b : List Ev}, real l = a ++ x :: b → ∃ n o, l = n ++ .ev x :: o ∧ real n = a ∧ real o = b := by
  intro l
  induction l with
  | nil => intro a b h; simp [real] at h
  | cons y l ih =>
    intro a b h
    cases y with
    | msg t m =>
      have h' : real l = a ++ x :: b := h
      obtain ⟨n, o, h1, h2, h3⟩ := ih h'
      exact ⟨.msg t m :: n, o, by rw [h1]; rfl, h2, h3⟩
    | ev e =>
      have h' : e :: real l = a ++ x :: b := h
      cases a with
      | nil => injection h' with h1 h2; subst h1; exact ⟨[], l, rfl, rfl, h2⟩
      | cons a0 a =>
        injection h' with h1 h2; subst h1
        obtain ⟨n, o, h3, h4, h5⟩ := ih h2
        exact ⟨.ev e :: n, o, by rw [h3]; rfl, by rw [← h4]; rfl, h5⟩

/-- Events that are not announced are in the same order in both. -/
theorem filter_same {l : List LEv} : (plain c l).filter (fun x => !announced x) = (real l).filter (fun x => !announced x) := by
  induction l with
  | nil => rfl
  | cons y l ih =>
    cases y with
    | ev e =>
      cases he : announced e with
      | false => rw [plain_ev he]; show _ = (e :: real l).filter _; simp [he, ih]
      | true => have : plain c (.ev e :: l) = plain c l := by simp [plain, he]
                rw [this, ih]; show _ = (e :: real l).filter _; simp [he]
    | msg t m =>
      show _ = (real l).filter _
      rw [← ih]
      cases m <;> simp [plain, Msg.announces, announced]

theorem later_filter {α : Type} {p : α → Bool} {l : List α} {a b : α} (ha : p a = true) (hb : p b = true) : Later l a b ↔ Later (l.filter p) a b := by
  constructor
  · rintro ⟨l1, l2, rfl, h⟩
    exact ⟨l1.filter p, l2.filter p, by simp [ha], List.mem_filter.mpr ⟨h, hb⟩⟩
  · rintro ⟨l1, l2, h1, h2⟩
    obtain ⟨m1, m2, rfl, h3, h4⟩ := List.filter_eq_append_iff.mp h1
    obtain ⟨k1, k2, rfl, h5, h6, h7⟩ := List.filter_eq_cons_iff.mp h4
    exact ⟨m1 ++ k1, k2, by simp, (List.mem_filter.mp (h7 ▸ h2)).1⟩

theorem later_plain {l : List LEv} {a b : Ev} (ha : announced a = false) (hb : announced b = false) : Later (plain c l) a b ↔ Later (real l) a b := by
  rw [later_filter (p := fun x => !announced x) (by simp [ha]) (by simp [hb]), filter_same, ← later_filter (p := fun x => !announced x) (by simp [ha]) (by simp [hb])]

theorem pregd_plain {l : List LEv} {f} : PRegd (plain c l) f ↔ PRegd (real l) f := by
  simp only [PRegd, mem_plain (c := c) (x := .pReg _ f) rfl, mem_real]

theorem ptaken_plain {l : List LEv} {f} : PTaken (plain c l) f ↔ PTaken (real l) f := by
  simp only [PTaken, mem_plain (c := c) (x := .pTake _ _ f) rfl, mem_real]

theorem pfin_plain {l : List LEv} : PFinished (plain c l) ↔ PFinished (real l) := by
  simp only [PFinished, mem_plain (c := c) (x := .pDone _ _) rfl, mem_real]

theorem pends_ann {t κ x} {l : List Frame} (h : x ∈ pends c t κ l) : announced x = true := by
  obtain ⟨fr, -, h1⟩ := List.mem_filterMap.mp (List.mem_filter.mp h).1
  cases fr <;> simp [Frame.pend] at h1 <;> subst h1 <;> rfl

/-- What has been called has been announced. -/
theorem CInv.sub (I : CInv c s) {x : Ev} (h : x ∈ real s.log) : x ∈ plain c s.log := by
  cases hk : key x with
  | none => exact (mem_plain (by cases x <;> first | rfl | (rename_i o _; cases o <;> cases hk) | cases hk)).mpr (mem_real.mp h)
  | some p =>
    obtain ⟨t, κ⟩ := p
    have : x ∈ evs t κ (plain c s.log) := by rw [I.eq]; exact List.mem_append_right _ (List.mem_filter.mpr ⟨h, by simp [hk]⟩)
    exact (List.mem_filter.mp this).1

theorem evs_append (t κ) (a b : List Ev) : evs t κ (a ++ b) = evs t κ a ++ evs t κ b := by simp [evs]

/-- An announced call happens at most as often as it is announced. -/
theorem CInv.twice (I : CInv c s) {x : Ev} (hx : announced x = true) {a b : List Ev} (h : real s.log = a ++ x :: b) (hb : x ∈ b) :
    ∃ a' b', plain c s.log = a' ++ x :: b' ∧ x ∈ b' := by
  cases hk : key x with
  | none => cases x <;> first | (cases hk; done) | (rename_i o _; cases o <;> cases hk; done) | (cases hx; done)
  | some p =>
    obtain ⟨t, κ⟩ := p
    have h1 := I.eq t κ
    rw [h, evs_append] at h1
    have h2 : evs t κ (x :: b) = x :: evs t κ b := by simp [evs, hk]
    rw [h2] at h1
    have hx' : x ∈ evs t κ b := List.mem_filter.mpr ⟨hb, by simp [hk]⟩
    have := (List.filter_eq_append_iff (p := fun e => key e = some (t, κ))).mp (show List.filter _ _ = (pends c t κ (s.stk t) ++ evs t κ a) ++ x :: evs t κ b by rw [List.append_assoc]; exact h1)
    obtain ⟨l1, l2, h3, -, h5⟩ := this
    obtain ⟨k1, k2, h6, -, -, h7⟩ := List.filter_eq_cons_iff.mp h5
    exact ⟨l1 ++ k1, k2, by rw [h3, h6]; simp, (List.mem_filter.mp (h7 ▸ hx')).1⟩

/-- Two parts of a history: what came before an event that happens once. -/
theorem once_split {α : Type} {x : α} : ∀ {A B C D : List α}, A ++ x :: B = C ++ x :: D → x ∉ B → x ∉ D → B = D := by
  intro A
  induction A with
  | nil =>
    intro B C D h hB hD
    cases C with
    | nil => injection h
    | cons y C => injection h with h1 h2; exact absurd (by rw [h2]; simp) hB
  | cons a A ih =>
    intro B C D h hB hD
    cases C with
    | nil => injection h with h1 h2; exact absurd (by rw [← h2]; simp) hD
    | cons y C => injection h with _ h2; exact ih h2 hB hD

/-- The events of `κ` on `t` before an event that happens once. -/
theorem CInv.before (I : CInv c s) {x : Ev} {t κ} (hx : announced x = false) (hk : key x = some (t, κ)) {n o : List LEv} (h : s.log = n ++ .ev x :: o)
    (hu : x ∉ plain c o) : evs t κ (plain c o) = evs t κ (real o) := by
  have h1 := I.eq t κ
  rw [h, plain_append, real_append, plain_ev hx, evs_append, evs_append] at h1
  have e1 : evs t κ (x :: plain c o) = x :: evs t κ (plain c o) := by simp [evs, hk]
  have e2 : evs t κ (real (.ev x :: o)) = x :: evs t κ (real o) := by
    show evs t κ (x :: real o) = _; simp [evs, hk]
  rw [e1, e2, ← List.append_assoc] at h1
  refine once_split h1 (fun h => hu (List.mem_filter.mp h).1) fun h => hu ?_
  exact (mem_plain hx).mpr (mem_real.mp (List.mem_filter.mp h).1)

/-! ### Messages -/

theorem step_new {x : Action} (h : step c s x = some s') : ∃ new, s'.log = new ++ s.log ∧ ∀ y, .ev y ∈ new → announced y = true → new = [.ev y] := by
  have A := fun s1 (h : s.acquire c x.tid = some s1) => (acquire_same h).2.1
  have R : (s.release c).log = s.log := by unfold State.release; split <;> rfl
  have N : ∃ new, s.log = new ++ s.log ∧ ∀ y, LEv.ev y ∈ new → announced y = true → new = [.ev y] := ⟨[], rfl, by simp⟩
  have one : ∀ a : LEv, ∃ new, a :: s.log = new ++ s.log ∧ ∀ y, LEv.ev y ∈ new → announced y = true → new = [.ev y] := fun a => ⟨[a], rfl, fun y hy _ => by simp at hy; rw [hy]⟩
  have two : ∀ a b, announced a = false → announced b = false → ∃ new, LEv.ev a :: .ev b :: s.log = new ++ s.log ∧ ∀ y, LEv.ev y ∈ new → announced y = true → new = [.ev y] :=
    fun a b ha hb => ⟨[.ev a, .ev b], rfl, by intro y hy hz; simp at hy; rcases hy with rfl | rfl <;> simp_all⟩
  unfold step at h
  split at h
  · cases h
  · split at h
    · cases h
    · split at h
      · unfold userStep at h
        split at h
        · split at h <;> cases h; exact one _
        · split at h <;> cases h; exact one _
        · split at h <;> cases h; exact N
        · cases h; exact one _
        · cases h; exact one _
        · split at h <;> cases h
          · exact one _
          · exact one _
          · exact N
        · cases h
      · split at h
        · rename_i fr rest hs hnu hst
          unfold frameStep at h
          split at h <;> (try split at h) <;>
            (try (simp only [Option.map_eq_some_iff] at h; obtain ⟨s1, h1, h⟩ := h; subst h; exact ⟨[], by simp [State.setStk, A s1 h1], by simp⟩)) <;>
            cases h <;> first
              | exact N
              | exact one _
              | exact two _ _ rfl rfl
              | (simp only [State.ev, State.setStk, R]; first | exact one _ | exact N)
        · cases h

/-- **C68 (messages).** Each call of a function that origin makes is announced first: its message is in the history before it.  This holds for any logger. -/
theorem C68_announced (h : Reach c s) (x : Ev) (hx : announced x = true) :
    Whenever s.log (.ev x) fun old => ∃ t m, .msg t m ∈ old ∧ m.announces c t = some x := by
  induction h with
  | init => intro n o hl; simp [init] at hl
  | step h0 h1 ih =>
    intro n o hl
    obtain ⟨new, h2, h3⟩ := step_new h1
    have hl' := hl
    rw [h2] at hl
    rcases List.append_eq_append_iff.mp hl with ⟨a, ha, hb⟩ | ⟨a, ha, hb⟩
    · exact ih a o hb
    · cases a with
      | nil => simp at hb; exact ih [] o hb.symm
      | cons y a =>
        injection hb with hb1 hb2; subst hb1
        have := h3 x (by rw [ha]; simp) hx
        have : a = [] := by
          rw [ha] at this
          cases n with
          | nil => simpa using this
          | cons _ n => simp at this
        subst this
        have hm := (Reach.step h0 h1).cinv.sub (mem_real.mpr (show LEv.ev x ∈ _ by rw [hl']; simp))
        have hn : n = [] := by
          have := h3 x (by rw [ha]; simp) hx
          rw [ha] at this
          cases n with
          | nil => rfl
          | cons _ n => simp at this
        rw [hl', hn] at hm
        obtain ⟨t, m, hm1, hm2⟩ := (mem_plain_ann hx).mp hm
        exact ⟨t, m, by simpa using hm1, hm2⟩

/-- **C68 (refinement).** With the messages forgotten, and each call taken to happen when it is announced, what happens is something that happens without the `log` feature: the
history, the registered functions, the lock and whether the process has ended are those of a reachable state of `Proc`, to which C28–C34 apply. -/
theorem C68_refines_partial (h : QReach c s) : ∃ s0, Proc.Reach c s0 ∧ s0.log = plain c s.log ∧ s0.dead = s.dead ∧ s0.lock = s.lock ∧ s0.dtors = s.dtors ∧ s0.tdtors = s.tdtors := by
  obtain ⟨k, S⟩ := h.sim
  exact ⟨_, S.reach, rfl, rfl, rfl, rfl, rfl⟩

/-! ### a thread's functions -/

/-- **C68 (a thread's functions, order).** Whenever one of a thread's functions is announced, the thread had registered it, it had not been announced before, and every function the
thread registered after it has been announced. -/
theorem C68_thread_lifo_partial (h : QReach c s) (t : Tid) (o : Option Exit) (f : FnId) :
    Whenever s.log (.msg t (.tdtor o f)) fun old =>
      .ev (.tReg t f) ∈ old ∧ (∀ o', .msg t (.tdtor o' f) ∉ old) ∧
      ∀ g, Later (real old) (.tReg t g) (.tReg t f) → ∃ o', .msg t (.tdtor o' g) ∈ old := by
  obtain ⟨k, S⟩ := h.sim
  intro n old hl
  have hp : plain c s.log = plain c n ++ .tCall t o f :: plain c old := by rw [hl, plain_append, plain_msg rfl]
  obtain ⟨h1, h2, h3⟩ := C28_lifo S.reach t o f _ _ hp
  refine ⟨(mem_plain rfl).mp h1, fun o' hm => h2 ⟨o', (mem_plain_ann rfl).mpr ⟨t, _, hm, rfl⟩⟩, fun g hg => ?_⟩
  obtain ⟨o', h4⟩ := h3 g ((later_plain rfl rfl).mpr hg)
  obtain ⟨u, m, h5, h6⟩ := (mem_plain_ann rfl).mp h4
  obtain ⟨rfl, rfl⟩ := announces_tCall.mp h6
  exact ⟨o', h5⟩

/-- **C68 (a thread's functions, once).** Whenever one of a thread's functions is called, the thread had registered it, its message had been given, and it had not been called
before. -/
theorem C68_thread_once_partial (h : QReach c s) (t : Tid) (o : Option Exit) (f : FnId) :
    Whenever s.log (.ev (.tCall t o f)) fun old => .ev (.tReg t f) ∈ old ∧ .msg t (.tdtor o f) ∈ old ∧ ¬ TCalled (real old) t f := by
  obtain ⟨k, S⟩ := h.sim
  have I := h.reach.cinv
  intro n old hl
  obtain ⟨u, m, hm, ha⟩ := C68_announced h.reach (.tCall t o f) rfl n old hl
  obtain ⟨rfl, rfl⟩ := announces_tCall.mp ha
  refine ⟨?_, hm, ?_⟩
  · obtain ⟨a, b, hab⟩ := List.append_of_mem hm
    have := (C68_thread_lifo_partial h u o f (n ++ .ev (.tCall u o f) :: a) b (by rw [hl, hab]; simp)).1
    rw [hab]; simp [this]
  · rintro ⟨o', h1⟩
    have hr : real s.log = real n ++ .tCall u o f :: real old := by rw [hl, real_append]; rfl
    by_cases ho : o' = o
    · subst ho
      obtain ⟨a', b', h2, h3⟩ := I.twice rfl hr h1
      exact (C28_lifo S.reach u o' f _ _ h2).2.1 ⟨o', h3⟩
    · have m1 : .tCall u o f ∈ plain c s.log := I.sub (by rw [hr]; simp)
      have m2 : .tCall u o' f ∈ plain c s.log := I.sub (by rw [hr]; simp [h1])
      obtain ⟨a, b, hab⟩ := List.append_of_mem m1
      rw [hab] at m2
      rcases List.mem_append.mp m2 with m2 | m2
      · obtain ⟨a1, a2, ha⟩ := List.append_of_mem m2
        exact (C28_lifo S.reach u o' f a1 (a2 ++ .tCall u o f :: b) (by show plain c s.log = _; rw [hab, ha]; simp)).2.1 ⟨o, by simp⟩
      · rcases List.mem_cons.mp m2 with m2 | m2
        · injection m2 with _ m2; exact ho m2
        · exact (C28_lifo S.reach u o f _ _ hab).2.1 ⟨o', m2⟩

/-- **C68 (a thread's functions, completeness).** When a thread has exited, every function it ever registered has been called. -/
theorem C68_thread_all_called_partial (h : QReach c s) {t : Tid} {f : FnId} (hr : .ev (.released t) ∈ s.log) (hf : .ev (.tReg t f) ∈ s.log) :
    TCalled (real s.log) t f := by
  obtain ⟨k, S⟩ := h.sim
  have I := h.reach.cinv
  obtain ⟨o, h1⟩ := C28_all_called S.reach (t := t) (f := f) ((mem_plain rfl).mpr hr) ((mem_plain rfl).mpr hf)
  have hk : ∃ κ, key (.tCall t o f) = some (t, κ) := by cases o <;> exact ⟨_, rfl⟩
  obtain ⟨κ, hk⟩ := hk
  have h2 : .tCall t o f ∈ evs t κ (plain c s.log) := List.mem_filter.mpr ⟨h1, by simp [hk]⟩
  rw [I.eq, (I.rel t hr).1] at h2
  rw [show pends c t κ [] = [] from rfl, List.nil_append] at h2
  exact ⟨o, (List.mem_filter.mp h2).1⟩

/-! ### `exit` -/

theorem course_plain {m : Nat} {l : List Ev} {t : Tid} {e : Exit} {v : Int} {ts ps : List FnId} (h : Proc.course e l <+: exitCourse c m t e v ts ps) :
    ∀ x ∈ l, x.exit? = some e → key x = some (t, .exit e) := by
  intro x hx he
  have := h.subset (mem_course hx he)
  simp only [exitCourse, List.mem_append, List.mem_map, List.mem_flatMap, List.mem_cons, List.not_mem_nil, or_false, List.mem_reverse] at this
  rcases this with (((((rfl | ⟨f, -, rfl⟩) | rfl) | ⟨f, -, rfl | rfl⟩) | rfl) | ⟨p, -, rfl⟩) | rfl <;> rfl

theorem exit_of_key {x : Ev} {t : Tid} {e : Exit} (h : key x = some (t, .exit e)) : x.exit? = some e := by
  cases x <;> first | (rename_i o _; cases o) | skip
  all_goals simp_all [key, Ev.exit?]

theorem course_evs {l : List Ev} {t : Tid} {e : Exit} (h : ∀ x ∈ l, x.exit? = some e → key x = some (t, .exit e)) : Proc.course e l = (evs t (.exit e) l).reverse := by
  unfold Proc.course evs
  congr 1
  apply List.filter_congr
  intro x hx
  by_cases hk : key x = some (t, .exit e)
  · simp [hk, exit_of_key hk]
  · have : x.exit? ≠ some e := fun h' => hk (h x hx h')
    simp [hk, this]

theorem mem_course_iff {e : Exit} {l : List Ev} {x : Ev} : x ∈ Proc.course e l ↔ x ∈ l ∧ x.exit? = some e := by simp [Proc.course]

/-- What has been done of an `exit` call is an initial part of what has been announced. -/
theorem CInv.course (I : CInv c s) {t : Tid} {e : Exit} (h : ∀ x ∈ plain c s.log, x.exit? = some e → key x = some (t, .exit e)) :
    Proc.course e (real s.log) <+: Proc.course e (plain c s.log) := by
  rw [course_evs h, course_evs fun x hx => h x (I.sub hx), I.eq, List.reverse_append]
  exact List.prefix_append _ _

/-- **C68 (`exit`).** At any time, what an `exit(v)` call has done — the calls themselves, not their messages — is an initial part of: the thread's functions, the program's, the
`.fini_array` functions last to first, the end of the process with status `v`. -/
theorem C68_course_partial {n m : Nat} (hok : c.Ok n m) (h : QReach c s) {t : Tid} {e : Exit} {v : Int} (hb : .ev (.exitBegin t e v) ∈ s.log) :
    ∃ ts ps, Proc.course e (real s.log) <+: exitCourse c m t e v ts ps := by
  obtain ⟨k, S⟩ := h.sim
  obtain ⟨ts, ps, h1⟩ := C30_course hok S.reach (t := t) (e := e) (st := v) ((mem_plain rfl).mpr hb)
  exact ⟨ts, ps, (h.reach.cinv.course (course_plain h1)).trans h1⟩

/-- **C68 (`exit`).** When the process ends with status `v`, that is the status of the last call of `exit` or `immediate_exit` on the thread that ended it, and if it was `exit`, all of
the phases have been gone through: the thread's and the program's functions, and every `.fini_array` function once, last to first, have been called. -/
theorem C68_status_partial {n m : Nat} (hok : c.Ok n m) (h : QReach c s) (t : Tid) (e : Exit) (v : Int) :
    Whenever (real s.log) (.group t e v) fun old =>
      (Proc.course e old = [.immBegin t e v] ∨ ∃ ts ps, Proc.course e old ++ [.group t e v] = exitCourse c m t e v ts ps) ∧
      ∀ e' v', .exitBegin t e' v' ∈ old ∨ .immBegin t e' v' ∈ old → e' ≤ e := by
  obtain ⟨k, S⟩ := h.sim
  have I := h.reach.cinv
  intro a b hl0
  obtain ⟨nw, old, hl, -, rfl⟩ := real_split hl0
  have hp : plain c s.log = plain c nw ++ .group t e v :: plain c old := by rw [hl, plain_append, plain_ev rfl]
  obtain ⟨h1, h2⟩ := C30_status hok S.reach t e v _ _ hp
  have hu : Ev.group t e v ∉ plain c old := C30_end S.reach t e v _ _ _ hp
  have hb := I.before (t := t) (κ := .exit e) rfl rfl hl hu
  have hmem : ∀ x ∈ real old, x ∈ plain c s.log := fun x hx => I.sub (by rw [hl, real_append]; exact List.mem_append_right _ (List.mem_cons_of_mem _ hx))
  have hsub : ∀ x ∈ plain c old, x ∈ plain c s.log := fun x hx => by rw [hp]; simp [hx]
  have hkey : ∀ x ∈ plain c s.log, x.exit? = some e → key x = some (t, .exit e) := by
    obtain ⟨t', v', h3 | ⟨ts, ps, h3⟩⟩ := S.reach.course hok (x := .group t e v) (e := e) (show _ ∈ plain c s.log by rw [hp]; simp) rfl
    · intro x hx he
      have hg := h3.subset (mem_course (show Ev.group t e v ∈ plain c s.log by rw [hp]; simp) rfl)
      have := h3.subset (mem_course hx he)
      simp at hg this
      obtain ⟨rfl, rfl⟩ := hg
      rcases this with rfl | rfl <;> rfl
    · have := course_plain h3
      have hg := this (.group t e v) (show _ ∈ plain c s.log by rw [hp]; simp) rfl
      simp [key] at hg
      rw [hg]; exact this
  have hc : Proc.course e (real old) = Proc.course e (plain c old) := by
    rw [course_evs fun x hx => hkey x (hmem x hx), course_evs fun x hx => hkey x (hsub x hx), hb]
  refine ⟨?_, fun e' v' hx => h2 e' v' (hx.imp (fun h => (mem_plain rfl).mpr (mem_real.mp h)) fun h => (mem_plain rfl).mpr (mem_real.mp h))⟩
  rw [hc]; exact h1

theorem step_grp {x : Action} (h : step c s x = some s') : s.dead = false ∧ ∃ new, s'.log = new ++ s.log ∧ ∀ t e v, .ev (.group t e v) ∈ new → s'.dead = true ∧ .ev (.group t e v) ∉ new.tail := by
  have A := fun s1 (h : s.acquire c x.tid = some s1) => (acquire_same h).2.1
  have R : (s.release c).log = s.log := by unfold State.release; split <;> rfl
  have one : ∀ a : LEv, (∀ t e v, a ≠ .ev (.group t e v)) → ∀ d, ∃ new, a :: s.log = new ++ s.log ∧ ∀ t e v, .ev (.group t e v) ∈ new → d = true ∧ .ev (.group t e v) ∉ new.tail :=
    fun a ha d => ⟨[a], rfl, fun t e v h => by simp at h; exact absurd h.symm (ha t e v)⟩
  have two : ∀ a b : LEv, (∀ t e v, a ≠ .ev (.group t e v)) → (∀ t e v, b ≠ .ev (.group t e v)) → ∀ d, ∃ new, a :: b :: s.log = new ++ s.log ∧ ∀ t e v, .ev (.group t e v) ∈ new → d = true ∧ .ev (.group t e v) ∉ new.tail :=
    fun a b ha hb d => ⟨[a, b], rfl, fun t e v h => by
      simp at h; rcases h with h | h
      · exact absurd h.symm (ha t e v)
      · exact absurd h.symm (hb t e v)⟩
  unfold step at h
  split at h
  · cases h
  · next hd =>
    refine ⟨by simpa using hd, ?_⟩
    split at h
    · cases h
    · split at h
      · unfold userStep at h
        split at h
        · split at h <;> cases h; exact one _ (by simp) _
        · split at h <;> cases h; exact one _ (by simp) _
        · split at h <;> cases h; exact ⟨[], rfl, by simp⟩
        · cases h; exact one _ (by simp) _
        · cases h; exact one _ (by simp) _
        · split at h <;> cases h
          · exact one _ (by simp) _
          · exact one _ (by simp) _
          · exact ⟨[], rfl, by simp⟩
        · cases h
      · split at h
        · rename_i fr rest hs hnu hst
          unfold frameStep at h
          split at h <;> (try split at h) <;>
            (try (simp only [Option.map_eq_some_iff] at h; obtain ⟨s1, h1, h⟩ := h; subst h; exact ⟨[], by simp [State.setStk, A s1 h1], by simp⟩)) <;>
            cases h <;> first
              | exact ⟨[], rfl, by simp⟩
              | exact ⟨[_], rfl, fun _ _ _ _ => ⟨rfl, by simp⟩⟩
              | exact ⟨[_, _], rfl, fun _ _ _ _ => ⟨rfl, by simp⟩⟩
              | exact one _ (by simp) _
              | exact two _ _ (by simp) (by simp) _
              | (simp only [State.ev, State.setStk, R]; first | exact one _ (by simp) _ | exact ⟨[], rfl, by simp⟩)
        · cases h

/-- **C68 (`exit`).** The end of the process is the last event, and no message comes after it.  This holds for any logger. -/
theorem C68_end (h : Reach c s) (t : Tid) (e : Exit) (v : Int) (x : LEv) : Whenever s.log x fun old => .ev (.group t e v) ∉ old := by
  have main : (s.dead = false → .ev (.group t e v) ∉ s.log) ∧ Whenever s.log x fun old => .ev (.group t e v) ∉ old := by
    induction h with
    | init => exact ⟨fun _ => by simp [init], fun n o hl => by simp [init] at hl⟩
    | step h0 h1 ih =>
      obtain ⟨hd, new, h2, h3⟩ := step_grp h1
      have hno := ih.1 hd
      refine ⟨fun hd' hm => ?_, fun n o hl hm => ?_⟩
      · rw [h2] at hm
        rcases List.mem_append.mp hm with hm | hm
        · rw [(h3 t e v hm).1] at hd'; cases hd'
        · exact hno hm
      · rw [h2] at hl
        rcases List.append_eq_append_iff.mp hl with ⟨a, ha, hb⟩ | ⟨a, ha, hb⟩
        · exact ih.2 a o hb hm
        · cases a with
          | nil => simp at hb; exact ih.2 [] o hb.symm hm
          | cons y a =>
            injection hb with hb1 hb2; subst hb1
            rw [hb2] at hm
            rcases List.mem_append.mp hm with hm | hm
            · have h4 := h3 t e v (by rw [ha]; simp [hm])
              apply h4.2
              rw [ha]
              cases n with
              | nil => simpa using hm
              | cons _ n => simp [hm]
            · exact hno hm
  exact main.2

/-- In the course of an `exit` call each of these events happens once. -/
theorem once_course {n m : Nat} (hok : c.Ok n m) {s0 : Proc.State} (h : Proc.Reach c s0) {e : Exit} {x : Ev} (hx : x.exit? = some e) {a b : List Ev} (hl : s0.log = a ++ x :: b)
    (h1 : ∀ t st, ([.immBegin t e st, .group t e st] : List Ev).count x ≤ 1) (h2 : ∀ t st ts ps, (exitCourse c m t e st ts ps).count x ≤ 1) : x ∉ b := by
  intro hb
  have hc : Proc.course e s0.log = Proc.course e b ++ x :: Proc.course e a := by rw [hl]; simp [Proc.course, List.filter_cons, hx]
  have h3 : 2 ≤ (Proc.course e s0.log).count x := by
    rw [hc, List.count_append, List.count_cons_self]
    have : 0 < (Proc.course e b).count x := List.count_pos_iff.mpr (mem_course hb hx)
    omega
  have : (Proc.course e s0.log).count x ≤ 1 := by
    obtain ⟨t', v', h4 | ⟨ts, ps, h4⟩⟩ := h.course hok (x := x) (by rw [hl]; simp) hx
    · exact Nat.le_trans (h4.sublist.count_le x) (h1 t' v')
    · exact Nat.le_trans (h4.sublist.count_le x) (h2 t' v' ts ps)
  omega

theorem count_zero {α : Type} [BEq α] [LawfulBEq α] {x : α} {l : List α} (h : x ∉ l) : l.count x = 0 := List.count_eq_zero.mpr h

theorem once_tDone {n m : Nat} (hok : c.Ok n m) {s0 : Proc.State} (h : Proc.Reach c s0) {t : Tid} {e : Exit} {a b : List Ev} (hl : s0.log = a ++ .tDone t e :: b) : Ev.tDone t e ∉ b := by
  refine once_course hok h (e := e) rfl hl (fun t' st => by rw [count_zero (by simp)]; omega) fun t' st ts ps => ?_
  unfold exitCourse
  simp only [List.count_append]
  rw [count_zero (l := [Ev.exitBegin t' e st]) (by simp), count_zero (l := List.map _ _) (by simp), count_zero (l := List.flatMap _ _) (by simp), count_zero (l := [Ev.pDone t' e]) (by simp),
    count_zero (l := List.map _ _) (by simp), count_zero (l := [Ev.group t' e st]) (by simp)]
  simp [List.count_cons]
  split <;> omega

theorem once_pDone {n m : Nat} (hok : c.Ok n m) {s0 : Proc.State} (h : Proc.Reach c s0) {t : Tid} {e : Exit} {a b : List Ev} (hl : s0.log = a ++ .pDone t e :: b) : Ev.pDone t e ∉ b := by
  refine once_course hok h (e := e) rfl hl (fun t' st => by rw [count_zero (by simp)]; omega) fun t' st ts ps => ?_
  unfold exitCourse
  simp only [List.count_append]
  rw [count_zero (l := [Ev.exitBegin t' e st]) (by simp), count_zero (l := List.map _ _) (by simp), count_zero (l := List.flatMap _ _) (by simp), count_zero (l := [Ev.tDone t' e]) (by simp),
    count_zero (l := List.map _ _) (by simp), count_zero (l := [Ev.group t' e st]) (by simp)]
  simp [List.count_cons]
  split <;> omega

/-- **C68 (`exit`, a thread's functions).** When `exit` goes on to the program's functions, every function the thread registered before has been announced, and those announced by this
call have been called. -/
theorem C68_exit_all_called_partial {n m : Nat} (hok : c.Ok n m) (h : QReach c s) (t : Tid) (e : Exit) :
    Whenever s.log (.ev (.tDone t e)) fun old =>
      (∀ f, .ev (.tReg t f) ∈ old → ∃ o, .msg t (.tdtor o f) ∈ old) ∧ ∀ f, .msg t (.tdtor (some e) f) ∈ old → .ev (.tCall t (some e) f) ∈ old := by
  obtain ⟨k, S⟩ := h.sim
  have I := h.reach.cinv
  intro nw old hl
  have hp : plain c s.log = plain c nw ++ .tDone t e :: plain c old := by rw [hl, plain_append, plain_ev rfl]
  refine ⟨fun f hf => ?_, fun f hf => ?_⟩
  · obtain ⟨o, h1⟩ := C28_exit_all_called S.reach t e _ _ hp f ((mem_plain rfl).mpr hf)
    obtain ⟨u, m, h5, h6⟩ := (mem_plain_ann rfl).mp h1
    obtain ⟨rfl, rfl⟩ := announces_tCall.mp h6
    exact ⟨o, h5⟩
  · have hu : Ev.tDone t e ∉ plain c old := once_tDone hok S.reach hp
    have hb := I.before (t := t) (κ := .exit e) rfl rfl hl hu
    have : Ev.tCall t (some e) f ∈ evs t (.exit e) (plain c old) := List.mem_filter.mpr ⟨(mem_plain_ann rfl).mpr ⟨t, _, hf, rfl⟩, by simp [key]⟩
    rw [hb] at this
    exact mem_real.mp (List.mem_filter.mp this).1

/-! ### the program's functions -/

/-- **C68 (the program's functions, order).** Whenever an `exit` call takes a function off the program's list, the function was registered, had not been taken before, and every
function registered after it (by any thread) has already been taken. -/
theorem C68_program_lifo_partial (h : QReach c s) (t : Tid) (e : Exit) (f : FnId) :
    Whenever (real s.log) (.pTake t e f) fun old =>
      PRegd old f ∧ ¬ PTaken old f ∧ ∀ g t₁ t₂, Later old (.pReg t₁ g) (.pReg t₂ f) → PTaken old g := by
  obtain ⟨k, S⟩ := h.sim
  intro a b hl0
  obtain ⟨nw, old, hl, -, rfl⟩ := real_split hl0
  have hp : plain c s.log = plain c nw ++ .pTake t e f :: plain c old := by rw [hl, plain_append, plain_ev rfl]
  obtain ⟨h1, h2, h3⟩ := C29_lifo S.reach t e f _ _ hp
  exact ⟨pregd_plain.mp h1, fun h => h2 (ptaken_plain.mpr h), fun g t1 t2 hg => ptaken_plain.mp (h3 g t1 t2 ((later_plain rfl rfl).mpr hg))⟩

/-- **C68 (the program's functions, once).** A function is called only by the `exit` call that took it, after its message, and only once. -/
theorem C68_program_once_partial (h : QReach c s) (t : Tid) (e : Exit) (f : FnId) :
    Whenever s.log (.ev (.pCall t e f)) fun old => .ev (.pTake t e f) ∈ old ∧ .msg t (.pdtor e f) ∈ old ∧ ¬ PCalled (real old) f := by
  obtain ⟨k, S⟩ := h.sim
  have I := h.reach.cinv
  intro n old hl
  obtain ⟨u, m, hm, ha⟩ := C68_announced h.reach (.pCall t e f) rfl n old hl
  obtain ⟨rfl, rfl⟩ := announces_pCall.mp ha
  refine ⟨?_, hm, ?_⟩
  · obtain ⟨a, b, hab⟩ := List.append_of_mem hm
    have hp : plain c s.log = plain c (n ++ .ev (.pCall u e f) :: a) ++ .pCall u e f :: plain c b := by
      rw [hl, hab, ← plain_msg (t := u) (m := .pdtor e f) rfl, ← plain_append]; simp
    have := (C29_called_once S.reach u e f _ _ hp).1
    rw [hab]; simp [(mem_plain rfl).mp this]
  · rintro ⟨t', e', h1⟩
    have hr : real s.log = real n ++ .pCall u e f :: real old := by rw [hl, real_append]; rfl
    by_cases ho : t' = u ∧ e' = e
    · obtain ⟨rfl, rfl⟩ := ho
      obtain ⟨a', b', h2, h3⟩ := I.twice rfl hr h1
      exact (C29_called_once S.reach t' e' f _ _ h2).2 ⟨t', e', h3⟩
    · have m1 : .pCall u e f ∈ plain c s.log := I.sub (by rw [hr]; simp)
      have m2 : .pCall t' e' f ∈ plain c s.log := I.sub (by rw [hr]; simp [h1])
      obtain ⟨a, b, hab⟩ := List.append_of_mem m1
      rw [hab] at m2
      rcases List.mem_append.mp m2 with m2 | m2
      · obtain ⟨a1, a2, ha⟩ := List.append_of_mem m2
        exact (C29_called_once S.reach t' e' f a1 (a2 ++ .pCall u e f :: b) (by show plain c s.log = _; rw [hab, ha]; simp)).2 ⟨u, e, by simp⟩
      · rcases List.mem_cons.mp m2 with m2 | m2
        · injection m2 with m2 m3; exact ho ⟨m2, m3⟩
        · exact (C29_called_once S.reach u e f _ _ hab).2 ⟨t', e', m2⟩

/-- **C68 (the program's functions, completeness).** When an `exit` call has finished the program's functions, every registered function has been taken, and those this call took have
been called. -/
theorem C68_program_all_partial {n m : Nat} (hok : c.Ok n m) (h : QReach c s) (t : Tid) (e : Exit) :
    Whenever (real s.log) (.pDone t e) fun old => (∀ f, PRegd old f → PTaken old f) ∧ ∀ f, .pTake t e f ∈ old → .pCall t e f ∈ old := by
  obtain ⟨k, S⟩ := h.sim
  have I := h.reach.cinv
  intro a b hl0
  obtain ⟨nw, old, hl, -, rfl⟩ := real_split hl0
  have hp : plain c s.log = plain c nw ++ .pDone t e :: plain c old := by rw [hl, plain_append, plain_ev rfl]
  obtain ⟨h1, h2⟩ := C29_all_taken S.reach t e _ _ hp
  refine ⟨fun f hf => ptaken_plain.mp (h1 f (pregd_plain.mpr hf)), fun f hf => ?_⟩
  have h3 := h2 e f ((mem_plain rfl).mpr (mem_real.mp hf))
  have hb := I.before (t := t) (κ := .exit e) rfl rfl hl (once_pDone hok S.reach hp)
  have : Ev.pCall t e f ∈ evs t (.exit e) (plain c old) := List.mem_filter.mpr ⟨h3, by simp [key]⟩
  rw [hb] at this
  exact (List.mem_filter.mp this).1

/-- **C68 (registrations are not dropped; with threads).** A function whose registration was reported as done, at any time, has been taken by an `exit` call once one has finished with
the program's functions. -/
theorem C68_no_drop_partial (h : QReach c s) (hc : c.thread = true) (hf : PFinished (real s.log)) {t : Tid} {f : FnId} (hr : .ev (.pRegRet t f) ∈ s.log) :
    PTaken (real s.log) f := by
  obtain ⟨k, S⟩ := h.sim
  exact ptaken_plain.mp (C32_no_drop S.reach hc (pfin_plain.mpr hf) (t := t) ((mem_plain rfl).mpr hr))

/-! ### start -/

theorem boot_key {x : Ev} : x.boot = true ↔ key x = some (0, .boot) := by
  cases x <;> first | (rename_i o _; cases o) | skip
  all_goals simp [Ev.boot, key]

theorem boots_evs (l : List Ev) : boots l = (evs 0 .boot l).reverse := by
  unfold boots evs
  congr 1
  apply List.filter_congr
  intro x _
  by_cases h : x.boot = true
  · simp [h, boot_key.mp h]
  · have : key x ≠ some (0, .boot) := fun h' => h (boot_key.mpr h')
    simp [this]; simpa using h

/-- **C68 (start).** At any time, what program start has done is an initial part of: initialise the runtime, call each `.init_array` function once, in order, with the arguments, call
`origin_main` once with the arguments; and once it has returned `st`, all of that has been done. -/
theorem C68_startup_partial {n m : Nat} (hok : c.Ok n m) (h : QReach c s) :
    (∃ st, boots (real s.log) <+: bootCourse c n st) ∧ ∀ st, .ev (.mainRet st) ∈ s.log → boots (real s.log) = bootCourse c n st := by
  obtain ⟨k, S⟩ := h.sim
  have I := h.reach.cinv
  obtain ⟨⟨st, h1⟩, h2⟩ := C34_startup hok S.reach
  have he : boots (plain c s.log) = boots (real s.log) ++ (pends c 0 .boot (s.stk 0)).reverse := by
    rw [boots_evs, boots_evs, I.eq, List.reverse_append]
  refine ⟨⟨st, ?_⟩, fun st hs => ?_⟩
  · refine List.IsPrefix.trans ?_ h1
    show _ <+: boots (plain c s.log)
    rw [he]; exact List.prefix_append _ _
  · have h3 : boots (plain c s.log) = _ := h2 st ((mem_plain rfl).mpr hs)
    rw [he] at h3
    cases hp : (pends c 0 .boot (s.stk 0)).reverse with
    | nil => rw [hp, List.append_nil] at h3; exact h3
    | cons x xs =>
      exfalso
      have hl := congrArg List.getLast? h3
      rw [hp] at hl
      have hne : (x :: xs).getLast? = some (.mainRet st) := by
        rw [List.getLast?_append, show bootCourse c n st = ([.runtimeInit] ++ (List.range n).map (fun i => .ctor (c.initStart + i * c.ws) c.args) ++ [.main c.args]) ++ [.mainRet st] by
          simp [bootCourse], List.getLast?_append (l' := [Ev.mainRet st])] at hl
        simpa using hl
      have hm : Ev.mainRet st ∈ pends c 0 .boot (s.stk 0) := by
        rw [← List.mem_reverse, hp]; exact List.mem_of_getLast? hne
      have := pends_ann hm
      cases this

/-! ### `.fini_array` -/

theorem fini_same {n m : Nat} (hok : c.Ok n m) {s0 : Proc.State} (h : Proc.Reach c s0) (h1 : c.thread = true) (h2 : c.programAtExit = true) {t t' : Tid} {e e' : Exit} {p p' : Nat}
    (ha : Ev.fini t e p ∈ s0.log) (hb : Ev.fini t' e' p' ∈ s0.log) : t = t' ∧ e = e' := by
  have dn : ∀ t e p, Ev.fini t e p ∈ s0.log → Ev.pDone t e ∈ s0.log := by
    intro t e p hp
    obtain ⟨t', st', h1 | ⟨ts, ps, h1⟩⟩ := h.course hok hp rfl
    · have := h1.subset (mem_course hp rfl); simp at this
    · have ht : t = t' := by have := course_plain h1 _ hp rfl; simpa [key] using this
      subst ht
      rw [exitCourse, List.append_assoc, List.append_assoc, List.append_assoc] at h1
      have := prefix_mid (A := [.exitBegin t e st'] ++ ts.map (.tCall t (some e)) ++ [.tDone t e]
        ++ ps.flatMap (fun f => [.pTake t e f, .pCall t e f])) (d := Ev.pDone t e) (by simpa using h1) (mem_course hp rfl) (by simp)
      exact (mem_course_iff.mp this).1
  have he := pdone_unique h.pinv.tr h1 h2 (dn _ _ _ ha) (dn _ _ _ hb)
  subst he
  obtain ⟨t1, st', h1 | ⟨ts, ps, h1⟩⟩ := h.course hok ha rfl
  · have := h1.subset (mem_course ha rfl); simp at this
  · have k1 := course_plain h1 _ ha rfl
    have k2 := course_plain h1 _ hb rfl
    simp [key] at k1 k2
    exact ⟨by rw [k1, k2], rfl⟩

/-- **C68 (`.fini_array`; with threads and program `at_exit` support).** However many threads call `exit`, and whatever the logger does, the `.fini_array` functions that have been called
are, in order, an initial part of the array read from the last slot to the first: each is called at most once. -/
theorem C68_fini_once_partial {n m : Nat} (hok : c.Ok n m) (h : QReach c s) (h1 : c.thread = true) (h2 : c.programAtExit = true) :
    finiCalls (real s.log) <+: finiOrder c m ∧ (finiCalls (real s.log)).Nodup := by
  obtain ⟨k, S⟩ := h.sim
  have I := h.reach.cinv
  obtain ⟨h3, h4⟩ := C31_fini_once hok S.reach h1 h2
  suffices h5 : finiCalls (real s.log) <+: finiCalls (plain c s.log) from ⟨h5.trans h3, h4.sublist h5.sublist⟩
  by_cases hex : ∃ t e p, Ev.fini t e p ∈ plain c s.log
  · obtain ⟨t, e, p, hp⟩ := hex
    have conv : ∀ l : List Ev, (∀ x ∈ l, x ∈ plain c s.log) → l.filterMap Ev.finiSlot? = (evs t (.exit e) l).filterMap Ev.finiSlot? := by
      intro l hl
      induction l with
      | nil => rfl
      | cons x l ih =>
        have ih := ih fun y hy => hl y (List.mem_cons_of_mem _ hy)
        unfold evs at ih ⊢
        rw [List.filter_cons]
        split
        · rw [List.filterMap_cons, List.filterMap_cons, ih]
        · next hne =>
          rw [List.filterMap_cons]
          cases hx : x.finiSlot? with
          | none => exact ih
          | some q =>
            exfalso
            cases x <;> simp [Ev.finiSlot?] at hx
            obtain ⟨rfl, rfl⟩ := fini_same hok S.reach h1 h2 hp (hl _ List.mem_cons_self)
            simp [key] at hne
    unfold finiCalls
    rw [conv _ fun x hx => I.sub hx, conv _ fun x hx => hx, I.eq, List.filterMap_append, List.reverse_append]
    exact List.prefix_append _ _
  · have : finiCalls (real s.log) = [] := by
      unfold finiCalls
      rw [List.reverse_eq_nil_iff, List.filterMap_eq_nil_iff]
      intro x hx
      cases x <;> simp [Ev.finiSlot?]
      exact hex ⟨_, _, _, I.sub hx⟩
    rw [this]; exact List.nil_prefix

/-! ### `at_exit` from user code or from the logger -/

theorem release_same (s : State) : (s.release c).nextF = s.nextF ∧ (s.release c).dead = s.dead ∧ (s.release c).log = s.log ∧ (s.release c).stk = s.stk := by
  unfold State.release; split <;> exact ⟨rfl, rfl, rfl, rfl⟩

theorem reg_completes {t : Tid} {rest : List Frame} (hd : s.dead = false) (hs : s.stk t = .regLock :: rest) (hl : c.thread = true → s.lock = none) :
    ∃ s', run c s [.step t, .step t, .step t] = some s' ∧ .ev (.pRegRet t s.nextF) ∈ s'.log ∧ .ev (.pReg t s.nextF) ∈ s'.log := by
  have ha : ∃ s1, s.acquire c t = some s1 ∧ s1.nextF = s.nextF ∧ s1.dead = s.dead := by
    unfold State.acquire
    cases hc : c.thread with
    | false => exact ⟨s, by simp, rfl, rfl⟩
    | true => exact ⟨{ s with lock := some t }, by simp [hl hc], rfl, rfl⟩
  obtain ⟨s1, h1, h2, h3⟩ := ha
  obtain ⟨-, -, h4, -⟩ := release_same (c := c)
    (({ s1.setStk t (.regPush :: rest) with dtors := s1.nextF :: s1.dtors, nextF := s1.nextF + 1 }.setStk t
      (.regUnlock s1.nextF :: rest)).ev (.pReg t s1.nextF))
  have e1 : step c s (.step t) = some (s1.setStk t (.regPush :: rest)) := by
    simp [step, hd, Action.tid, hs, frameStep, h1, Frame.users]
  have e2 : step c (s1.setStk t (.regPush :: rest)) (.step t) =
      some (({ s1.setStk t (.regPush :: rest) with dtors := s1.nextF :: s1.dtors, nextF := s1.nextF + 1 }.setStk t
      (.regUnlock s1.nextF :: rest)).ev (.pReg t s1.nextF)) := by
    simp [step, hd, h3, Action.tid, State.setStk, frameStep, Frame.users]
  refine ⟨_, by simp only [run, e1, Option.bind_some, e2]; simp [step, hd, h3, Action.tid, State.setStk, State.ev, frameStep, Frame.users]; rfl, ?_, ?_⟩
  · rw [← h2]; exact List.mem_cons_self
  · rw [← h2]
    apply List.mem_cons_of_mem
    simp only [release_same]
    exact List.mem_cons_self

theorem run_append (xs ys : List Action) : ∀ {s s' : State}, run c s xs = some s' → run c s (xs ++ ys) = run c s' ys := by
  induction xs with
  | nil => intro s s' h; simp [run] at h; subst h; rfl
  | cons x xs ih =>
    intro s s' h
    simp only [run, Option.bind_eq_some_iff] at h
    obtain ⟨s1, h1, h2⟩ := h
    simp only [List.cons_append, run, h1, Option.bind_some]
    exact ih h2

/-- The holder of the lock gives it up within two of its own steps, with no message in between, unless it finishes the program's functions. -/
theorem holder_releases {u : Tid} {fr : Frame} {rest : List Frame} (hc : c.thread = true) (hd : s.dead = false)
    (hs : s.stk u = fr :: rest) (hcr : fr = .regPush ∨ (∃ f, fr = .regUnlock f) ∨ (∃ e st, fr = .exitPop e st) ∨ ∃ e st f, fr = .exitUnlock e st f) :
    ∃ acts s', run c s acts = some s' ∧ acts.length ≤ 2 ∧ (∀ a ∈ acts, a = .step u) ∧
      ((s'.lock = none ∧ s'.dead = false ∧ s.nextF ≤ s'.nextF ∧ ∀ t, t ≠ u → s'.stk t = s.stk t) ∨ PFinished (real s'.log)) := by
  rcases hcr with rfl | ⟨f, rfl⟩ | ⟨e, st, rfl⟩ | ⟨e, st, f, rfl⟩
  · refine ⟨[.step u, .step u], ?_⟩
    refine ⟨_, by simp [run, step, hd, Action.tid, hs, frameStep, State.setStk, State.ev, Frame.users]; rfl, by simp, by simp, .inl ?_⟩
    simp [State.release, hc]
    exact fun t ht => by simp [ht]
  · refine ⟨[.step u], ?_⟩
    refine ⟨_, by simp [run, step, hd, Action.tid, hs, frameStep, State.setStk, State.ev, Frame.users]; rfl, by simp, by simp, .inl ?_⟩
    simp [State.release, hc, hd]
    exact fun t ht => by simp [ht]
  · cases hds : s.dtors with
    | nil =>
      refine ⟨[.step u], ?_⟩
      refine ⟨_, by simp [run, step, hd, Action.tid, hs, frameStep, State.setStk, State.ev, hds, Frame.users]; rfl, by simp, by simp, .inr ?_⟩
      exact ⟨u, e, by simp [real]⟩
    | cons f fs =>
      refine ⟨[.step u, .step u], ?_⟩
      refine ⟨_, by simp [run, step, hd, Action.tid, hs, frameStep, State.setStk, State.ev, hds, Frame.users]; rfl, by simp, by simp, .inl ?_⟩
      simp [State.release, hc, hd]
      exact fun t ht => by simp [ht]
  · refine ⟨[.step u], ?_⟩
    refine ⟨_, by simp [run, step, hd, Action.tid, hs, frameStep, State.setStk, State.ev, Frame.users]; rfl, by simp, by simp, .inl ?_⟩
    simp [State.release, hc, hd]
    exact fun t ht => by simp [ht]

theorem Top.crit {l p fr' rest'} (T : Top l p) (hp : p = fr' :: rest') (hc : fr'.crit = true) :
    ∃ fr rest, l = fr :: rest ∧ (fr = .regPush ∨ (∃ f, fr = .regUnlock f) ∨ (∃ e st, fr = .exitPop e st) ∨ ∃ e st f, fr = .exitUnlock e st f) := by
  rcases T with ⟨-, h | ⟨f, h⟩⟩ | ⟨-, A⟩
  · rw [hp] at h; injection h with h _; subst h; cases hc
  · rw [hp] at h; injection h with h _; subst h; cases hc
  · subst hp
    cases A <;> first | (cases hc; done) | exact ⟨_, _, rfl, by simp⟩

/-- **C68 (`at_exit`).** User code on any thread, or the logger called for any message of origin's on any thread, may register a function with `program::at_exit`: within five further
steps of origin's own code, with no user code and no message involved, the call returns and the function is registered, or some `exit` call has finished the program's functions. -/
theorem C68_at_exit_completes_partial (h : QReach c s) (hd : s.dead = false) (hp : c.programAtExit = true) {t : Tid} {top : Frame} {rest : List Frame}
    (hs : s.stk t = top :: rest) (hu : top.users = true) (hf : ¬ PFinished (real s.log)) :
    ∃ acts s', run c s (.regProg t :: acts) = some s' ∧ acts.length ≤ 5 ∧ (∀ a ∈ acts, ∃ u, a = .step u) ∧
      ((∃ f, ¬ PRegd (real s.log) f ∧ .ev (.pReg t f) ∈ s'.log ∧ .ev (.pRegRet t f) ∈ s'.log) ∨ PFinished (real s'.log)) := by
  obtain ⟨k, S⟩ := h.sim
  have e1 : step c s (.regProg t) = some (s.setStk t (.regLock :: top :: rest)) := by
    simp [step, hd, Action.tid, hs, userStep, hp, hu]
  have hnew : ∀ k, s.nextF ≤ k → ¬ PRegd (real s.log) k := fun k hk hreg =>
    Nat.lt_irrefl _ (Nat.lt_of_lt_of_le (S.reach.pinv.fresh k (pregd_plain.mpr hreg)) hk)
  have hs1 : (s.setStk t (.regLock :: top :: rest)).stk t = .regLock :: top :: rest := by simp [State.setStk]
  by_cases hl : c.thread = true → s.lock = none
  · obtain ⟨s', h1, h2, h3⟩ := reg_completes (c := c) (s := s.setStk t (.regLock :: top :: rest)) hd hs1 hl
    exact ⟨[.step t, .step t, .step t], s', by rw [run, e1]; exact h1, by simp, by simp, .inl ⟨_, hnew _ (Nat.le_refl _), h3, h2⟩⟩
  · obtain ⟨hc, hl⟩ := Classical.not_imp.mp hl
    cases hk : s.lock with
    | none => exact absurd hk hl
    | some u =>
      obtain ⟨fr', rest', hu1, hcr⟩ := Proc.holder S.reach hc (u := u) hk (fun h => hf (pfin_plain.mp h))
      obtain ⟨fr, rest2, hu2, hcr2⟩ := (S.top hd u).crit hu1 hcr
      have hut : t ≠ u := by
        rintro rfl
        rw [hs] at hu2; injection hu2 with hu2 _; subst hu2
        rcases hcr2 with rfl | ⟨f, rfl⟩ | ⟨e, st, rfl⟩ | ⟨e, st, f, rfl⟩ <;> cases hu
      have hu3 : (s.setStk t (.regLock :: top :: rest)).stk u = fr :: rest2 := by
        simp only [State.setStk]; rw [if_neg (fun h => hut h.symm)]; exact hu2
      obtain ⟨acts, s', h1, h2, h3, h4⟩ := holder_releases hc (s := s.setStk t (.regLock :: top :: rest)) hd hu3 hcr2
      rcases h4 with ⟨g1, g2, g3, g4⟩ | hfin
      · obtain ⟨s'', k1, k2, k3⟩ := reg_completes (c := c) (s := s') g2 (by rw [g4 t hut]; exact hs1) (fun _ => g1)
        refine ⟨acts ++ [.step t, .step t, .step t], s'', ?_, by simp; omega, ?_, .inl ⟨_, hnew _ g3, k3, k2⟩⟩
        · simp only [run, e1, Option.bind_some]
          rw [run_append acts _ h1]; exact k1
        · intro a ha
          rcases List.mem_append.mp ha with ha | ha
          · exact ⟨u, h3 a ha⟩
          · simp at ha; exact ⟨t, ha⟩
      · exact ⟨acts, s', by simp only [run, e1, Option.bind_some]; exact h1, by omega, fun a ha => ⟨u, h3 a ha⟩, .inr hfin⟩

theorem frame_progress {t : Tid} {fr : Frame} {rest : List Frame} (hd : s.dead = false) (hs : s.stk t = fr :: rest) (hu : fr.users = false)
    (hl : c.thread = true → s.lock ≠ none → fr ≠ .regLock ∧ ∀ e st, fr = .exitLock e st → c.programAtExit = false) : ∃ s', step c s (.step t) = some s' := by
  have acq : (c.thread = true → s.lock = none) → ∃ s1, s.acquire c t = some s1 := by
    intro h
    unfold State.acquire
    cases hc : c.thread with
    | false => exact ⟨s, by simp⟩
    | true => exact ⟨{ s with lock := some t }, by simp [h hc]⟩
  have hst : step c s (.step t) = frameStep c s t rest fr := by simp [step, hd, Action.tid, hs, hu]
  rw [hst]
  cases fr <;> (try cases hu) <;> simp only [frameStep] <;> (repeat' split) <;> (try exact ⟨_, rfl⟩)
  · obtain ⟨s1, h1⟩ := acq fun hc => Classical.byContradiction fun h => (hl hc h).1 rfl
    exact ⟨_, by rw [h1]; rfl⟩
  · rename_i e st hp
    obtain ⟨s1, h1⟩ := acq fun hc => Classical.byContradiction fun h => by rw [(hl hc h).2 e st rfl] at hp; cases hp
    exact ⟨_, by rw [h1]; rfl⟩

/-- **C68 (progress).** A thread running origin's own code can always go on, except while it waits for the registration lock; and then another thread holds the lock, and that thread
can go on — it is not in the logger —, or some thread has finished the program's functions. -/
theorem C68_progress_partial (h : QReach c s) (hd : s.dead = false) {t : Tid} {fr : Frame} {rest : List Frame} (hs : s.stk t = fr :: rest) (hu : fr.users = false) :
    (∃ s', step c s (.step t) = some s') ∨ (∃ u s', u ≠ t ∧ step c s (.step u) = some s') ∨ PFinished (real s.log) := by
  obtain ⟨k, S⟩ := h.sim
  by_cases hl : c.thread = true → s.lock ≠ none → fr ≠ .regLock ∧ ∀ e st, fr = .exitLock e st → c.programAtExit = false
  · exact .inl (frame_progress hd hs hu hl)
  · obtain ⟨hc, hl⟩ := Classical.not_imp.mp hl
    obtain ⟨hk, hl⟩ := Classical.not_imp.mp hl
    by_cases hf : PFinished (real s.log)
    · exact .inr (.inr hf)
    · cases hk' : s.lock with
      | none => exact absurd hk' hk
      | some u =>
        obtain ⟨fr', rest', h1, h2⟩ := Proc.holder S.reach hc (u := u) hk' (fun h => hf (pfin_plain.mp h))
        obtain ⟨fr2, rest2, h3, h4⟩ := (S.top hd u).crit h1 h2
        right; left
        have hp : ∃ s', step c s (.step u) = some s' := by
          refine frame_progress hd h3 ?_ fun _ _ => ?_
          · rcases h4 with rfl | ⟨f, rfl⟩ | ⟨e, st, rfl⟩ | ⟨e, st, f, rfl⟩ <;> rfl
          · rcases h4 with rfl | ⟨f, rfl⟩ | ⟨e, st, rfl⟩ | ⟨e, st, f, rfl⟩ <;> simp
        obtain ⟨s', hp⟩ := hp
        refine ⟨u, s', ?_, hp⟩
        rintro rfl
        rw [hs] at h3; injection h3 with h3 _; subst h3
        apply hl
        rcases h4 with rfl | ⟨f, rfl⟩ | ⟨e, st, rfl⟩ | ⟨e, st, f, rfl⟩ <;> simp

/-! ### Concrete histories: the hypotheses are met, and what does not hold -/

theorem reach_with (xs : List Action) (P : State → Bool) (h : (run c init xs).map P = some true) : ∃ s, Reach c s ∧ P s = true := by
  have go : ∀ xs : List Action, ∀ {s s' : State}, Reach c s → run c s xs = some s' → Reach c s' := by
    intro xs
    induction xs with
    | nil => intro s s' R h; simp [run] at h; subst h; exact R
    | cons x xs ih =>
      intro s s' R h
      simp only [run, Option.bind_eq_some_iff] at h
      obtain ⟨s1, h1, h2⟩ := h
      exact ih (.step R h1) h2
  rw [Option.map_eq_some_iff] at h
  obtain ⟨s, h1, h2⟩ := h
  exact ⟨s, go xs .init h1, h2⟩

/-- `Quiet`, decided. -/
def quiet (s : State) (x : Action) : Bool :=
  (match x with
    | .regThr t => !(s.stk t).contains .thrGone
    | _ => true) &&
  match s.stk x.tid, x with
  | .logger (.exiting (some _) _) :: _, .ret _ _ => true
  | .logger (.exiting (some _) _) :: _, _ => false
  | _, _ => true

theorem quiet_iff {x : Action} (h : quiet s x = true) : Quiet s x := by
  simp only [quiet, Bool.and_eq_true] at h
  refine ⟨?_, ?_⟩
  · rintro t rfl
    simpa using h.1
  · intro e st rest hs
    rw [hs] at h
    cases x <;> simp at h
    exact ⟨_, rfl⟩

/-- A run with such a logger. -/
def runQ (c : Cfg) (s : State) : List Action → Option State
  | [] => some s
  | x :: xs => if quiet s x then (step c s x).bind (runQ c · xs) else none

theorem qreach_with (xs : List Action) (P : State → Bool) (h : (runQ c init xs).map P = some true) : ∃ s, QReach c s ∧ P s = true := by
  have go : ∀ xs : List Action, ∀ {s s' : State}, QReach c s → runQ c s xs = some s' → QReach c s' := by
    intro xs
    induction xs with
    | nil => intro s s' R h; simp [runQ] at h; subst h; exact R
    | cons x xs ih =>
      intro s s' R h
      simp only [runQ] at h
      split at h
      · next hq =>
        simp only [Option.bind_eq_some_iff] at h
        obtain ⟨s1, h1, h2⟩ := h
        exact ih (.step R (quiet_iff hq) h1) h2
      · cases h
  rw [Option.map_eq_some_iff] at h
  obtain ⟨s, h1, h2⟩ := h
  exact ⟨s, go xs .init h1, h2⟩

/-- The logger returns, origin calls the function, and it returns. -/
def called (t : Tid) : List Action := [.ret t 0, .step t, .ret t 0]

/-- Constructors; main registers 0 for the thread and 1 for the program and creates thread 1; the logger, called in `create`, registers 2 for the program; thread 1 registers 3 for
itself, and when it returns the logger registers 4 for it; main returns 7, and in the message for 2 the logger registers 5 for the program. -/
def demoRun : List Action :=
  [.step 0, .step 0] ++ called 0 ++ [.step 0] ++ called 0 ++ [.step 0, .ret 0 0, .step 0, .regThr 0, .regProg 0] ++ steps 0 3 ++
  [.spawn 0, .step 0, .regProg 0] ++ steps 0 3 ++ [.ret 0 0, .step 1, .ret 1 0, .step 1, .regThr 1, .ret 1 0, .regThr 1, .ret 1 0, .step 1, .step 1] ++ called 1 ++
  [.step 1] ++ called 1 ++ [.step 1, .ret 1 0, .step 1] ++
  [.ret 0 7, .ret 0 0, .step 0, .step 0] ++ called 0 ++ steps 0 5 ++ [.regProg 0] ++ steps 0 3 ++ called 0 ++ steps 0 4 ++ called 0 ++ steps 0 4 ++ called 0 ++
  steps 0 3 ++ called 0 ++ [.step 0] ++ called 0 ++ [.step 0, .ret 0 0, .step 0]

/-- What happens in it, from the first event to the last. -/
def demoLog : List LEv :=
    [.ev .runtimeInit, .msg 0 (.ctor 100), .ev (.ctor 100 demo.args), .msg 0 (.ctor 108), .ev (.ctor 108 demo.args), .msg 0 .main, .ev (.main demo.args),
     .ev (.tReg 0 0), .ev (.pReg 0 1), .ev (.pRegRet 0 1), .ev (.spawned 1), .msg 0 (.created 1), .ev (.pReg 0 2), .ev (.pRegRet 0 2),
     .msg 1 .launched, .ev (.tReg 1 3), .msg 1 .returned, .ev (.tReg 1 4), .msg 1 (.tdtor none 4), .ev (.tCall 1 none 4), .msg 1 (.tdtor none 3), .ev (.tCall 1 none 3),
     .msg 1 .gone, .ev (.released 1), .msg 0 (.mainRet 7), .ev (.mainRet 7), .ev (.exitBegin 0 0 7), .msg 0 (.tdtor (some 0) 0), .ev (.tCall 0 (some 0) 0), .ev (.tDone 0 0),
     .ev (.pTake 0 0 2), .msg 0 (.pdtor 0 2), .ev (.pReg 0 5), .ev (.pRegRet 0 5), .ev (.pCall 0 0 2), .ev (.pTake 0 0 5), .msg 0 (.pdtor 0 5), .ev (.pCall 0 0 5),
     .ev (.pTake 0 0 1), .msg 0 (.pdtor 0 1), .ev (.pCall 0 0 1), .ev (.pDone 0 0), .msg 0 (.fini 0 208), .ev (.fini 0 0 208), .msg 0 (.fini 0 200), .ev (.fini 0 0 200),
     .msg 0 (.exiting (some 0) 7), .ev (.group 0 0 7)]

theorem demo_history : ∃ s, QReach demo s ∧ s.dead = true ∧ s.log.reverse = demoLog := by
  obtain ⟨s, h1, h2⟩ := qreach_with (c := demo) demoRun (fun s => s.dead && decide (s.log.reverse = demoLog)) (by decide)
  simp only [Bool.and_eq_true, decide_eq_true_eq] at h2
  exact ⟨s, h1, h2.1, h2.2⟩

/-- A thread is created, and returns. -/
def threadRun : List Action :=
  [.step 0, .step 0] ++ called 0 ++ [.step 0] ++ called 0 ++ [.step 0, .ret 0 0, .step 0, .spawn 0, .step 0, .ret 0 0, .step 1, .ret 1 0, .step 1, .ret 1 0, .ret 1 0, .step 1]

/-- **C68 fails in general (a thread's last message).** If the logger, called for a thread's last message ("exiting as …"), registers a function for that thread with
`thread::at_exit`, the function is never called, although the thread exits in the ordinary way. -/
theorem C68_late_false : ¬ ∀ (c : Cfg) (s : State), Reach c s → ∀ t f, .ev (.released t) ∈ s.log → .ev (.tReg t f) ∈ s.log → TCalled (real s.log) t f := by
  intro h
  obtain ⟨s, h1, h2⟩ := reach_with (c := demo) (threadRun ++ [.step 1, .regThr 1, .ret 1 0, .step 1])
    (fun s => decide (.ev (.released 1) ∈ s.log) && decide (.ev (.tReg 1 0) ∈ s.log) && (real s.log).all fun x => match x with | .tCall .. => false | _ => true) (by decide)
  simp only [Bool.and_eq_true, decide_eq_true_eq, List.all_eq_true] at h2
  obtain ⟨o, h3⟩ := h demo s h1 1 0 h2.1.1 h2.1.2
  have := h2.2 _ h3
  simp at this

/-- **C68 fails in general (the last message).** If the logger, called for the last message of `exit` ("Program exiting with status"), calls `program::at_exit` (or `exit`), it never
returns, because `exit` has left the lock taken: the process, which has done everything but end, does not end.  Nothing can happen any more. -/
theorem C68_last_message_false : ∃ c s, c.Ok 2 2 ∧ Reach c s ∧ .msg 0 (.exiting (some 0) 7) ∈ s.log ∧ s.dead = false ∧ (∃ r, s.stk 0 = .regLock :: .logger (.exiting (some 0) 7) :: r) ∧
    ∀ x, step c s x = none := by
  obtain ⟨s, h1, h2⟩ := reach_with (c := demo)
    ([.step 0, .step 0] ++ called 0 ++ [.step 0] ++ called 0 ++ [.step 0, .ret 0 0, .step 0, .ret 0 7, .ret 0 0] ++ steps 0 5 ++ called 0 ++ [.step 0] ++ called 0 ++ [.step 0, .regProg 0])
    (fun s => decide (.msg 0 (.exiting (some 0) 7) ∈ s.log) && !s.dead && decide (s.stk 0 = [.regLock, .logger (.exiting (some 0) 7), .exitGrp 0 7]) && decide (s.lock = some 0) && s.nextT == 1)
    (by decide)
  simp only [Bool.and_eq_true, decide_eq_true_eq, beq_iff_eq] at h2
  obtain ⟨⟨⟨⟨h2, h3⟩, h4⟩, h5⟩, h6⟩ := h2
  refine ⟨demo, s, demo_ok, h1, h2, by simpa using h3, ⟨_, h4⟩, fun x => ?_⟩
  unfold step
  split
  · rfl
  · by_cases hx : x.tid = 0
    · rw [hx, h4]
      by_cases hst : x = .step 0
      · simp [Frame.users, hst, frameStep, State.acquire, h5, demo]
      · simp [Frame.users, hst]
    · rw [h1.cinv.new x.tid (by rw [h6]; exact Nat.pos_of_ne_zero hx)]

end Origin.LogProc
