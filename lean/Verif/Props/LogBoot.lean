import Verif.Proof.LogBoot
/-! # C68: program start, with any logger -/

namespace Origin.LogProc

open Proc (Cfg Fn Tid FnId Exit Ev Action boots bootCourse Whenever)

variable {c : Cfg} {n m : Nat} {s s' : State}

theorem pre_course {k : Nat} (hk : k ≤ n) (v : Int) : bootPre c k <+: bootCourse c n v := by
  obtain ⟨d, rfl⟩ := Nat.exists_eq_add_of_le hk
  have : List.range (k + d) = List.range k ++ (List.range d).map (k + ·) := List.range_add
  refine ⟨(List.range d).map (fun i => Ev.ctor (c.initStart + (k + i) * c.ws) c.args) ++ [.main c.args, .mainRet v], ?_⟩
  simp [bootCourse, bootPre, this, Function.comp_def]

theorem main_course (v : Int) : bootCourse c n v = (bootPre c n ++ [.main c.args]) ++ [.mainRet v] := by simp [bootCourse, bootPre]

/-- What is announced is a part of the course, and all of it once `origin_main` has returned. -/
theorem plain_course (hok : c.Ok n m) (h : Reach c s) :
    (∃ v, boots (plain c s.log) <+: bootCourse c n v) ∧ ∀ v, .ev (.mainRet v) ∈ s.log → boots (plain c s.log) = bootCourse c n v := by
  have hn : ∀ v k, Ev.mainRet v ∉ bootPre c k ++ [.main c.args] := by simp [bootPre]
  have hn' : ∀ v k, Ev.mainRet v ∉ bootPre c k := by simp [bootPre]
  have up : ∀ v, .ev (.mainRet v) ∈ s.log → Ev.mainRet v ∈ boots (plain c s.log) := by
    intro v hv
    simp only [boots, List.mem_reverse, List.mem_filter]
    exact ⟨(mem_plain rfl).mpr hv, rfl⟩
  have B := (h.bi hok).at_
  split at B
  · rw [B]; exact ⟨⟨0, List.nil_prefix⟩, fun v hv => absurd (up v hv) (by rw [B]; simp)⟩
  · obtain ⟨k, hk, -, B⟩ := B
    rw [B]; exact ⟨⟨0, pre_course hk 0⟩, fun v hv => absurd (up v hv) (by rw [B]; exact hn' v k)⟩
  · rw [B]; exact ⟨⟨0, by rw [main_course]; exact List.prefix_append ..⟩, fun v hv => absurd (up v hv) (by rw [B]; exact hn v n)⟩
  · rw [B]; exact ⟨⟨0, by rw [main_course]; exact List.prefix_append ..⟩, fun v hv => absurd (up v hv) (by rw [B]; exact hn v n)⟩
  · rw [B]; exact ⟨⟨0, by rw [main_course]; exact List.prefix_append ..⟩, fun v hv => absurd (up v hv) (by rw [B]; exact hn v n)⟩
  · cases B
  · obtain ⟨v, B⟩ := B
    rw [B]
    refine ⟨⟨v, List.prefix_refl _⟩, fun v' hv => ?_⟩
    have := up v' hv
    rw [B, main_course, List.mem_append] at this
    rcases this with h | h
    · exact absurd h (hn v' n)
    · simp only [List.mem_singleton, Ev.mainRet.injEq] at h; rw [h]

/-- **C68 (start, any logger).** Whatever the logger does, what program start has done at any time is an initial part of: initialise the runtime, call each `.init_array` function once, in
order, with the arguments, call `origin_main` once with the arguments; and once it has returned `st`, all of that has been done. -/
theorem C68_startup (hok : c.Ok n m) (h : Reach c s) :
    (∃ st, boots (real s.log) <+: bootCourse c n st) ∧ ∀ st, .ev (.mainRet st) ∈ s.log → boots (real s.log) = bootCourse c n st := by
  have I := h.cinv
  obtain ⟨⟨st, h1⟩, h2⟩ := plain_course hok h
  have he : boots (plain c s.log) = boots (real s.log) ++ (pends c 0 .boot (s.stk 0)).reverse := by
    rw [boots_evs, boots_evs, I.eq, List.reverse_append]
  refine ⟨⟨st, ?_⟩, fun st hs => ?_⟩
  · refine List.IsPrefix.trans ?_ h1
    rw [he]; exact List.prefix_append _ _
  · have h3 := h2 st hs
    rw [he, main_course] at h3
    rcases List.append_eq_append_iff.mp h3 with ⟨d, h4, h5⟩ | ⟨d, h4, h5⟩
    · cases hp : (pends c 0 .boot (s.stk 0)).reverse with
      | nil => rw [← main_course, hp, List.append_nil] at h3; exact h3
      | cons x xs =>
        exfalso
        have hm : Ev.mainRet st ∈ pends c 0 .boot (s.stk 0) := by
          rw [← List.mem_reverse, h5]; simp
        have := pends_ann hm
        cases this
    · cases hp : (pends c 0 .boot (s.stk 0)).reverse with
      | nil => rw [← main_course, hp, List.append_nil] at h3; exact h3
      | cons x xs =>
        exfalso
        rw [hp] at h5
        have hm : Ev.mainRet st ∈ pends c 0 .boot (s.stk 0) := by
          cases d with
          | nil => rw [← List.mem_reverse, hp, ← show [Ev.mainRet st] = x :: xs by simpa using h5]; simp
          | cons y ys => simp at h5
        have := pends_ann hm
        cases this

/-! ### Where a message is -/

theorem step_new_msg {x : Action} (h : step c s x = some s') : ∃ new, s'.log = new ++ s.log ∧ ∀ t m, .msg t m ∈ new → new = [.msg t m] := by
  have A := fun s1 (h : s.acquire c x.tid = some s1) => (acquire_same h).2.1
  have R : (s.release c).log = s.log := by unfold State.release; split <;> rfl
  have N : ∃ new, s.log = new ++ s.log ∧ ∀ t m, LEv.msg t m ∈ new → new = [.msg t m] := ⟨[], rfl, by simp⟩
  have one : ∀ a : LEv, ∃ new, a :: s.log = new ++ s.log ∧ ∀ t m, LEv.msg t m ∈ new → new = [.msg t m] := fun a => ⟨[a], rfl, fun t m hy => by simp at hy; rw [hy]⟩
  have two : ∀ a b, ∃ new, LEv.ev a :: .ev b :: s.log = new ++ s.log ∧ ∀ t m, LEv.msg t m ∈ new → new = [.msg t m] :=
    fun a b => ⟨[.ev a, .ev b], rfl, by simp⟩
  unfold step at h
  split at h
  · cases h
  · split at h
    · cases h
    · split at h
      · unfold userStep at h
        split at h
        · split at h <;> cases h; exact one _
        · split at h <;> cases h; exact one _
        · split at h <;> cases h; exact N
        · cases h; exact one _
        · cases h; exact one _
        · split at h <;> cases h
          · exact one _
          · exact one _
          · exact N
        · cases h
      · split at h
        · rename_i fr rest hs hnu hst
          unfold frameStep at h
          split at h <;> (try split at h) <;>
            (try (simp only [Option.map_eq_some_iff] at h; obtain ⟨s1, h1, h⟩ := h; subst h; exact ⟨[], by simp [State.setStk, A s1 h1], by simp⟩)) <;>
            cases h <;> first
              | exact N
              | exact one _
              | exact two _ _
              | (simp only [State.ev, State.setStk, R]; first | exact one _ | exact N)
        · cases h

/-- There was a time when the message was the last thing. -/
theorem msg_moment (h : Reach c s) {t : Tid} {g : Msg} {newer older : List LEv} (hl : s.log = newer ++ .msg t g :: older) : ∃ s1, Reach c s1 ∧ s1.log = .msg t g :: older := by
  induction h generalizing newer with
  | init => simp [init] at hl
  | @step s0 s1 x h0 h1 ih =>
    obtain ⟨new, h2, h3⟩ := step_new_msg h1
    have hl' := hl
    rw [h2] at hl
    rcases List.append_eq_append_iff.mp hl with ⟨d, hd, he⟩ | ⟨d, hd, he⟩
    · exact ih he
    · cases d with
      | nil => exact ih (newer := []) he.symm
      | cons y d =>
        injection he with he1 he2
        subst he1
        have h4 := h3 t g (by rw [hd]; simp)
        rw [hd] at h4
        have h5 : newer = [] ∧ d = [] := by
          cases newer with
          | nil => exact ⟨rfl, by simpa using h4⟩
          | cons z zs => simp at h4
        obtain ⟨rfl, rfl⟩ := h5
        exact ⟨s1, .step h0 h1, by rw [hl']; rfl⟩

/-- At most one call of program start's is announced and not made. -/
theorem pends_boot : ∀ {l : List Frame}, Ok l → (pends c 0 .boot l).length ≤ 1
  | [], _ => Nat.zero_le _
  | fr :: r, h => by
    have ih := pends_boot h.1
    have hn : fr.loop = some .boot → pends c 0 .boot r = [] := fun hf => pends_nil h.1 (h.2.1 _ hf)
    have hov := h.2.2
    have hc : ∀ p, fr = .callCtor p → pends c 0 .boot r = [] := by
      rintro p rfl
      obtain ⟨q, r', rfl⟩ := hov
      have := pends_nil (c := c) (t := 0) (κ := .boot) h.1.1 (h.1.2.1 _ rfl)
      simpa [pends, Frame.pend] using this
    unfold pends at ih hn hc ⊢
    rw [List.filterMap_cons]
    cases fr <;> simp only [Frame.pend] <;> try exact ih
    case callCtor p => rw [List.filter_cons, hc p rfl]; split <;> simp
    case callMain => rw [List.filter_cons, hn rfl]; split <;> simp
    all_goals
      rw [List.filter_cons]
      split
      · next hk => (first | (simp [key] at hk; done) | (rename_i o _ ; cases o <;> simp [key] at hk) | (rename_i o _ _ ; cases o <;> simp [key] at hk))
      · exact ih

/-- Whenever program start announces a call, everything it announced before has been done. -/
theorem announced_done (h : Reach c s) {t : Tid} {g : Msg} {x y : Ev} (hx : g.announces c t = some x) (hk : x.boot = true) (hy : y.boot = true) {newer older : List LEv} (hl : s.log = newer ++ .msg t g :: older)
    (hin : y ∈ plain c older) : .ev y ∈ older := by
  obtain ⟨s1, h1, hl1⟩ := msg_moment h hl
  have I := h1.cinv
  have he := I.eq 0 .boot
  rw [hl1, plain_msg hx] at he
  have e1 : evs 0 .boot (x :: plain c older) = x :: evs 0 .boot (plain c older) := by simp [evs, boot_key.mp hk]
  have e2 : real (.msg t g :: older) = real older := by simp [real]
  rw [e1, e2] at he
  have hlen := pends_boot (c := c) (I.ok 0)
  have hmem : y ∈ evs 0 .boot (plain c older) := List.mem_filter.mpr ⟨hin, by simp [boot_key.mp hy]⟩
  have hsub : y ∈ evs 0 .boot (real older) := by
    generalize pends c 0 .boot (s1.stk 0) = P at he hlen
    match P, hlen with
    | [], _ => rw [← show _ = evs 0 .boot (real older) from he]; exact List.mem_cons_of_mem _ hmem
    | [p], _ =>
      simp only [List.singleton_append, List.cons.injEq] at he
      rw [← he.2]; exact hmem
  exact mem_real.mp (List.mem_filter.mp hsub).1

end Origin.LogProc
