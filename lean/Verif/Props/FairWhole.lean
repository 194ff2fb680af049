import Verif.Proof.FairWhole2
import Verif.Props.Whole
/-!
# C63: the whole program gets there

Threads, `join`, `detach`, registered functions, `exit` and `origin_main` together (`Model/Whole.lean`), on every fair schedule (`Spec/FairWhole.lean`): the
thread functions and `origin_main` do as they like; the functions origin calls come to an end.
-/

namespace Origin.Whole
open Life (Orderly Mapped Done)

variable {c : Proc.Cfg} {sig : Bool} {st : Nat → State} {act : Nat → Option Action}

theorem Reach.dead_ended {P : Life.State → Life.Action → Prop} {s : State} (R : Reach c sig P s) (h : s.p.dead = true) : Ended s.log := by
  obtain ⟨t, e, v, hg⟩ := (R.parts.2.1.ended).mp h
  exact ⟨t, e, v, (R.parts.2.2.2 _).mpr hg⟩

theorem Ended.of_proc {P : Life.State → Life.Action → Prop} {s : State} (R : Reach c sig P s) (h : Proc.Ended s.p.log) : Ended s.log :=
  R.dead_ended (R.parts.2.1.ended.mpr h)

theorem Ended.stays {P : Life.State → Life.Action → Prop} (X : IsExec c sig P st act) {n m : Nat} (hm : n ≤ m) (h : Ended (st n).log) : Ended (st m).log := by
  obtain ⟨t, e, v, h⟩ := h
  exact ⟨t, e, v, X.log_stays hm h⟩

/-- Either the process ends, or it goes on for ever, and then both parts of it run fairly. -/
theorem IsExec.split (X : IsExec c sig (Orderly sig) st act) (F : Fair c sig st act) :
    (∃ d, ∀ m, d ≤ m → Ended (st m).log) ∨
    (∀ m, (st m).p.dead = false) ∧ Life.Fair sig (fun n => (st n).l) (fun n => (act n).bind Action.life?) := by
  by_cases h : ∃ d, (st d).p.dead = true
  · obtain ⟨d, h⟩ := h
    exact .inl ⟨d, fun m hm => Ended.stays X hm ((X.reach d).dead_ended h)⟩
  · have hd : ∀ m, (st m).p.dead = false := fun m => by
      cases hm : (st m).p.dead with
      | false => rfl
      | true => exact absurd ⟨m, hm⟩ h
    exact .inr ⟨hd, F.life hd fun m => (X.reach m).noCrash⟩

/-- the lifecycle part, for the theorems about one thread -/
theorem IsExec.lifeFor (X : IsExec c sig (Orderly sig) st act) (h : Nat) :
    Life.IsExec sig (Life.OrderlyFor h sig) (fun n => (st n).l) (fun n => (act n).bind Action.life?) :=
  ⟨⟨X.life.idle, fun n y hy => ⟨⟨fun hs => (X.life.next n y hy).1.1 (Life.stray_of hs),
    (X.life.next n y hy).1.2.imp id fun hl hs => hl (Life.late_of hs)⟩, (X.life.next n y hy).2⟩⟩, X.life.start⟩

/-- A thread whose function has returned gets to the end of its `at_exit` functions. -/
theorem finishes {n m : Nat} (hok : c.Ok n m) (X : IsExec c sig (Orderly sig) st act) (F : Fair c sig st act) (B : Behaved st act)
    {i h v : Nat} (hr : act i = some (.ret h v)) :
    ∃ k, i ≤ k ∧ ((.released h ∈ (st k).p.log ∧ Life.Finished (st k).l h) ∨ Ended (st k).log) := by
  have hs := (X.next i _ hr).2
  obtain ⟨l', p', -, Q⟩ := step_parts hs
  obtain ⟨k, hk, h1 | h1⟩ := Proc.C62_thread_finishes hok (X.proc fun n => (X.reach n).noCrash) (F.proc X) B.finite B.quiet B.many
    (i := i) (t := h) (v := 0) ⟨[], Q.atRet h v rfl⟩ (by simp only [hr]; rfl)
  · refine ⟨k, hk, .inl ⟨h1, ?_⟩⟩
    have L := (X.reach k).linked (X.reach k).noCrash
    have RP := (X.reach k).parts.2.1
    obtain ⟨hst, -⟩ := RP.rinv.gone h h1
    -- the thread exists
    have hT : ∃ T, (st k).l.thr h = some T := by
      have hT : ∃ T, (st i).l.thr h = some T := by
        have hl := Q.life _ rfl
        simp only [Life.step] at hl
        split at hl
        · next T hT => exact ⟨T, hT⟩
        · cases hl
      obtain ⟨T, hT⟩ := hT
      have hlt := (X.reach i).parts.1.any.lt h T hT
      have mono : ∀ m, i ≤ m → h < (st m).l.next := by
        intro m hm
        have := (X.life.stays (Q := fun s => h < s.next) hlt fun m x _ ha hlt => by
          have h1 := (X.life.next m x ha).2
          by_cases hso : x.solo = true
          · rw [(Life.step_solo h1 hso).next]; exact hlt
          · cases x with
            | create t a tid =>
              rcases Life.create_sync h1 with ⟨t', u, e⟩ | q
              · rw [e]; exact hlt
              · rw [q.1]; exact Nat.lt_succ_of_lt hlt
            | ret t v =>
              rcases Life.ret_sync h1 with ⟨t', u, e⟩ | q
              · rw [e]; exact hlt
              · rw [q.1]; exact hlt
            | dtorsDone t =>
              rcases Life.dtorsDone_sync h1 with ⟨t', u, e⟩ | q
              · rw [e]; exact hlt
              · rw [q.1]; exact hlt
            | _ => exact absurd rfl hso) m hm
        exact this
      have := L.full h (mono k hk)
      unfold Life.clsOf at this
      cases hT : (st k).l.thr h with
      | none => rw [hT] at this; exact absurd rfl this
      | some T => exact ⟨T, rfl⟩
    obtain ⟨T, hT⟩ := hT
    have h0 : h ≠ 0 := by
      rintro rfl
      have := Q.life _ rfl
      rcases Life.ret_sync this with ⟨t', u, e⟩ | q
      · simp only [Life.step] at this
        split at this
        · split at this
          · next hc => exact hc.2.2 rfl
          · cases this
        · cases this
      · exact q.2.2.1 rfl
    refine ⟨T, hT, ?_⟩
    cases hg : T.stage with
    | born => have := L.run h h0 (by simp [Life.clsOf, hT, hg, Life.Stage.cls]); rw [hst] at this; cases this
    | body => have := L.run h h0 (by simp [Life.clsOf, hT, hg, Life.Stage.cls]); rw [hst] at this; cases this
    | dtors w => have := L.dtors h h0 (by simp [Life.clsOf, hT, hg, Life.Stage.cls]); rw [hst] at this; cases this
    | _ => trivial
  · exact ⟨k, hk, .inr (.of_proc (X.reach k) h1)⟩

/-- everything is called once a thread is past its `at_exit` functions -/
theorem allCalled_of {P : Life.State → Life.Action → Prop} {s : State} (R : Reach c sig P s) {h : Nat} (hr : .released h ∈ s.p.log) : AllCalled s.log h := by
  intro f hf
  obtain ⟨o, ho⟩ := R.parts.2.1.rinv.all h f hr ((R.parts.2.2.2 _).mp hf)
  exact ⟨o, (R.parts.2.2.2 _).mpr ho⟩

/-- **C63 (`join` gets the result; without stray wake-ups).** On every fair schedule of a well-behaved program: if thread `h`'s function returns `v` and
thread `j` calls `join(h)`, then the join returns `v`, with all of `h`'s `at_exit` functions called, `h` gone and its memory released — or the
process ends (by `exit`). -/
theorem C63_join_returns_partial {n m : Nat} (hok : c.Ok n m) (X : IsExec c sig (Orderly sig) st act) (F : Fair c sig st act) (B : Behaved st act)
    {i k j h v : Nat} (hr : act i = some (.ret h v)) (hj : act k = some (.life (.join j h))) :
    ∃ m, k < m ∧ ((.inl (.joined j h v) ∈ (st m).log ∧ AllCalled (st m).log h ∧ .inl (.exited h) ∈ (st m).log ∧ Unmapped (st m).log h ∧
      ¬ Mapped (st m).l h) ∨ Ended (st m).log) := by
  obtain ⟨a, ha, ⟨h1, h2⟩ | h1⟩ := finishes hok X F B hr
  · rcases X.split F with ⟨d, hd⟩ | ⟨-, FL⟩
    · exact ⟨max d (k + 1), by omega, .inr (hd _ (Nat.le_max_left _ _))⟩
    · obtain ⟨b, v', hb, q1, q2⟩ := Life.C61_join_returns_partial (X.lifeFor j) FL (n := k) (h := h) (by simp only [hj]; rfl) ⟨a, h2⟩
      have q1 : Life.Ev.joined j h v' ∈ (st b).l.log := q1
      refine ⟨max b (max (i + 1) a), by omega, .inl ?_⟩
      have R := X.reach (max b (max (i + 1) a))
      have RL := R.parts.1
      have hjn : .inl (.joined j h v') ∈ (st (max b (max (i + 1) a))).log :=
        X.log_stays (Nat.le_max_left _ _) (((X.reach b).parts.2.2.1 _).mpr q1)
      have hret : Life.Ev.returned h v ∈ (st (i + 1)).l.log := by
        have hl := (X.life.next i (.ret h v) (by simp only [hr]; rfl)).2
        rcases Life.ret_sync hl with ⟨t, u, e⟩ | q
        · have := Life.C23_no_use_after_free_partial ((X.reach (i + 1)).parts.1.orderlyFor u) t
          rw [e] at this
          exact absurd List.mem_cons_self this
        · rw [q.2.1]; exact List.mem_cons_self
      have hret : .inl (.returned h v) ∈ (st (max b (max (i + 1) a))).log :=
        X.log_stays (by omega) (((X.reach (i + 1)).parts.2.2.1 _).mpr hret)
      have hv : v = v' := (Life.C20_join_value_partial (RL.orderlyFor h) j v').2 ((R.parts.2.2.1 _).mp hjn) v ((R.parts.2.2.1 _).mp hret)
      subst hv
      have hrel : .released h ∈ (st (max b (max (i + 1) a))).p.log :=
        (R.parts.2.2.2 _).mp (X.log_stays (by omega) (((X.reach a).parts.2.2.2 _).mpr h1))
      obtain ⟨newer, older, hl⟩ := List.append_of_mem ((R.parts.2.2.1 _).mp hjn)
      have hex := (Life.C21_join_after_exit_partial (RL.orderlyFor h) j).2 v newer older hl
      obtain ⟨⟨u, hu⟩, hm⟩ := Life.C25_no_leak (RL.mono fun _ _ _ => trivial) (h := h) (.inl ⟨j, v, (R.parts.2.2.1 _).mp hjn⟩)
      refine ⟨hjn, allCalled_of R hrel, (R.parts.2.2.1 _).mpr ?_, ⟨u, (R.parts.2.2.1 _).mpr hu⟩, hm⟩
      rw [hl]; simp [hex]
  · exact ⟨max a (k + 1), by omega, .inr (Ended.stays X (Nat.le_max_left _ _) h1)⟩

/-- **C63 (threads exit; same restriction).** If thread `h`'s function returns, `h`'s `at_exit` functions are all called, it makes its `exit` system
call, and the kernel completes it — or the process ends. -/
theorem C63_thread_exits_partial {n m : Nat} (hok : c.Ok n m) (X : IsExec c sig (Orderly sig) st act) (F : Fair c sig st act) (B : Behaved st act)
    {i h v : Nat} (hr : act i = some (.ret h v)) :
    ∃ m, i < m ∧ ((AllCalled (st m).log h ∧ .inl (.exited h) ∈ (st m).log ∧ Done (st m).l h) ∨ Ended (st m).log) := by
  obtain ⟨a, ha, ⟨h1, h2⟩ | h1⟩ := finishes hok X F B hr
  · rcases X.split F with ⟨d, hd⟩ | ⟨-, FL⟩
    · exact ⟨max d (i + 1), by omega, .inr (hd _ (Nat.le_max_left _ _))⟩
    · have hI : ∀ n, Life.Inv (Life.only h) sig (st n).l := fun n => ((X.reach n).parts.1.orderlyFor h).inv
      obtain ⟨b, hb, q1, q2⟩ := (X.lifeFor h).toSteps.finished_exits FL (fun n => ((X.lifeFor h).reach n).inv) h2
      have R := X.reach (max b (i + 1))
      have hdone : ∀ m, b ≤ m → Done (st m).l h := by
        intro m hm
        exact X.life.stays (Q := fun s => Done s h) q1 (fun m x _ ha hD => by
          obtain ⟨T, hT, hs⟩ := hD
          obtain ⟨T', hT', hr'⟩ := Life.rank_step (hI m) hT (by rw [hs]; simp [Life.Stage.rank]) (X.life.next m x ha).2
          refine ⟨T', hT', ?_⟩
          rw [hs] at hr'
          cases hg : T'.stage <;> simp [hg, Life.Stage.rank] at hr' ⊢) m hm
      refine ⟨max b (i + 1), by omega, .inl ⟨allCalled_of R ?_, X.log_stays (Nat.le_max_left _ _) (((X.reach b).parts.2.2.1 _).mpr q2),
        hdone _ (Nat.le_max_left _ _)⟩⟩
      exact (R.parts.2.2.2 _).mp (X.log_stays (by omega) (((X.reach a).parts.2.2.2 _).mpr h1))
  · exact ⟨max a (i + 1), by omega, .inr (Ended.stays X (Nat.le_max_left _ _) h1)⟩

/-- **C63 (detached threads are released; same restriction).** If thread `h`'s function returns and some thread calls `detach(h)`, then `h`'s
memory is released — or the process ends. -/
theorem C63_detached_released_partial {n m : Nat} (hok : c.Ok n m) (X : IsExec c sig (Orderly sig) st act) (F : Fair c sig st act) (B : Behaved st act)
    {i k d h v : Nat} (hr : act i = some (.ret h v)) (hd : act k = some (.life (.detach d h))) :
    ∃ m, (AllCalled (st m).log h ∧ Unmapped (st m).log h ∧ ¬ Mapped (st m).l h) ∨ Ended (st m).log := by
  obtain ⟨a, ha, ⟨h1, h2⟩ | h1⟩ := finishes hok X F B hr
  · rcases X.split F with ⟨e, he⟩ | ⟨-, FL⟩
    · exact ⟨e, .inr (he _ (Nat.le_refl _))⟩
    · obtain ⟨b, hb, q1⟩ := Life.C61_detach_returns_partial (X.lifeFor d) FL (n := k) (h := h) (by simp only [hd]; rfl)
      have any : Life.IsExec sig Life.Any (fun n => (st n).l) (fun n => (act n).bind Action.life?) :=
        ⟨⟨X.life.idle, fun n y hy => ⟨trivial, (X.life.next n y hy).2⟩⟩, X.life.start⟩
      obtain ⟨e, ⟨u, hu⟩, q2⟩ := Life.C61_detached_released any FL q1 h2
      have R := X.reach (max e a)
      have hu' : .inl (.unmap h u) ∈ (st (max e a)).log := X.log_stays (Nat.le_max_left _ _) (((X.reach e).parts.2.2.1 _).mpr hu)
      refine ⟨max e a, .inl ⟨allCalled_of R ?_, ⟨u, hu'⟩, ?_⟩⟩
      · exact (R.parts.2.2.2 _).mp (X.log_stays (by omega) (((X.reach a).parts.2.2.2 _).mpr h1))
      · have I := R.parts.1.any
        have hu' := (R.parts.2.2.1 _).mp hu'
        obtain ⟨T, hT⟩ := I.logThr _ hu'
        exact fun hM => (Life.mapped_iff I hT).mp hM ((I.ok _ _ hT).link.um.mp ⟨u, hu'⟩)
  · exact ⟨a, .inr h1⟩

/-- **C63 (`exit` ends the process; same restriction).** Once a thread has called `exit`, the process ends, whatever the others are doing. -/
theorem C63_exit_ends_partial {n m : Nat} (hok : c.Ok n m) (X : IsExec c sig (Orderly sig) st act) (F : Fair c sig st act) (B : Behaved st act)
    {i t e : Nat} {v : Int} (h : .inr (.exitBegin t e v) ∈ (st i).log) : ∃ m, Ended (st m).log := by
  obtain ⟨m, -, hm⟩ := Proc.C62_exit_ends hok (X.proc fun n => (X.reach n).noCrash) (F.proc X) B.finite B.quiet B.many (i := i)
    (((X.reach i).parts.2.2.2 _).mp h)
  exact ⟨m, .of_proc (X.reach m) hm⟩

/-- **C63 (`origin_main`; same restriction).** `origin_main` is called, and when it returns, the process ends — or the process ends before. -/
theorem C63_main_partial {n m : Nat} (hok : c.Ok n m) (X : IsExec c sig (Orderly sig) st act) (F : Fair c sig st act) (B : Behaved st act) :
    (∃ m, .inr (.main c.args) ∈ (st m).log ∨ Ended (st m).log) ∧ ∀ i v, .inr (.mainRet v) ∈ (st i).log → ∃ m, Ended (st m).log := by
  constructor
  · obtain ⟨m, h | h⟩ := Proc.C62_main_called hok (X.proc fun n => (X.reach n).noCrash) (F.proc X) B.finite B.quiet B.many
    · exact ⟨m, .inl (((X.reach m).parts.2.2.2 _).mpr h)⟩
    · exact ⟨m, .inr (.of_proc (X.reach m) h)⟩
  · intro i v h
    obtain ⟨m, -, hm⟩ := Proc.C62_main_return_ends hok (X.proc fun n => (X.reach n).noCrash) (F.proc X) B.finite B.quiet B.many (i := i)
      (((X.reach i).parts.2.2.2 _).mp h)
    exact ⟨m, .of_proc (X.reach m) hm⟩

/-! ### Concrete infinite executions: a list of actions, then rest -/

/-- The state after the first `n` of the actions. -/
def stAt (c : Proc.Cfg) (xs : List Action) (n : Nat) : State := (run c true (init 100 1) (xs.take n)).getD (init 100 1)

theorem run_append {s s' : State} (xs ys : List Action) (h : run c sig s xs = some s') : run c sig s (xs ++ ys) = run c sig s' ys := by
  induction xs generalizing s with
  | nil => simp only [run] at h; injection h with h; subst h; rfl
  | cons x xs ih =>
    simp only [run, List.cons_append, Option.bind_eq_some_iff] at h ⊢
    obtain ⟨s1, h1, h2⟩ := h
    rw [h1]
    exact ih h2

theorem run_take {xs : List Action} (h : (run c true (init 100 1) xs).isSome = true) (n : Nat) :
    run c true (init 100 1) (xs.take n) = some (stAt c xs n) := by
  have : ∀ (s : State) (ys zs : List Action), (run c true s (ys ++ zs)).isSome = true → (run c true s ys).isSome = true := by
    intro s ys zs
    induction ys generalizing s with
    | nil => intro _; rfl
    | cons y ys ih =>
      intro h
      simp only [List.cons_append, run] at h ⊢
      cases hs : step c true s y with
      | none => rw [hs] at h; cases h
      | some s1 => rw [hs] at h; exact ih s1 h
  have := this (init 100 1) (xs.take n) (xs.drop n) (by rw [List.take_append_drop]; exact h)
  obtain ⟨s, hs⟩ := Option.isSome_iff_exists.mp this
  simp [stAt, hs]

theorem exec_of {P : Life.State → Life.Action → Prop} {xs : List Action} (h : (run c true (init 100 1) xs).isSome = true)
    (hp : ∀ n x y, xs[n]? = some x → x.life? = some y → P (stAt c xs n).l y) : IsExec c true P (stAt c xs) (xs[·]?) := by
  refine ⟨⟨100, 1, by decide, rfl⟩, fun n hn => ?_, fun n x hx => ⟨fun y => hp n x y hx, ?_⟩⟩
  · have hle : xs.length ≤ n := by simpa using hn
    simp only [stAt]
    rw [List.take_of_length_le hle, List.take_of_length_le (by omega)]
  · have h1 := run_take h n
    have h2 := run_take h (n + 1)
    rw [List.take_add_one, hx, Option.toList_some, run_append _ _ h1] at h2
    simp only [run] at h2
    cases hs : step c true (stAt c xs n) x with
    | none => rw [hs] at h2; cases h2
    | some s1 => rw [hs] at h2; exact h2

theorem stAt_last {xs : List Action} {n : Nat} (hn : xs.length ≤ n) : stAt c xs n = (run c true (init 100 1) xs).getD (init 100 1) := by
  simp only [stAt]; rw [List.take_of_length_le hn]

/-- User code on top, and if so which function. -/
def handlerTop (p : Proc.State) (t : Nat) : Bool :=
  match p.stk t with
  | .user (.ctor _) :: _ | .user (.tdtor _) :: _ | .user (.pdtor _) :: _ | .user (.fini _) :: _ => true
  | _ => false

theorem handlerTop_of {p : Proc.State} {t : Nat} {fn : Proc.Fn} (h : Proc.Running p t fn) (hf : fn.handler) : handlerTop p t = true := by
  obtain ⟨r, h⟩ := h
  unfold handlerTop
  rw [h]
  cases fn <;> first | rfl | exact absurd hf id

def leavesB (t : Nat) : Proc.Action → Bool
  | .ret u _ | .exit u _ | .immExit u _ | .regProg u => u = t
  | _ => false

theorem leavesB_leaves {t : Nat} {x : Proc.Action} (h : leavesB t x = true) : x.Leaves t := by
  cases x <;> simp [leavesB] at h <;> subst h
  · exact .inr (.inr (.inr rfl))
  · exact .inr (.inl ⟨_, rfl⟩)
  · exact .inr (.inr (.inl ⟨_, rfl⟩))
  · exact .inl ⟨_, rfl⟩

/-- User code is well behaved in a list of actions, without `.fini_array` functions, at whose end no handler is running. -/
theorem behaved_of {P : Life.State → Life.Action → Prop} {xs : List Action} (X : IsExec c true P (stAt c xs) (xs[·]?)) {N : Nat}
    (hN : ((run c true (init 100 1) xs).getD (init 100 1)).p.nextT ≤ N)
    (h1 : ∀ n : Fin xs.length, ∀ t : Fin N, handlerTop (stAt c xs n).p t = true →
      ∃ m : Fin xs.length, n ≤ m ∧ ((xs[m.val]?.bind Action.proc?).any (leavesB t)) = true)
    (h2 : ∀ t : Fin N, handlerTop ((run c true (init 100 1) xs).getD (init 100 1)).p t = false)
    (h3 : ∀ n : Fin xs.length, ∀ t : Fin N, (match (stAt c xs n).p.stk t with | .user (.fini _) :: _ => false | _ => true) = true) :
    Behaved (stAt c xs) (xs[·]?) := by
  have grow : ∀ {n m}, n ≤ m → (stAt c xs n).p.nextT ≤ (stAt c xs m).p.nextT ∧ (stAt c xs n).p.nextF ≤ (stAt c xs m).p.nextF := by
    intro n m hm
    induction hm with
    | refl => exact ⟨Nat.le_refl _, Nat.le_refl _⟩
    | @step k _ ih =>
      refine ⟨Nat.le_trans ih.1 ?_, Nat.le_trans ih.2 ?_⟩ <;>
      · cases hx : xs[k]? with
        | none => rw [X.idle k hx]; exact Nat.le_refl _
        | some x =>
          obtain ⟨l', p', h2, Q⟩ := step_parts (X.next k x hx).2
          rw [h2]
          have mono : (stAt c xs k).p.nextT ≤ p'.nextT ∧ (stAt c xs k).p.nextF ≤ p'.nextF := by
            cases hy : x.proc? with
            | none => rw [Q.noProc hy]; exact ⟨Nat.le_refl _, Nat.le_refl _⟩
            | some y =>
              have tr := (Proc.step_tr (Q.proc y hy)).2
              generalize (stAt c xs k).p = p at tr
              cases tr <;> simp [Proc.State.ev, Proc.State.setStk, Proc.State.setTd, Proc.State.beginExit]
              case regLock ha => simp [Proc.acquire_fields ha]
              case exitLock ha => simp [Proc.acquire_fields ha]
          obtain ⟨-, ⟨-, e, -⟩ | ⟨-, -, e, -⟩⟩ := next_cases (s := stAt c xs k) l' p' <;> rw [e] <;> first | exact mono.1 | exact mono.2 | exact Nat.le_refl _
  have nextT : ∀ n, (stAt c xs n).p.nextT ≤ N := fun n => by
    have := (grow (Nat.le_max_left n xs.length)).1
    rw [stAt_last (Nat.le_max_right n xs.length)] at this
    exact Nat.le_trans this hN
  have small : ∀ n t, (stAt c xs n).p.stk t ≠ [] → t < N := fun n t h => by
    rcases Nat.lt_or_ge t N with h' | h'
    · exact h'
    · exact absurd ((X.reach n).parts.2.1.sinv.new t (Nat.le_trans (nextT n) h')) h
  refine ⟨fun n t fn hr hf => ?_, fun n t p hr => ?_, ⟨((run c true (init 100 1) xs).getD (init 100 1)).p.nextF, fun n f hf => ?_⟩⟩
  · have hr : Proc.Running (stAt c xs n).p t fn := hr
    have ht : t < N := by obtain ⟨r, hr⟩ := hr; exact small n t (by rw [hr]; simp)
    have hh := handlerTop_of hr hf
    by_cases hn : n < xs.length
    · obtain ⟨m, hm, hl⟩ := h1 ⟨n, hn⟩ ⟨t, ht⟩ hh
      rw [Option.any_eq_true] at hl
      obtain ⟨x, hx, hl⟩ := hl
      exact ⟨m, hm, .inr ⟨x, hx, leavesB_leaves hl⟩⟩
    · rw [stAt_last (by omega)] at hh
      rw [h2 ⟨t, ht⟩] at hh; cases hh
  · exfalso
    obtain ⟨r, hr⟩ := hr
    have hr : (stAt c xs n).p.stk t = .user (.fini p) :: r := hr
    have ht : t < N := small n t (by rw [hr]; simp)
    by_cases hn : n < xs.length
    · have := h3 ⟨n, hn⟩ ⟨t, ht⟩
      simp [hr] at this
    · rw [stAt_last (by omega)] at hr
      have := h2 ⟨t, ht⟩
      simp [handlerTop, hr] at this
  · have hf : Proc.Regd (stAt c xs n).p.log f := hf
    have R := (X.reach n).parts.2.1
    have : f < (stAt c xs n).p.nextF := by
      rcases hf with hf | ⟨t, ht⟩
      · exact R.pinv.fresh f hf
      · exact R.tinv.fresh t f ht
    refine Nat.lt_of_lt_of_le this ?_
    have := (grow (Nat.le_max_left n xs.length)).2
    rwa [stAt_last (Nat.le_max_right n xs.length)] at this

/-- A list of actions that comes to rest is fair. -/
theorem fair_of {P : Life.State → Life.Action → Prop} {xs : List Action} (X : IsExec c true P (stAt c xs) (xs[·]?))
    (h1 : Life.quiet ((run c true (init 100 1) xs).getD (init 100 1)).l none = true)
    (h2 : ∀ t, t < ((run c true (init 100 1) xs).getD (init 100 1)).p.nextT →
      userTop ((run c true (init 100 1) xs).getD (init 100 1)).p t = true ∨ ((run c true (init 100 1) xs).getD (init 100 1)).p.stk t = []) :
    Fair c true (stAt c xs) (xs[·]?) := by
  have R := X.reach xs.length
  rw [stAt_last (Nat.le_refl _)] at R
  have last : ∀ n, stAt c xs (max n xs.length) = (run c true (init 100 1) xs).getD (init 100 1) := fun n => stAt_last (Nat.le_max_right _ _)
  generalize (run c true (init 100 1) xs).getD (init 100 1) = s at *
  have I : Life.Inv (fun _ => true) true s.l := R.parts.1.any
  have noStep : ∀ t, Proc.step c s.p (.step t) = none := by
    intro t
    unfold Proc.step
    split
    · rfl
    · simp only [Proc.Action.tid]
      by_cases ht : t < s.p.nextT
      · rcases h2 t ht with h | h
        · unfold userTop at h
          split at h
          · next hs => rw [hs]; rfl
          · cases h
        · rw [h]
      · rw [R.parts.2.1.sinv.new t (Nat.le_of_not_lt ht)]
  refine ⟨fun t n => ⟨_, Nat.le_max_left n xs.length, .inr ?_⟩, fun t n => ⟨_, Nat.le_max_left n xs.length, .inr fun w => ?_⟩,
    fun t n => ⟨_, Nat.le_max_left n xs.length, .inr (.inr ⟨?_, ?_⟩)⟩⟩
  · rw [last]; simp [step, Life.quiet_step I h1 t]
  · rw [last]; simp [step, Life.quiet_wake I h1 t w]
  · rw [last]; simp [step, noStep]
  · rw [last]; simp [step, noStep]

/-- Main gets to `origin_main` and creates threads 1 and 2.  Thread 1 registers two functions, and main joins it; it returns 5 and calls its functions
(the first registers a third).  Meanwhile main, asleep in `join`, is interrupted; thread 2 is detached by thread 1's function, returns 9 and frees itself.
Main gets 5 and goes on for ever. -/
def wholeRun : List Action :=
  [ .proc (.step 0), .proc (.step 0), .proc (.ret 0 0), .proc (.step 0), .proc (.ret 0 0), .proc (.step 0), .create 0 200 2, .life (.step 1),
    .create 0 300 3, .life (.step 2), .proc (.regThr 1), .proc (.regThr 1), .life (.join 0 1), .life (.step 0), .life (.step 0), .ret 1 5, .proc (.step 1), .life (.detach 1 2), .life (.step 1),
    .proc (.regThr 1), .proc (.ret 1 0), .life (.intr 0), .proc (.step 1), .proc (.ret 1 0), .proc (.step 1), .proc (.ret 1 0), .release 1,
    .ret 2 9, .release 2, .life (.step 2), .life (.step 2), .life (.step 2), .life (.step 2), .life (.step 2), .life (.step 2), .life (.step 2), .life (.step 2),
    .life (.step 0), .life (.step 0), .life (.step 1), .life (.step 1), .life (.step 1), .life (.step 1), .life (.wake 1 (some 0)),
    .life (.step 0), .life (.step 0), .life (.step 0), .life (.step 0) ]

set_option maxRecDepth 8000 in
/-- All the hypotheses are met. -/
example : IsExec Proc.demo true (Orderly true) (stAt Proc.demo wholeRun) (wholeRun[·]?) ∧ Fair Proc.demo true (stAt Proc.demo wholeRun) (wholeRun[·]?) ∧
    Behaved (stAt Proc.demo wholeRun) (wholeRun[·]?) ∧ wholeRun[15]? = some (.ret 1 5) ∧ wholeRun[12]? = some (.life (.join 0 1)) ∧
    wholeRun[27]? = some (.ret 2 9) ∧ wholeRun[17]? = some (.life (.detach 1 2)) ∧
    (∃ m, .inl (.joined 0 1 5) ∈ (stAt Proc.demo wholeRun m).log) ∧ (∃ m, Unmapped (stAt Proc.demo wholeRun m).log 2) ∧
    ∀ m, ¬ Ended (stAt Proc.demo wholeRun m).log := by
  have hs : (run Proc.demo true (init 100 1) wholeRun).isSome = true := by decide
  have chk : ∀ n : Fin wholeRun.length, (match wholeRun[n.val]?.bind Action.life? with
      | some y => decide (¬ Life.Stray (stAt Proc.demo wholeRun n).l y) | none => true) = true := by decide
  have X : IsExec Proc.demo true (Orderly true) (stAt Proc.demo wholeRun) (wholeRun[·]?) := exec_of hs fun n x y hx hy => by
    have hn : n < wholeRun.length := (List.getElem?_eq_some_iff.mp hx).1
    have := chk ⟨n, hn⟩
    simp only [hx, Option.bind_some, hy, decide_eq_true_eq] at this
    exact ⟨this, .inl rfl⟩
  have F : Fair Proc.demo true (stAt Proc.demo wholeRun) (wholeRun[·]?) := fair_of X (by decide) (by decide)
  have B : Behaved (stAt Proc.demo wholeRun) (wholeRun[·]?) := behaved_of X (N := 3) (by decide) (by decide) (by decide) (by decide)
  have noEnd : ∀ m, ¬ Ended (stAt Proc.demo wholeRun m).log := by
    rintro m ⟨t, e, v, h⟩
    have h := X.log_stays (Nat.le_max_left m wholeRun.length) h
    have R := X.reach (max m wholeRun.length)
    have hd := R.parts.2.1.ended.mpr ⟨t, e, v, (R.parts.2.2.2 _).mp h⟩
    rw [stAt_last (Nat.le_max_right _ _)] at hd
    revert hd
    decide
  refine ⟨X, F, B, rfl, rfl, rfl, rfl, ?_, ?_, noEnd⟩
  · obtain ⟨m, -, ⟨h, -⟩ | h⟩ := C63_join_returns_partial (n := 2) (m := 2) Proc.demo_ok X F B (i := 15) (k := 12) (j := 0) (h := 1) (v := 5) rfl rfl
    · exact ⟨m, h⟩
    · exact absurd h (noEnd m)
  · obtain ⟨m, ⟨-, h, -⟩ | h⟩ := C63_detached_released_partial (n := 2) (m := 2) Proc.demo_ok X F B (i := 27) (k := 17) (d := 1) (h := 2) (v := 9) rfl rfl
    · exact ⟨m, h⟩
    · exact absurd h (noEnd m)

/-- As `strayRun` of `Props/Whole.lean`, with thread 2's function returning 7 after its memory is gone. -/
def strayWhole : List Action :=
  [ .proc (.step 0), .proc (.step 0), .proc (.ret 0 0), .proc (.step 0), .proc (.ret 0 0), .proc (.step 0), .create 0 200 2, .life (.step 1), .ret 1 5,
    .release 1, .life (.step 1), .life (.step 1), .life (.step 1), .life (.step 1), .life (.join 0 1), .life (.step 0), .life (.step 0), .life (.step 0),
    .life (.step 0), .life (.step 0), .create 0 200 3, .life (.step 2), .life (.join 0 2), .life (.step 0), .life (.step 0),
    .life (.wake 1 (some 0)), .life (.step 0), .life (.step 0), .life (.step 0), .life (.step 0), .ret 2 7 ]

/-- **C63 is false** with stray wake-ups: on a fair schedule of a well-behaved program, main joins thread 2 and thread 2's function returns 7, but no
`join` returns 7, and nobody calls `exit`: the process crashes. -/
theorem C63_false : ∃ st act, IsExec Proc.demo true (fun _ _ => True) st act ∧ Fair Proc.demo true st act ∧ Behaved st act ∧
    (∃ i, act i = some (.ret 2 7)) ∧ (∃ k, act k = some (.life (.join 0 2))) ∧
    (∀ m, .inl (.joined 0 2 7) ∉ (st m).log ∧ ¬ Ended (st m).log) ∧ ∃ m, (st m).crashed = true := by
  have hs : (run Proc.demo true (init 100 1) strayWhole).isSome = true := by decide
  have X : IsExec Proc.demo true (fun _ _ => True) (stAt Proc.demo strayWhole) (strayWhole[·]?) := exec_of hs fun _ _ _ _ _ => trivial
  have hcr : ((run Proc.demo true (init 100 1) strayWhole).getD (init 100 1)).crashed = true := by decide
  refine ⟨_, _, X, ?_, behaved_of X (N := 3) (by decide) (by decide) (by decide) (by decide), ⟨30, rfl⟩, ⟨22, rfl⟩, fun m => ?_,
    strayWhole.length, by rw [stAt_last (Nat.le_refl _)]; exact hcr⟩
  · have no : ∀ n x, step Proc.demo true (stAt Proc.demo strayWhole (max n strayWhole.length)) x = none := by
      intro n x
      rw [stAt_last (Nat.le_max_right _ _)]
      simp [step, hcr]
    exact ⟨fun t n => ⟨_, Nat.le_max_left n strayWhole.length, .inr (no n _)⟩, fun t n => ⟨_, Nat.le_max_left n strayWhole.length, .inr fun _ => no n _⟩,
      fun t n => ⟨_, Nat.le_max_left n strayWhole.length, .inr (.inr ⟨no n _, no n _⟩)⟩⟩
  · have R := X.reach (max m strayWhole.length)
    constructor
    · intro h
      have h := X.log_stays (Nat.le_max_left m strayWhole.length) h
      rw [stAt_last (Nat.le_max_right _ _)] at h
      revert h
      decide
    · rintro ⟨t, e, v, h⟩
      have h := X.log_stays (Nat.le_max_left m strayWhole.length) h
      have hd := R.parts.2.1.ended.mpr ⟨t, e, v, (R.parts.2.2.2 _).mp h⟩
      rw [stAt_last (Nat.le_max_right _ _)] at hd
      revert hd
      decide

end Origin.Whole
