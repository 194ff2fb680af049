import Verif.Model.ForkProc
import Verif.Proof.FairProc3
import Verif.Spec.ForkProc
/-!
# A child of a fork is a program whose other threads are never scheduled again
-/

namespace Origin.Proc

set_option linter.unusedSimpArgs false

variable {c : Cfg} {s s' : State} {st : Nat → State} {act : Nat → Option Action}

/-- `s` without the threads in `V`. -/
def prune (V : Tid → Prop) [DecidablePred V] (s : State) : State := { s with stk := fun x => if V x then [] else s.stk x }

section
variable {V : Tid → Prop} [DecidablePred V]

theorem prune_setStk {t : Tid} (ht : ¬ V t) (l : List Frame) : (prune V s).setStk t l = prune V (s.setStk t l) := by
  simp only [prune, State.setStk]
  congr 1
  funext x
  by_cases hx : x = t
  · subst hx; simp [ht]
  · simp [hx]

theorem prune_setTd (t : Tid) (l : List FnId) : (prune V s).setTd t l = prune V (s.setTd t l) := rfl
theorem prune_ev (e : Ev) : (prune V s).ev e = prune V (s.ev e) := rfl
theorem prune_release : (prune V s).release c = prune V (s.release c) := by
  unfold State.release; split <;> rfl
theorem prune_acquire (t : Tid) : (prune V s).acquire c t = (s.acquire c t).map (prune V) := by
  unfold State.acquire
  split
  · by_cases h : s.lock = none <;> simp [prune, h]
  · rfl

theorem prune_frameStep {t : Tid} (ht : ¬ V t) (rest : List Frame) (fr : Frame) :
    frameStep c (prune V s) t rest fr = (frameStep c s t rest fr).map (prune V) := by
  have up : ∀ (s : State) (d : List FnId) (n : FnId), { prune V s with dtors := d, nextF := n } = prune V { s with dtors := d, nextF := n } := fun _ _ _ => rfl
  have ud : ∀ (s : State) (d : List FnId), { prune V s with dtors := d } = prune V { s with dtors := d } := fun _ _ => rfl
  cases fr <;> simp only [frameStep, prune_release, prune_acquire, prune_setStk ht, prune_setTd, prune_ev, Option.map_none, Option.map_some]
  case init p => split <;> rfl
  case thrLoop =>
    show (match c.threadAtExit, s.tdtors t with | true, f :: fs => _ | _, _ => _) = _
    cases c.threadAtExit <;> cases s.tdtors t <;> rfl
  case regLock => simp [Option.map_map, Function.comp_def, prune_setStk ht]
  case regPush =>
    rw [up, prune_setStk ht, prune_ev]; rfl
  case exitThr e v =>
    show (match c.threadAtExit, s.tdtors t with | true, f :: fs => _ | _, _ => _) = _
    cases c.threadAtExit <;> cases s.tdtors t <;> rfl
  case exitLock e v =>
    split
    · simp [Option.map_map, Function.comp_def, prune_setStk ht]
    · rfl
  case exitPop e v =>
    show (match s.dtors with | f :: fs => _ | [] => _) = _
    cases s.dtors with
    | nil => rfl
    | cons f fs => simp only [ud, prune_setStk ht, prune_ev]; rfl
  case exitFini e v p => split <;> rfl
  case exitImm e v => rfl

theorem prune_beginExit {t : Tid} (ht : ¬ V t) (rest : List Frame) (v : Int) : (prune V s).beginExit t rest v = prune V (s.beginExit t rest v) := by
  show ((prune V { s with nextE := s.nextE + 1 }).setStk t (.exitThr s.nextE v :: rest)).ev (.exitBegin t s.nextE v) = _
  rw [prune_setStk ht]; rfl

theorem prune_userStep {t : Tid} (ht : ¬ V t) (hn : ¬ V s.nextT) (fn : Fn) (rest : List Frame) (x : Action) :
    userStep c (prune V s) t fn rest x = (userStep c s t fn rest x).map (prune V) := by
  cases x <;> simp only [userStep, prune_beginExit ht, prune_ev, prune_setStk ht, Option.map_none, Option.map_some]
  case spawn =>
    split
    · show some (((prune V { s with nextT := s.nextT + 1 }).setStk s.nextT [.user .start]).ev (.spawned s.nextT)) = _
      rw [prune_setStk hn]; rfl
    · rfl
  case regThr => split <;> rfl
  case regProg => split <;> rfl
  case immExit v =>
    show some (((prune V { s with nextE := s.nextE + 1 }).setStk t (.exitImm s.nextE v :: .user fn :: rest)).ev (.immBegin t s.nextE v)) = _
    rw [prune_setStk ht]; rfl
  case ret v => split <;> rfl

theorem prune_step {x : Action} (hn : ¬ V s.nextT) (h : step c (prune V s) x = some s') :
    ¬ V x.tid ∧ ∃ s0, step c s x = some s0 ∧ s' = prune V s0 := by
  by_cases hx : V x.tid
  · simp [step, prune, hx] at h
  refine ⟨hx, ?_⟩
  unfold step at h ⊢
  have hk : (prune V s).stk x.tid = s.stk x.tid := by simp [prune, hx]
  rw [hk] at h
  split at h
  · cases h
  · next hd =>
    rw [if_neg (show ¬ s.dead = true from hd)]
    split at h
    · cases h
    · next fn rest hs =>
      rw [prune_userStep hx hn, Option.map_eq_some_iff] at h
      obtain ⟨s0, h1, h2⟩ := h
      exact ⟨s0, h1, h2.symm⟩
    · next fr rest hu hs =>
      split at h
      · rw [prune_frameStep hx, Option.map_eq_some_iff] at h
        obtain ⟨s0, h1, h2⟩ := h
        exact ⟨s0, by rw [if_pos (by assumption)]; exact h1, h2.symm⟩
      · cases h

end

theorem Tr.nextT_le (h : Tr c s s') : s.nextT ≤ s'.nextT := by
  cases h <;> simp [State.ev, State.setStk, State.setTd, State.beginExit]
  case regLock ha => simp [acquire_fields ha]
  case exitLock ha => simp [acquire_fields ha]

/-- What a process made by forks is: some program that has not forked, without some of its threads. -/
structure Sim (c : Cfg) (s s0 : State) (V : Tid → Prop) : Prop where
  reach : Reach c s0
  old : ∀ x, V x → x < s0.nextT
  gone : ∀ x, V x → s.stk x = []
  kept : ∀ x, ¬ V x → s.stk x = s0.stk x
  rest : { s with stk := s0.stk } = s0

theorem Sim.eq {V : Tid → Prop} [DecidablePred V] {s0 : State} (h : Sim c s s0 V) : s = prune V s0 := by
  have h1 : prune V s0 = { s0 with stk := s.stk } := by
    unfold prune; congr 1; funext x
    by_cases hx : V x
    · simp [hx, h.gone x hx]
    · simp [hx, h.kept x hx]
  rw [h1, ← h.rest]

theorem Sim.of {V : Tid → Prop} [DecidablePred V] {s0 : State} (h : Reach c s0) (h1 : ∀ x, V x → x < s0.nextT) (h2 : s = prune V s0) : Sim c s s0 V := by
  subst h2
  exact ⟨h, h1, fun x hx => by simp [prune, hx], fun x hx => by simp [prune, hx], rfl⟩

theorem Sim.step {V : Tid → Prop} {s0 : State} (h : Sim c s s0 V) {x : Action} (hs : step c s x = some s') :
    ¬ V x.tid ∧ ∃ s0', step c s0 x = some s0' ∧ Sim c s' s0' V := by
  have : DecidablePred V := fun _ => Classical.propDecidable _
  rw [h.eq] at hs
  obtain ⟨h1, s0', h2, h3⟩ := prune_step (fun hv => Nat.lt_irrefl _ (h.old _ hv)) hs
  exact ⟨h1, s0', h2, .of (.step h.reach h2) (fun x hx => Nat.lt_of_lt_of_le (h.old x hx) (step_tr h2).2.nextT_le) h3⟩

theorem forkChild_some {t : Tid} (h : forkChild s t = some s') :
    s.dead = false ∧ (∃ fn rest, s.stk t = .user fn :: rest) ∧ s' = { s with stk := fun x => if x = t then s.stk t else [] } := by
  unfold forkChild at h
  split at h
  · cases h
  · next hd =>
    split at h
    · next fn rest hs =>
      injection h with h
      exact ⟨by simpa using hd, ⟨fn, rest, hs⟩, by rw [← h, hs]⟩
    · cases h

theorem Sim.fork {V : Tid → Prop} {s0 : State} (h : Sim c s s0 V) {t : Tid} (hf : forkChild s t = some s') :
    Sim c s' s0 (fun x => V x ∨ (x ≠ t ∧ x < s0.nextT)) := by
  obtain ⟨hd, ⟨fn, rest, hs⟩, rfl⟩ := forkChild_some hf
  have htV : ¬ V t := fun hv => by rw [h.gone t hv] at hs; cases hs
  refine ⟨h.reach, fun x hx => hx.elim (h.old x) (·.2), fun x hx => ?_, fun x hx => ?_, h.rest⟩
  · have : x ≠ t := by rintro rfl; exact hx.elim htV (fun h => h.1 rfl)
    simp [this]
  · obtain ⟨h1, h2⟩ := not_or.mp hx
    by_cases hxt : x = t
    · subst hxt; simp [h.kept x h1]
    · have : s0.nextT ≤ x := Nat.le_of_not_lt fun hl => h2 ⟨hxt, hl⟩
      simp [hxt, h.reach.sinv.new x this]

theorem ReachF.sim (h : ReachF c s) : ∃ s0 V, Sim c s s0 V := by
  induction h with
  | init => exact ⟨Proc.init, fun _ => False, .init, nofun, nofun, fun _ _ => rfl, rfl⟩
  | step h hs ih =>
    obtain ⟨s0, V, S⟩ := ih
    obtain ⟨-, s0', -, S'⟩ := S.step hs
    exact ⟨s0', V, S'⟩
  | fork h hf ih =>
    obtain ⟨s0, V, S⟩ := ih
    exact ⟨s0, _, S.fork hf⟩

section
variable {V : Tid → Prop} {s0 : State}

theorem Sim.log (h : Sim c s s0 V) : s.log = s0.log := by rw [← h.rest]
theorem Sim.lock (h : Sim c s s0 V) : s.lock = s0.lock := by rw [← h.rest]
theorem Sim.nextT (h : Sim c s s0 V) : s.nextT = s0.nextT := by rw [← h.rest]
theorem Sim.dead (h : Sim c s s0 V) : s.dead = s0.dead := by rw [← h.rest]

theorem Sim.mem (h : Sim c s s0 V) {t : Tid} {fr : Frame} (hm : fr ∈ s.stk t) : ¬ V t ∧ fr ∈ s0.stk t := by
  by_cases hv : V t
  · rw [h.gone t hv] at hm; cases hm
  · exact ⟨hv, by rw [← h.kept t hv]; exact hm⟩

theorem Sim.sinv (h : Sim c s s0 V) : SInv c s := by
  have I := h.reach.sinv
  refine ⟨fun t => ?_, fun t ht => ?_, by rw [h.nextT]; exact I.pos, by rw [h.nextT]; exact I.single, fun t fr hm hb => ?_⟩
  · by_cases hv : V t
    · rw [h.gone t hv]; trivial
    · rw [h.kept t hv]; exact I.shape t
  · by_cases hv : V t
    · exact h.gone t hv
    · rw [h.kept t hv]; exact I.new t (by rw [← h.nextT]; exact ht)
  · exact I.boot t fr (h.mem hm).2 hb

/-- The lock of a process made by forks is in order if no lost thread holds it. -/
theorem Sim.linv (h : Sim c s s0 V) (hl : c.thread = true → c.programAtExit = true → ∀ u, s.lock = some u → ¬ V u) : LInv c s := by
  have I := h.reach.linv
  refine ⟨fun t fr hm => I.pat t fr (h.mem hm).2, fun hc t fr hm hcr => ?_, fun hc t ht => ?_, fun hc hp t e he => ?_⟩
  · rw [h.lock, h.log]; exact I.lk1 hc t fr (h.mem hm).2 hcr
  · have h2 := I.lk2 hc t (by rw [← h.lock]; exact ht)
    rw [h.log]
    refine h2.imp (fun ⟨fr, hm, hcr⟩ => ⟨fr, ?_, hcr⟩) id
    rw [h.kept t (hl hc (I.pat t fr hm (.inl hcr)) t ht)]; exact hm
  · rw [h.lock]; exact I.lk3 hc hp t e (by rw [← h.log]; exact he)

end

/-! ### what the functions origin calls are called from -/

/-- Under a function that is running is the loop that called it. -/
def Nest : List Frame → Prop
  | [] => True
  | fr :: l => Nest l ∧ match fr with
    | .user (.tdtor _) => (∃ r, l = .thrLoop :: r) ∨ ∃ e v r, l = .exitThr e v :: r
    | .user (.pdtor _) => ∃ e v r, l = .exitLock e v :: r
    | .user (.fini p) => ∃ e v r, l = .exitFini e v p :: r
    | .user (.ctor _) => ∃ p r, l = .init p :: r
    | _ => True

theorem nest_step {c : Cfg} {s s' : State} (ih : ∀ t, Nest (s.stk t)) (T : Tr c s s') : ∀ t, Nest (s'.stk t) := by
    have key : ∀ {t : Tid} {l : List Frame}, Nest l → (s'.stk = fun x => if x = t then l else s.stk x) → ∀ t, Nest (s'.stk t) := by
      intro t l hl h t'
      rw [h]; simp only
      split
      · exact hl
      · exact ih t'
    cases T with
    | spawn t fn rest hs _ => exact key (t := s.nextT) (l := [.user .start]) (by simp [Nest]) rfl
    | regThr t fn rest hs _ => exact ih
    | group t rest e v hs _ => exact ih
    | regLock t rest s1 hs ha =>
      have I := ih t; rw [hs] at I
      exact key (t := t) (l := .regPush :: rest) (by simp [Nest] at I ⊢; exact I) (by simp [State.setStk, acquire_fields ha])
    | exitLock t rest e v s1 hs _ ha =>
      have I := ih t; rw [hs] at I
      exact key (t := t) (l := .exitPop e v :: rest) (by simp [Nest] at I ⊢; exact I) (by simp [State.setStk, acquire_fields ha])
    | regUnlock t rest f hs =>
      have I := ih t; rw [hs] at I
      exact key (t := t) (l := rest) (by simp [Nest] at I ⊢; exact I) (by simp [State.setStk, State.ev])
    | exitUnlock t rest e v f hs =>
      have I := ih t; rw [hs] at I
      exact key (t := t) (l := .exitCall e v f :: rest) (by simp [Nest] at I ⊢; exact I) (by simp [State.setStk])
    | regProg t fn rest hs _ =>
      have I := ih t; rw [hs] at I
      exact key (t := t) (by simp [Nest] at I ⊢; exact I) rfl
    | exit t fn rest v hs =>
      have I := ih t; rw [hs] at I
      exact key (t := t) (by simp [Nest] at I ⊢; exact I) rfl
    | imm t fn rest v hs =>
      have I := ih t; rw [hs] at I
      exact key (t := t) (by simp [Nest] at I ⊢; exact I) rfl
    | retMain t rest v hs =>
      have I := ih t; rw [hs] at I
      exact key (t := t) (by simp [Nest] at I ⊢; exact I) rfl
    | retStart t rest hs =>
      have I := ih t; rw [hs] at I
      exact key (t := t) (by simp [Nest] at I ⊢; exact I) rfl
    | ret t fn rest hs _ _ =>
      have I := ih t; rw [hs] at I
      exact key (t := t) I.1 rfl
    | entry t rest hs =>
      have I := ih t; rw [hs] at I
      exact key (t := t) (by simp [Nest] at I ⊢; exact I) rfl
    | initEnd t rest hs =>
      have I := ih t; rw [hs] at I
      exact key (t := t) (by simp [Nest] at I ⊢; exact I) rfl
    | init t p rest hs _ =>
      have I := ih t; rw [hs] at I
      exact key (t := t) (by simp [Nest] at I ⊢; exact I) rfl
    | thrCall t rest f fs hs _ _ =>
      have I := ih t; rw [hs] at I
      exact key (t := t) (by simp [Nest] at I ⊢; exact I) rfl
    | thrEnd t rest hs _ =>
      have I := ih t; rw [hs] at I
      exact key (t := t) (by simp [Nest]) rfl
    | regPush t rest hs =>
      have I := ih t; rw [hs] at I
      exact key (t := t) (by simp [Nest] at I ⊢; exact I) rfl
    | exitThrCall t rest e v f fs hs _ _ =>
      have I := ih t; rw [hs] at I
      exact key (t := t) (by simp [Nest] at I ⊢; exact I) rfl
    | exitThr t rest e v hs _ =>
      have I := ih t; rw [hs] at I
      exact key (t := t) (by simp [Nest] at I ⊢; exact I) rfl
    | exitNoLock t rest e v hs _ =>
      have I := ih t; rw [hs] at I
      exact key (t := t) (by simp [Nest] at I ⊢; exact I) rfl
    | exitPop t rest e v f fs hs _ =>
      have I := ih t; rw [hs] at I
      exact key (t := t) (by simp [Nest] at I ⊢; exact I) rfl
    | exitPopEnd t rest e v hs _ =>
      have I := ih t; rw [hs] at I
      exact key (t := t) (by simp [Nest] at I ⊢; exact I) rfl
    | exitCall t rest e v f hs =>
      have I := ih t; rw [hs] at I
      exact key (t := t) (by simp [Nest] at I ⊢; exact I) rfl
    | exitFiniEnd t rest e v hs =>
      have I := ih t; rw [hs] at I
      exact key (t := t) (by simp [Nest] at I ⊢; exact I) rfl
    | exitFini t rest e v p hs _ =>
      have I := ih t; rw [hs] at I
      exact key (t := t) (by simp [Nest] at I ⊢; exact I) rfl

theorem Reach.nest (h : Reach c s) : ∀ t, Nest (s.stk t) := by
  induction h with
  | init => intro t; simp only [Proc.init]; split <;> simp [Nest]
  | step hr hs ih => exact nest_step ih (step_tr hs).2

/-- A thread that is running a `.fini_array` function has finished the program's functions. -/
theorem fini_running_of {m : Nat} {K : Exit → Prop} (E : EInv c m K s) {t : Tid} (N : Nest (s.stk t)) {p : Nat} (hr : Running s t (.fini p)) :
    ∃ e, Ev.pDone t e ∈ s.log ∧ ∃ w, FiniStk c (s.stk t) w := by
  obtain ⟨rest, hs⟩ := hr
  rw [hs] at N
  obtain ⟨-, e, v, r, rfl⟩ := N
  obtain ⟨ts, ps, k, hk, hp, hc⟩ := E.form t (.exitFini e v p) (by rw [hs]; simp)
  refine ⟨e, ?_, ?_⟩
  · have : Ev.pDone t e ∈ course e s.log := by rw [hc]; simp [finiPart]
    simp [course] at this
    exact this.1
  · rw [hs, hp]; exact ⟨_, .fn _ _ _ _ _⟩

/-- What a thread in the middle of it has on its stack. -/
def Kind.mid (c : Cfg) (k : Kind) (l : List Frame) : Prop :=
  match k with
  | .exit => insts l ≠ []
  | .thr => .thrLoop ∈ l
  | .boot => ∃ p j, .init p ∈ l ∧ p + j * c.ws = c.initEnd

/-- User code that is called by what a thread is in the middle of, at any depth. -/
theorem busy_of_user {m : Nat} {K : Exit → Prop} (E : EInv c m K s) {t : Tid} (N : Nest (s.stk t)) (Sh : Shape (s.stk t)) (k : Kind)
    (hm : k.mid c (s.stk t)) (hr : ∃ fn rest, s.stk t = .user fn :: rest) : (∃ w, Busy c k (s.stk t) w) ∨ ∃ w, FiniStk c (s.stk t) w := by
  obtain ⟨fn, rest, hs⟩ := hr
  have N' := N
  rw [hs] at N hm Sh
  have ins1 : ∀ fr : Frame, fr.inst = none → insts [fr] = [] := fun fr h => by unfold insts; rw [List.filterMap_cons_none h]; rfl
  have one : ∀ fr : Frame, fr.bottom = true → k.mid c (.user fn :: fr :: []) → (k = .thr ∧ fr = .thrLoop) ∨ k = .boot := by
    intro fr hb hm
    cases k with
    | exit =>
      have : fr.inst = none := by have := bottom_inst hb; simpa using this
      exact absurd (by unfold insts; rw [List.filterMap_cons_none rfl]; exact ins1 fr this) hm
    | thr => simp [Kind.mid] at hm; exact .inl ⟨rfl, hm.symm⟩
    | boot => exact .inr rfl
  cases fn with
  | main =>
    exfalso
    rw [Sh.bottom_nil rfl] at hm
    cases k with
    | exit => exact hm (ins1 _ rfl)
    | thr => simp [Kind.mid] at hm
    | boot => simp [Kind.mid] at hm
  | start =>
    exfalso
    rw [Sh.bottom_nil rfl] at hm
    cases k with
    | exit => exact hm (ins1 _ rfl)
    | thr => simp [Kind.mid] at hm
    | boot => simp [Kind.mid] at hm
  | ctor p =>
    obtain ⟨-, q, r, rfl⟩ := N
    have := Sh.tail.bottom_nil rfl
    subst this
    rcases one _ rfl hm with ⟨-, h⟩ | rfl
    · cases h
    · obtain ⟨p', j, h1, h2⟩ := hm
      simp at h1; subst h1
      exact .inl ⟨_, by rw [hs]; exact .user _ _ _ _ (.init _ _ j rfl h2)⟩
  | tdtor f =>
    obtain ⟨-, ⟨r, rfl⟩ | ⟨e', v', r, rfl⟩⟩ := N
    · have := Sh.tail.bottom_nil rfl
      subst this
      rcases one _ rfl hm with ⟨rfl, -⟩ | rfl
      · exact .inl ⟨_, by rw [hs]; exact .user _ _ _ _ (.thr _ rfl)⟩
      · obtain ⟨p', j, h1, h2⟩ := hm
        simp at h1
    · exact .inl ⟨_, by rw [hs]; exact .user _ _ _ _ (.exitThr _ _ _)⟩
  | pdtor f =>
    obtain ⟨-, e', v', r, rfl⟩ := N
    exact .inl ⟨_, by rw [hs]; exact .user _ _ _ _ (.exitLock _ _ _)⟩
  | fini p =>
    obtain ⟨-, -, h2⟩ := fini_running_of E N' (p := p) ⟨rest, hs⟩
    exact .inr h2

end Origin.Proc
