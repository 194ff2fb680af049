import Verif.Spec.Signals
import Verif.Proof.Process3
/-!
# Erasing signal handlers
-/

namespace Origin.Proc

def upd (σ : Tid → List Frame) (t : Tid) (l : List Frame) : Tid → List Frame := fun x => if x = t then l else σ x

def spawnUpd (s : State) (x : Action) (σ : Tid → List Frame) : Tid → List Frame :=
  match x with
  | .spawn _ => upd σ s.nextT [.user .start]
  | _ => σ

theorem upd_upd (σ : Tid → List Frame) (t : Tid) (l l' : List Frame) : upd (upd σ t l) t l' = upd σ t l' := by
  funext x; simp only [upd]; split <;> rfl

theorem upd_self {σ : Tid → List Frame} {t : Tid} {l : List Frame} (h : σ t = l) : upd σ t l = σ := by
  funext x; simp only [upd]; split
  · next h' => rw [h', h]
  · rfl

/-- Frames of a thread's own beginning and end, which handlers do not have. -/
def Frame.own : Frame → Bool
  | .thrLoop | .user .start => true
  | _ => false

/-- What a step of origin's code does does not depend on the other threads' stacks, nor on what is far down on its own. -/
theorem frame_lift {c : Cfg} {s s' : State} {σ τ : Tid → List Frame} {t : Tid} {r T₁ T₂ : List Frame} {fr : Frame}
    (h : frameStep c { s with stk := σ } t (r ++ T₁) fr = some s') (hf : fr ≠ .thrLoop ∨ (T₁ = [] ∧ T₂ = []))
    (hσ : σ t = fr :: (r ++ T₁)) (hτ : τ t = fr :: (r ++ T₂)) :
    ∃ a, s'.stk = upd σ t (a ++ T₁) ∧ frameStep c { s with stk := τ } t (r ++ T₂) fr = some { s' with stk := upd τ t (a ++ T₂) } ∧
      (fr ≠ .thrLoop → (∀ f ∈ r, f.own = false) → ∀ f ∈ a, f.own = false) ∧ s'.nextT = s.nextT := by
  have own : ∀ {f : Frame} {p : Prop}, f.own = false → (p → (∀ g ∈ r, g.own = false) → ∀ g ∈ f :: r, g.own = false) := by
    intro f p hf _ hr g hg
    rcases List.mem_cons.mp hg with rfl | hg
    · exact hf
    · exact hr g hg
  have own2 : ∀ {f f' : Frame} {p : Prop}, f.own = false → f'.own = false →
      (p → (∀ g ∈ r, g.own = false) → ∀ g ∈ f :: f' :: r, g.own = false) := by
    intro f f' p hf hf' _ hr g hg
    rcases List.mem_cons.mp hg with rfl | hg
    · exact hf
    · rcases List.mem_cons.mp hg with rfl | hg
      · exact hf'
      · exact hr g hg
  cases fr with
  | user fn => cases h
  | entry =>
    simp only [frameStep, Option.some.injEq] at h; subst h
    exact ⟨.init c.initFirst :: r, rfl, rfl, own rfl, rfl⟩
  | init p =>
    simp only [frameStep] at h ⊢
    split at h
    · next hp =>
      simp only [Option.some.injEq] at h; subst h
      exact ⟨.user .main :: r, rfl, by rw [if_pos hp]; rfl, own rfl, rfl⟩
    · next hp =>
      simp only [Option.some.injEq] at h; subst h
      exact ⟨.user (.ctor p) :: .init (p + c.ws) :: r, rfl, by rw [if_neg hp]; rfl, own2 rfl rfl, rfl⟩
  | thrLoop =>
    rcases hf with hf | ⟨rfl, rfl⟩
    · exact absurd rfl hf
    simp only [frameStep] at h ⊢
    split at h
    · next f fs h1 h2 =>
      simp only [Option.some.injEq] at h; subst h
      exact ⟨.user (.tdtor f) :: .thrLoop :: r, rfl, rfl, fun h => absurd rfl h, rfl⟩
    · simp only [Option.some.injEq] at h; subst h
      exact ⟨[], rfl, rfl, fun h => absurd rfl h, rfl⟩
  | regLock =>
    simp only [frameStep, Option.map_eq_some_iff, State.acquire] at h ⊢
    obtain ⟨s1, h1, rfl⟩ := h
    refine ⟨.regPush :: r, ?_, ?_, own rfl, ?_⟩
    · split at h1
      · split at h1
        · simp only [Option.some.injEq] at h1; subst h1; rfl
        · cases h1
      · simp only [Option.some.injEq] at h1; subst h1; rfl
    · split at h1
      · split at h1
        · next h2 h3 => simp only [Option.some.injEq] at h1; subst h1; simp [h2, h3]; rfl
        · cases h1
      · next h2 => simp only [Option.some.injEq] at h1; subst h1; simp [h2]; rfl
    · split at h1
      · split at h1
        · simp only [Option.some.injEq] at h1; subst h1; rfl
        · cases h1
      · simp only [Option.some.injEq] at h1; subst h1; rfl
  | regPush =>
    simp only [frameStep, Option.some.injEq] at h; subst h
    exact ⟨.regUnlock s.nextF :: r, rfl, rfl, own rfl, rfl⟩
  | regUnlock f =>
    simp only [frameStep, Option.some.injEq] at h; subst h
    refine ⟨r, ?_, ?_, fun _ h => h, ?_⟩
    all_goals simp only [State.release, frameStep]; cases c.thread <;> rfl
  | exitThr e st =>
    simp only [frameStep] at h ⊢
    split at h
    · next f fs h1 h2 =>
      simp only [Option.some.injEq] at h; subst h
      exact ⟨.user (.tdtor f) :: .exitThr e st :: r, rfl, rfl, own2 rfl rfl, rfl⟩
    · simp only [Option.some.injEq] at h; subst h
      exact ⟨.exitLock e st :: r, rfl, rfl, own rfl, rfl⟩
  | exitLock e st =>
    simp only [frameStep] at h ⊢
    split at h
    · next hp =>
      rw [if_pos hp]
      simp only [Option.map_eq_some_iff, State.acquire] at h ⊢
      obtain ⟨s1, h1, rfl⟩ := h
      refine ⟨.exitPop e st :: r, ?_, ?_, own rfl, ?_⟩
      · split at h1
        · split at h1
          · simp only [Option.some.injEq] at h1; subst h1; rfl
          · cases h1
        · simp only [Option.some.injEq] at h1; subst h1; rfl
      · split at h1
        · split at h1
          · next h2 h3 => simp only [Option.some.injEq] at h1; subst h1; simp [h2, h3]; rfl
          · cases h1
        · next h2 => simp only [Option.some.injEq] at h1; subst h1; simp [h2]; rfl
      · split at h1
        · split at h1
          · simp only [Option.some.injEq] at h1; subst h1; rfl
          · cases h1
        · simp only [Option.some.injEq] at h1; subst h1; rfl
    · next hp =>
      simp only [Option.some.injEq] at h; subst h
      exact ⟨.exitFini e st c.finiFirst :: r, rfl, by rw [if_neg hp]; rfl, own rfl, rfl⟩
  | exitPop e st =>
    simp only [frameStep] at h ⊢
    split at h
    · next f fs h1 =>
      simp only [Option.some.injEq] at h; subst h
      exact ⟨.exitUnlock e st f :: r, rfl, rfl, own rfl, rfl⟩
    · next h1 =>
      simp only [Option.some.injEq] at h; subst h
      exact ⟨.exitFini e st c.finiFirst :: r, rfl, rfl, own rfl, rfl⟩
  | exitUnlock e st f =>
    simp only [frameStep, Option.some.injEq] at h; subst h
    refine ⟨.exitCall e st f :: r, ?_, ?_, own rfl, ?_⟩
    all_goals simp only [State.release, frameStep]; cases c.thread <;> rfl
  | exitCall e st f =>
    simp only [frameStep, Option.some.injEq] at h; subst h
    exact ⟨.user (.pdtor f) :: .exitLock e st :: r, rfl, rfl, own2 rfl rfl, rfl⟩
  | exitFini e st p =>
    simp only [frameStep] at h ⊢
    split at h
    · next hp =>
      simp only [Option.some.injEq] at h; subst h
      exact ⟨.exitImm e st :: r, rfl, by rw [if_pos hp]; rfl, own rfl, rfl⟩
    · next hp =>
      simp only [Option.some.injEq] at h; subst h
      exact ⟨.user (.fini (p - c.ws)) :: .exitFini e st (p - c.ws) :: r, rfl, by rw [if_neg hp]; rfl, own2 rfl rfl, rfl⟩
  | exitImm e st =>
    simp only [frameStep, Option.some.injEq] at h; subst h
    refine ⟨.exitImm e st :: r, (upd_self hσ).symm, ?_, own rfl, rfl⟩
    rw [show upd τ t (.exitImm e st :: r ++ T₂) = τ from upd_self hτ]
    rfl

/-- The same of user code, whatever function it is. -/
theorem user_lift {c : Cfg} {s s' : State} {σ τ : Tid → List Frame} {x : Action} {fn gn : Fn} {T₁ T₂ : List Frame}
    (h : userStep c { s with stk := σ } x.tid fn T₁ x = some s') (hx : ∀ t st, x ≠ .ret t st) (hσ : σ x.tid = .user fn :: T₁)
    (hτ : τ x.tid = .user gn :: T₂) :
    ∃ a, (∀ f ∈ a, f.own = false) ∧ s'.stk = spawnUpd s x (upd σ x.tid (a ++ .user fn :: T₁)) ∧
      userStep c { s with stk := τ } x.tid gn T₂ x = some { s' with stk := spawnUpd s x (upd τ x.tid (a ++ .user gn :: T₂)) } := by
  cases x with
  | spawn t =>
    simp only [userStep] at h ⊢
    split at h
    · next hc =>
      rw [if_pos hc]
      simp only [Option.some.injEq] at h; subst h
      refine ⟨[], by simp, ?_, ?_⟩
      · rw [show upd σ (Action.spawn t).tid ([] ++ .user fn :: T₁) = σ from upd_self hσ]; rfl
      · rw [show upd τ (Action.spawn t).tid ([] ++ .user gn :: T₂) = τ from upd_self hτ]; rfl
    · cases h
  | regThr t =>
    simp only [userStep] at h ⊢
    split at h
    · next hc =>
      rw [if_pos hc]
      simp only [Option.some.injEq] at h; subst h
      refine ⟨[], by simp, (upd_self hσ).symm, ?_⟩
      rw [show spawnUpd s (.regThr t) (upd τ (Action.regThr t).tid ([] ++ .user gn :: T₂)) = τ from upd_self hτ]
      rfl
    · cases h
  | regProg t =>
    simp only [userStep] at h ⊢
    split at h
    · next hc =>
      rw [if_pos hc]
      simp only [Option.some.injEq] at h; subst h
      exact ⟨[.regLock], by simp [Frame.own], rfl, rfl⟩
    · cases h
  | exit t st =>
    simp only [userStep, Option.some.injEq] at h; subst h
    exact ⟨[.exitThr s.nextE st], by simp [Frame.own], rfl, rfl⟩
  | immExit t st =>
    simp only [userStep, Option.some.injEq] at h; subst h
    exact ⟨[.exitImm s.nextE st], by simp [Frame.own], rfl, rfl⟩
  | ret t st => exact absurd rfl (hx t st)
  | step t => cases h

/-- And of the return of a user function that is not the last on the stack. -/
theorem ret_lift {c : Cfg} {s s' : State} {σ τ : Tid → List Frame} {t : Tid} {st : Int} {fn : Fn} {r T₁ T₂ : List Frame}
    (h : userStep c { s with stk := σ } t fn (r ++ T₁) (.ret t st) = some s') :
    ∃ a, s'.stk = upd σ t (a ++ T₁) ∧ (fn ≠ .start → (∀ f ∈ r, f.own = false) → ∀ f ∈ a, f.own = false) ∧
      userStep c { s with stk := τ } t fn (r ++ T₂) (.ret t st) = some { s' with stk := upd τ t (a ++ T₂) } := by
  cases fn with
  | main =>
    simp only [userStep, Option.some.injEq] at h; subst h
    refine ⟨.exitThr s.nextE st :: r, rfl, ?_, rfl⟩
    intro _ hr g hg
    rcases List.mem_cons.mp hg with rfl | hg
    · rfl
    · exact hr g hg
  | start =>
    simp only [userStep, Option.some.injEq] at h; subst h
    exact ⟨.thrLoop :: r, rfl, fun h => absurd rfl h, rfl⟩
  | ctor p => simp only [userStep, Option.some.injEq] at h; subst h; exact ⟨r, rfl, fun _ h => h, rfl⟩
  | tdtor f => simp only [userStep, Option.some.injEq] at h; subst h; exact ⟨r, rfl, fun _ h => h, rfl⟩
  | pdtor f => simp only [userStep, Option.some.injEq] at h; subst h; exact ⟨r, rfl, fun _ h => h, rfl⟩
  | fini p => simp only [userStep, Option.some.injEq] at h; subst h; exact ⟨r, rfl, fun _ h => h, rfl⟩

theorem step_userTop {c : Cfg} {s : State} {x : Action} {fn : Fn} {rest : List Frame} (hd : s.dead = false) (hs : s.stk x.tid = .user fn :: rest) :
    step c s x = userStep c s x.tid fn rest x := by
  unfold step; simp [hd, hs]

theorem step_frameTop {c : Cfg} {s : State} {x : Action} {fr : Frame} {rest : List Frame} (hd : s.dead = false) (hs : s.stk x.tid = fr :: rest)
    (hu : ∀ fn, fr ≠ .user fn) : step c s x = if x = .step x.tid then frameStep c s x.tid rest fr else none := by
  unfold step
  simp only [hd, hs]
  cases fr <;> first | rfl | exact absurd rfl (hu _)

theorem step_noStk {c : Cfg} {s : State} {x : Action} (hs : s.stk x.tid = []) : step c s x = none := by
  unfold step; simp [hs]

theorem spawnUpd_ret {s : State} {t : Tid} {st : Int} {σ : Tid → List Frame} : spawnUpd s (.ret t st) σ = σ := rfl

theorem is_ret (x : Action) : (∃ t st, x = .ret t st) ∨ ∀ t st, x ≠ .ret t st := by
  cases x <;> simp

/-- What a step does to the other threads' stacks does not depend on them. -/
theorem step_stks {c : Cfg} {s s' : State} {σ τ : Tid → List Frame} {x : Action} (h : step c { s with stk := σ } x = some s')
    (hs : σ x.tid = τ x.tid) :
    ∃ l, s'.stk = spawnUpd s x (upd σ x.tid l) ∧ step c { s with stk := τ } x = some { s' with stk := spawnUpd s x (upd τ x.tid l) } := by
  by_cases hd : s.dead = true
  · simp [step, hd] at h
  have hd : s.dead = false := by simpa using hd
  cases hst : σ x.tid with
  | nil => rw [step_noStk hst] at h; cases h
  | cons fr rest =>
    have hτ : τ x.tid = fr :: rest := hs ▸ hst
    by_cases hu : ∃ fn, fr = .user fn
    · obtain ⟨fn, rfl⟩ := hu
      rw [step_userTop (by exact hd) hst] at h
      rw [step_userTop (by exact hd) hτ]
      rcases is_ret x with ⟨t, st, rfl⟩ | hx
      · obtain ⟨a, h1, -, h2⟩ := ret_lift (T₁ := []) (T₂ := []) (τ := τ) (r := rest) (by rw [List.append_nil]; exact h)
        simp only [List.append_nil] at h1 h2
        exact ⟨a, h1, h2⟩
      · obtain ⟨a, -, h1, h2⟩ := user_lift h hx hst hτ
        exact ⟨_, h1, h2⟩
    · have hu : ∀ fn, fr ≠ .user fn := fun fn h => hu ⟨fn, h⟩
      rw [step_frameTop (by exact hd) hst hu] at h
      rw [step_frameTop (by exact hd) hτ hu]
      split at h
      · next hx =>
        rw [if_pos hx]
        obtain ⟨a, h1, h2, -, -⟩ := frame_lift (T₁ := []) (T₂ := []) (τ := τ) (r := rest) (by rw [List.append_nil]; exact h) (.inr ⟨rfl, rfl⟩)
          (by simpa using hst) (by simpa using hτ)
        simp only [List.append_nil] at h1 h2
        have e : ∀ σ, spawnUpd s x σ = σ := by intro σ; rw [hx]; rfl
        exact ⟨a, by rw [h1, e], by rw [h2, e]⟩
      · cases h

/-- A handler that has interrupted user code does what user code could do there. -/
theorem step_lift {c : Cfg} {s s' : State} {σ τ : Tid → List Frame} {x : Action} {fs R : List Frame} {hn fn : Fn}
    (h : step c { s with stk := σ } x = some s') (hσ : σ x.tid = fs ++ [.user hn]) (hτ : τ x.tid = fs ++ .user fn :: R)
    (hfs : ∀ f ∈ fs, f.own = false) (hx : fs = [] → ∀ t st, x ≠ .ret t st) :
    ∃ fs', (∀ f ∈ fs', f.own = false) ∧ s'.stk = spawnUpd s x (upd σ x.tid (fs' ++ [.user hn])) ∧
      step c { s with stk := τ } x = some { s' with stk := spawnUpd s x (upd τ x.tid (fs' ++ .user fn :: R)) } := by
  by_cases hd : s.dead = true
  · simp [step, hd] at h
  have hd : s.dead = false := by simpa using hd
  cases fs with
  | nil =>
    simp only [List.nil_append] at hσ hτ
    rw [step_userTop (by exact hd) hσ] at h
    rw [step_userTop (by exact hd) hτ]
    exact user_lift h (hx rfl) hσ hτ
  | cons fr r =>
    simp only [List.cons_append] at hσ hτ
    have hr : ∀ f ∈ r, f.own = false := fun f hf => hfs f (List.mem_cons_of_mem _ hf)
    have hfr := hfs fr List.mem_cons_self
    by_cases hu : ∃ gn, fr = .user gn
    · obtain ⟨gn, rfl⟩ := hu
      rw [step_userTop (by exact hd) hσ] at h
      rw [step_userTop (by exact hd) hτ]
      have hg : gn ≠ .start := by rintro rfl; cases hfr
      rcases is_ret x with ⟨t, st, rfl⟩ | hx
      · obtain ⟨a, h1, h2, h3⟩ := ret_lift (T₁ := [.user hn]) (T₂ := .user fn :: R) (τ := τ) (r := r) h
        exact ⟨a, h2 hg hr, h1, h3⟩
      · obtain ⟨a, h0, h1, h2⟩ := user_lift h hx hσ hτ
        refine ⟨a ++ .user gn :: r, ?_, by rw [h1]; simp, by rw [h2]; simp⟩
        intro f hf
        rcases List.mem_append.mp hf with hf | hf
        · exact h0 f hf
        · exact hfs f hf
    · have hu : ∀ fn, fr ≠ .user fn := fun fn h => hu ⟨fn, h⟩
      rw [step_frameTop (by exact hd) hσ hu] at h
      rw [step_frameTop (by exact hd) hτ hu]
      have hth : fr ≠ .thrLoop := by rintro rfl; cases hfr
      split at h
      · next hx =>
        rw [if_pos hx]
        obtain ⟨a, h1, h2, h3, -⟩ := frame_lift (τ := τ) h (.inl hth) hσ hτ
        have e : ∀ σ, spawnUpd s x σ = σ := by intro σ; rw [hx]; rfl
        exact ⟨a, h3 hth hr, by rw [h1, e], by rw [h2, e]⟩
      · cases h

def UserTop (l : List Frame) : Prop := ∃ fn rest, l = .user fn :: rest

def Chain : List (List Frame) → List Frame → Prop
  | [], _ => True
  | l :: ls, base => (∃ fs, l = fs ++ [.user handlerFn] ∧ (∀ f ∈ fs, f.own = false) ∧ (fs ≠ [] → ∀ l ∈ ls ++ [base], UserTop l)) ∧ base ≠ [] ∧ Chain ls base

theorem Chain.top {base : List Frame} : ∀ {ls : List (List Frame)}, Chain ls base → (∀ l ∈ ls ++ [base], UserTop l) →
    UserTop (ls.flatMap List.dropLast ++ base)
  | [], _, h => by simpa using h base (by simp)
  | l :: ls, hc, h => by
    obtain ⟨⟨fs, rfl, -, -⟩, -, hc'⟩ := hc
    have ih := Chain.top hc' (fun l hl => h l (by simp at hl ⊢; exact .inr hl))
    have h0 := h (fs ++ [.user handlerFn]) (by simp)
    simp only [List.flatMap_cons, List.dropLast_concat]
    cases fs with
    | nil => simpa using ih
    | cons f fs =>
      obtain ⟨fn, rest, hf⟩ := h0
      simp only [List.cons_append, List.cons.injEq] at hf
      exact ⟨fn, fs ++ (ls.flatMap List.dropLast ++ base), by simp [hf.1]⟩

theorem Chain.base {base : List Frame} {ls : List (List Frame)} (h : Chain ls base) (hl : ls ≠ []) : base ≠ [] := by
  cases ls with
  | nil => exact absurd rfl hl
  | cons l ls => exact h.2.1

theorem spawnUpd_at {s : State} {x : Action} {σ : Tid → List Frame} {u : Tid} (h : u ≠ s.nextT) : spawnUpd s x σ u = σ u := by
  cases x <;> simp [spawnUpd, upd, h]

theorem spawnUpd_congr {s : State} {x : Action} {σ τ : Tid → List Frame} {u : Tid} (h : σ u = τ u) : spawnUpd s x σ u = spawnUpd s x τ u := by
  cases x <;> simp [spawnUpd, upd, h]

theorem upd_same (σ : Tid → List Frame) (t : Tid) (l : List Frame) : upd σ t l t = l := by simp [upd]
theorem upd_other {σ : Tid → List Frame} {t u : Tid} {l : List Frame} (h : u ≠ t) : upd σ t l u = σ u := by simp [upd, h]

structure SigInv (c : Cfg) (g : SState) : Prop where
  reach : Reach c g.flat
  chain : ∀ t, Chain (g.hnd t) (g.s.stk t)
  alive : g.s.dead = false → g.killed = none

theorem flat_stk (g : SState) (t : Tid) : g.flat.stk t = (g.hnd t).flatMap List.dropLast ++ g.s.stk t := rfl

theorem SigInv.new {c : Cfg} {g : SState} (I : SigInv c g) {t : Tid} (h : g.s.nextT ≤ t) : g.hnd t = [] ∧ g.s.stk t = [] := by
  have := I.reach.sinv.new t h
  rw [flat_stk, List.append_eq_nil_iff] at this
  refine ⟨?_, this.2⟩
  cases hh : g.hnd t with
  | nil => rfl
  | cons l ls => exact absurd this.2 ((I.chain t).base (by simp [hh]))

theorem SigInv.init (c : Cfg) : SigInv c sinit := ⟨Reach.init, fun _ => trivial, fun _ => rfl⟩

theorem SigInv.step {c : Cfg} {g g' : SState} {x : SAct} (I : SigInv c g) (hx : g.Allowed x) (h : sstep c g x = some g') :
    SigInv c g' ∧ match g.flatAct x with
      | none => g'.flat = g.flat
      | some y => step c g.flat y = some g'.flat := by
  unfold sstep at h
  split at h
  · cases h
  rename_i hd
  have hd : g.s.dead = false := by simpa using hd
  have hk := I.alive hd
  cases x with
  | signal t =>
    simp only at h
    split at h
    · cases h
    rename_i hcur
    simp only [Option.some.injEq] at h; subst h
    have hf : (g.setHnd t ([.user handlerFn] :: g.hnd t)).flat = g.flat := by
      unfold SState.flat
      simp only [SState.setHnd, State.mk.injEq, and_true]
      funext u
      split
      · next h => subst h; simp
      · rfl
    refine ⟨⟨hf ▸ I.reach, fun u => ?_, fun h => hk⟩, hf⟩
    simp only [SState.setHnd]
    split
    · next hu =>
      subst hu
      refine ⟨⟨[], rfl, by simp, fun h => absurd rfl h⟩, ?_, I.chain u⟩
      intro hb
      unfold SState.cur at hcur
      cases hh : g.hnd u with
      | nil => rw [hh] at hcur; exact hcur hb
      | cons l ls => exact (I.chain u).base (by simp [hh]) hb
    · exact I.chain u
  | act x =>
    simp only at h
    have hfd : g.flat.dead = false := by simp [SState.flat, hd]
    cases hh : g.hnd x.tid with
    | nil =>
      rw [hh] at h
      simp only [Option.map_eq_some_iff] at h
      obtain ⟨s', h, rfl⟩ := h
      obtain ⟨l, h1, h2⟩ := step_stks (s := g.s) (σ := g.s.stk) (τ := g.flat.stk) h (by simp [flat_stk, hh])
      have hg : { g.s with stk := g.flat.stk } = g.flat := by simp [SState.flat, hd]
      rw [hg] at h2
      have hflat : ({ g with s := s' } : SState).flat = { s' with stk := spawnUpd g.s x (upd g.flat.stk x.tid l) } := by
        unfold SState.flat
        simp only [hk, Option.isNone_none, Bool.and_true, State.mk.injEq, true_and, and_true]
        funext u
        rw [h1]
        by_cases hn : u = g.s.nextT
        · subst hn
          obtain ⟨e1, e2⟩ := I.new (t := g.s.nextT) (Nat.le_refl _)
          rw [e1]
          refine spawnUpd_congr ?_
          by_cases hu : g.s.nextT = x.tid
          · rw [hu, upd_same, upd_same]
          · rw [upd_other hu, upd_other hu, e1]; rfl
        · rw [spawnUpd_at hn, spawnUpd_at hn]
          by_cases hu : u = x.tid
          · subst hu; rw [hh, upd_same, upd_same]; rfl
          · rw [upd_other hu, upd_other hu]
      refine ⟨⟨hflat ▸ I.reach.step h2, fun u => ?_, fun _ => hk⟩, by simp only [SState.flatAct, hh]; rw [hflat]; exact h2⟩
      show Chain (g.hnd u) (s'.stk u)
      by_cases hn : u = g.s.nextT
      · subst hn
        rw [(I.new (t := g.s.nextT) (Nat.le_refl _)).1]; trivial
      · rw [h1, spawnUpd_at hn]
        by_cases hu : u = x.tid
        · subst hu; rw [hh]; trivial
        · rw [upd_other hu]; exact I.chain u
    | cons l ls =>
      rw [hh] at h
      simp only at h
      have hnt : x.tid ≠ g.s.nextT := by
        intro hn
        have := (I.new (t := x.tid) (Nat.le_of_eq hn.symm)).1
        rw [hh] at this; cases this
      have hch := I.chain x.tid
      rw [hh] at hch
      obtain ⟨⟨fs, rfl, hfs, htop⟩, hbase, hch'⟩ := hch
      by_cases hsp : fs = [] ∧ ∃ t st, x = .immExit t st
      · obtain ⟨rfl, t, st, rfl⟩ := hsp
        simp only [List.nil_append, Option.some.injEq] at h; subst h
        have : ({ g with s := { g.s with dead := true }, killed := some (t, st) } : SState).flat = g.flat := by
          simp [SState.flat, hd]
        exact ⟨⟨this ▸ I.reach, I.chain, fun h => absurd h (by simp)⟩, by simp only [SState.flatAct, hh, List.nil_append]; exact this⟩
      have h : ∃ s', Proc.step c (g.s.setStk x.tid (fs ++ [.user handlerFn])) x = some s' ∧ g.resume x.tid ls s' = g' := by
        split at h
        · next hl => exact absurd ⟨by cases fs with | nil => rfl | cons a as => simp at hl, _, _, rfl⟩ hsp
        · simpa using h
      obtain ⟨s', hq, rfl⟩ := h
      by_cases hret : fs = [] ∧ ∃ t st, x = .ret t st
      · obtain ⟨rfl, t, st, rfl⟩ := hret
        have e : s' = g.s.setStk t [] := by
          rw [step_userTop (fn := handlerFn) (rest := []) (by exact hd) (by simp [State.setStk, Action.tid])] at hq
          simp only [handlerFn, userStep, Option.some.injEq, Action.tid] at hq
          rw [← hq]
          simp only [State.setStk, State.mk.injEq, true_and, and_true]
          funext u; split <;> rfl
        subst e
        have e2 : g.resume t ls (g.s.setStk t []) = g.setHnd t ls := by
          simp only [SState.resume, State.setStk, SState.setHnd, if_true, SState.mk.injEq, and_true]
          have : (fun x => if x = t then g.s.stk t else if x = t then [] else g.s.stk x) = g.s.stk := by
            funext u; split
            · next h => rw [h]
            · rfl
          rw [this]
        simp only [Action.tid] at hh hch' hbase ⊢
        rw [e2]
        have hf : (g.setHnd t ls).flat = g.flat := by
          unfold SState.flat
          simp only [SState.setHnd, State.mk.injEq, and_true]
          funext u
          split
          · next h => subst h; rw [hh]; simp
          · rfl
        refine ⟨⟨hf ▸ I.reach, fun u => ?_, fun h => hk⟩, by simp only [SState.flatAct, Action.tid, hh, List.nil_append]; exact hf⟩
        simp only [SState.setHnd]
        split
        · next hu => subst hu; exact hch'
        · exact I.chain u
      · have hall : ∀ l ∈ ls ++ [g.s.stk x.tid], UserTop l := by
          by_cases hfs0 : fs = []
          · rcases hx with hx | ⟨st, hx⟩ | ⟨st, hx⟩ | hx
            · rw [hh] at hx; cases hx
            · exact absurd ⟨hfs0, _, _, hx⟩ hret
            · exact absurd ⟨hfs0, _, _, hx⟩ hsp
            · unfold SState.interrupted at hx
              rw [hh] at hx
              exact hx
          · exact htop hfs0
        obtain ⟨fn, R, hR⟩ := hch'.top hall
        have hfl : g.flat.stk x.tid = fs ++ .user fn :: R := by
          rw [flat_stk, hh]; simp only [List.flatMap_cons, List.dropLast_concat, List.append_assoc]; rw [hR]
        obtain ⟨fs', k1, k2, k3⟩ := step_lift (s := g.s) (σ := upd g.s.stk x.tid (fs ++ [.user handlerFn])) (τ := g.flat.stk) hq
          (upd_same _ _ _) hfl hfs (fun h t st hx => hret ⟨h, t, st, hx⟩)
        have hg : { g.s with stk := g.flat.stk } = g.flat := by simp [SState.flat, hd]
        rw [hg] at k3
        have hst : s'.stk x.tid = fs' ++ [.user handlerFn] := by rw [k2, spawnUpd_at hnt, upd_same]
        have hres : g.resume x.tid ls s' = ({ g with s := s'.setStk x.tid (g.s.stk x.tid) } : SState).setHnd x.tid ((fs' ++ [.user handlerFn]) :: ls) := by
          unfold SState.resume; rw [hst, if_neg (by simp)]
        rw [hres]
        have hflat : (({ g with s := s'.setStk x.tid (g.s.stk x.tid) } : SState).setHnd x.tid ((fs' ++ [.user handlerFn]) :: ls)).flat =
            { s' with stk := spawnUpd g.s x (upd g.flat.stk x.tid (fs' ++ .user fn :: R)) } := by
          unfold SState.flat
          simp only [SState.setHnd, State.setStk, hk, Option.isNone_none, Bool.and_true, State.mk.injEq, and_true]
          funext u
          by_cases hu : u = x.tid
          · subst hu
            rw [if_pos rfl, if_pos rfl, spawnUpd_at hnt, upd_same, ← hR]
            simp
          · rw [if_neg hu, if_neg hu, k2]
            by_cases hn : u = g.s.nextT
            · subst hn
              obtain ⟨e1, e2⟩ := I.new (t := g.s.nextT) (Nat.le_refl _)
              rw [e1]
              refine spawnUpd_congr ?_
              rw [upd_other hu, upd_other hu, upd_other hu, e1]; rfl
            · rw [spawnUpd_at hn, spawnUpd_at hn, upd_other hu, upd_other hu, upd_other hu]
        have hact : g.flatAct (.act x) = some x := by
          simp only [SState.flatAct, hh]
          cases fs with
          | nil =>
            cases x with
            | ret t st => exact absurd ⟨rfl, _, _, rfl⟩ hret
            | immExit t st => exact absurd ⟨rfl, _, _, rfl⟩ hsp
            | _ => rfl
          | cons f fs =>
            cases fs <;> cases f <;> cases x <;> rfl
        refine ⟨⟨hflat ▸ I.reach.step k3, fun u => ?_, fun _ => hk⟩, by rw [hact]; simp only; rw [hflat]; exact k3⟩
        simp only [SState.setHnd, State.setStk]
        by_cases hu : u = x.tid
        · subst hu
          rw [if_pos rfl, if_pos rfl]
          exact ⟨⟨fs', rfl, k1, fun _ => hall⟩, hbase, hch'⟩
        · rw [if_neg hu, if_neg hu]
          by_cases hn : u = g.s.nextT
          · subst hn
            rw [(I.new (t := g.s.nextT) (Nat.le_refl _)).1]; trivial
          · rw [k2, spawnUpd_at hn, upd_other hu, upd_other hu]; exact I.chain u

theorem SReach.inv {c : Cfg} {P : SState → SAct → Prop} {g : SState} (h : SReach c P g) (hP : ∀ g x, P g x → g.Allowed x) : SigInv c g := by
  induction h with
  | init => exact SigInv.init c
  | step _ hx h ih => exact (ih.step (hP _ _ hx) h).1

end Origin.Proc
