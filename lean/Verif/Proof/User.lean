import Verif.Spec.User
import Verif.Props.Whole
set_option linter.unusedSimpArgs false
/-! # User programs: how the states of the model and of the abstract machine correspond -/

namespace Origin.User
open Proc (Frame Fn PFinished)
open Whole (userTop running news)

variable {σ C : Type} {pr : Prg σ C} {c : Proc.Cfg} {sig : Bool}

/-- The slot address `p` as a number. -/
def slot (start ws p : Nat) : Nat := (p - start) / ws

/-- What comes after the function above frame `fr`. -/
def contOf (pr : Prg σ C) (c : Proc.Cfg) (v : Nat) : Frame → Option (After C)
  | .init p =>
    if p = c.initEnd then some (.ctors [])
    else if p = c.initStart + slot c.initStart c.ws p * c.ws ∧ slot c.initStart c.ws p < pr.ctors.length then
      some (.ctors (pr.ctors.drop (slot c.initStart c.ws p)))
    else none
  | .thrLoop => some (.ending v)
  | .exitThr _ st => some (.exitT st)
  | .exitLock _ st => some (.exitP st)
  | .exitFini _ st p =>
    if p = c.finiStart then some (.fini st [])
    else if p = c.finiStart + slot c.finiStart c.ws p * c.ws ∧ slot c.finiStart c.ws p ≤ pr.finis.length then
      some (.fini st (pr.finis.take (slot c.finiStart c.ws p)).reverse)
    else none
  | _ => none

/-- Where a thread with this call stack, in these user functions, is. -/
def posU (pr : Prg σ C) (c : Proc.Cfg) (v : Nat) (fn : Fn) (rest : List Frame) (l : List C) : Option (Pos C) :=
  match l with
  | [] => none
  | cd :: _ =>
    match fn with
    | .main => some (.run cd .main)
    | .start => if rest = [] then some (.run cd .start) else none
    | _ => match rest with | fr :: _ => (contOf pr c v fr).map (.run cd) | [] => none

/-- User code is at a call of `program::at_exit`. -/
def atReg (pr : Prg σ C) (l : List C) : Bool :=
  match l with
  | cd :: _ => match pr.op cd with | .atExitP .. => true | _ => false
  | [] => false

def posOf (pr : Prg σ C) (c : Proc.Cfg) (v : Nat) (fcode : Nat → Option C) : List Frame → List C → Option (Pos C)
  | [], _ => some (.done v)
  | .user fn :: rest, l => posU pr c v fn rest l
  | .regLock :: .user fn :: rest, l | .regPush :: .user fn :: rest, l => if atReg pr l then posU pr c v fn rest l else none
  | .regUnlock _ :: .user fn :: rest, l => posU pr c v fn rest l
  | .entry :: _, _ => some (.next (.ctors pr.ctors))
  | .exitPop _ st :: _, _ => some (.next (.exitP st))
  | .exitUnlock _ st f :: _, _ | .exitCall _ st f :: _, _ => (fcode f).map (.run · (.exitP st))
  | .exitImm _ st :: _, _ => some (.next (.imm st))
  | fr :: _, _ => (contOf pr c v fr).map .next

/-- What `t`'s function returned. -/
def retv (l : Life.State) (t : Nat) : Nat := ((l.thr t).bind (·.ret)).getD 0

structure TRel (pr : Prg σ C) (c : Proc.Cfg) (e : State σ C) (t : Nat) (T : AThr C) : Prop where
  pos : posOf pr c (retv e.w.l t) e.fcode (e.w.p.stk t) (e.code t) = some T.pos
  fns : T.fns.map some = (e.w.p.tdtors t).map e.fcode
  tid : ∃ L, e.w.l.thr t = some L ∧ L.tid = T.tid

/-- The program has threads and `program::at_exit`: its list has a lock. -/
def locks (c : Proc.Cfg) : Bool := c.thread && c.programAtExit

structure Rel (pr : Prg σ C) (c : Proc.Cfg) (e : State σ C) (a : Abs σ C) : Prop where
  mem : a.mem = e.mem
  len : a.thr.length = e.w.p.nextT
  thr : ∀ t T, a.thr[t]? = some T → TRel pr c e t T
  fns : a.fns.map some = e.w.p.dtors.map e.fcode
  fresh : ∀ f, e.w.p.nextF ≤ f → e.fcode f = none
  closed : a.closed = true ↔ (locks c = true ∧ PFinished e.w.p.log)
  status : e.w.p.dead = false → a.status = none
  ended : ∀ t x st, .group t x st ∈ e.w.p.log → a.status = some st
  call : ∀ t cl, e.w.l.call t = some cl → ∃ fn rest cd cs, e.w.p.stk t = .user fn :: rest ∧ e.code t = cd :: cs ∧
    (cl.kind = .join → ∃ k, pr.op cd = .join cl.target k)

theorem posU_congr {v : Nat} {fn : Fn} {rest : List Frame} {cd cd' : C} {cs cs' : List C} {k : After C}
    (h : posU pr c v fn rest (cd :: cs) = some (.run cd k)) : posU pr c v fn rest (cd' :: cs') = some (.run cd' k) := by
  unfold posU at h ⊢
  cases fn <;> simp only at h ⊢
  case main => simp at h ⊢; exact h
  case start => split at h <;> simp at h ⊢; exact ⟨‹_›, h⟩
  all_goals
    cases rest with
    | nil => cases h
    | cons fr rest =>
      simp only [Option.map_eq_some_iff] at h ⊢
      obtain ⟨x, h1, h2⟩ := h
      injection h2 with h2 h3
      subst h3
      exact ⟨x, h1, rfl⟩

theorem posU_run {v : Nat} {fn : Fn} {rest : List Frame} {l : List C} {p : Pos C} (h : posU pr c v fn rest l = some p) :
    ∃ cd cs k, l = cd :: cs ∧ p = .run cd k := by
  unfold posU at h
  split at h
  · cases h
  · next cd cs =>
    refine ⟨cd, cs, ?_⟩
    split at h
    · cases h; exact ⟨_, rfl, rfl⟩
    · split at h <;> cases h; exact ⟨_, rfl, rfl⟩
    · split at h
      · rw [Option.map_eq_some_iff] at h
        obtain ⟨x, -, rfl⟩ := h
        exact ⟨_, rfl, rfl⟩
      · cases h

/-- More registered functions change nothing. -/
theorem posOf_mono {v : Nat} {f f' : Nat → Option C} {s : List Frame} {l : List C} {p : Pos C} (hf : ∀ x g, f x = some g → f' x = some g)
    (h : posOf pr c v f s l = some p) : posOf pr c v f' s l = some p := by
  unfold posOf at h ⊢
  split at h <;> try exact h
  all_goals
    rw [Option.map_eq_some_iff] at h
    obtain ⟨g, h1, rfl⟩ := h
    rw [hf _ _ h1]; rfl

theorem map_mono {f f' : Nat → Option C} {fs : List C} {ids : List Nat} (hf : ∀ x g, f x = some g → f' x = some g)
    (h : fs.map some = ids.map f) : fs.map some = ids.map f' := by
  rw [h]
  apply List.map_congr_left
  intro x hx
  have : f x ∈ fs.map some := by rw [h]; exact List.mem_map_of_mem hx
  rw [List.mem_map] at this
  obtain ⟨g, -, hg⟩ := this
  rw [← hg, hf x g hg.symm]

theorem TRel.mono {e e' : State σ C} {t : Nat} {T : AThr C} (R : TRel pr c e t T) (hv : retv e'.w.l t = retv e.w.l t)
    (ht : ∀ L, e.w.l.thr t = some L → ∃ L', e'.w.l.thr t = some L' ∧ L'.tid = L.tid) (hs : e'.w.p.stk t = e.w.p.stk t)
    (hd : e'.w.p.tdtors t = e.w.p.tdtors t) (hc : e'.code t = e.code t) (hf : ∀ x g, e.fcode x = some g → e'.fcode x = some g) :
    TRel pr c e' t T := by
  refine ⟨?_, ?_, ?_⟩
  · rw [hv, hs, hc]; exact posOf_mono hf R.pos
  · rw [hd]; exact map_mono hf R.fns
  · obtain ⟨L, h1, h2⟩ := R.tid
    obtain ⟨L', h3, h4⟩ := ht L h1
    exact ⟨L', h3, h4.trans h2⟩

/-- Only thread `t` changes, and not as a thread (no creation). -/
theorem Rel.upd2 {e e' : State σ C} {a a' : Abs σ C} (R : Rel pr c e a) {t : Nat} {T T' : AThr C} (hT : a.thr[t]? = some T)
    (hl : e'.w.l = e.w.l)
    (hcall : ∀ cl, e.w.l.call t = some cl → ∃ fn rest cd cs, e'.w.p.stk t = .user fn :: rest ∧ e'.code t = cd :: cs ∧
      (cl.kind = .join → ∃ k, pr.op cd = .join cl.target k))
    (hmem : a'.mem = e'.mem) (hthr : a'.thr = a.thr.set t T')
    (hstk : ∀ u, u ≠ t → e'.w.p.stk u = e.w.p.stk u) (htd : ∀ u, u ≠ t → e'.w.p.tdtors u = e.w.p.tdtors u)
    (hcode : ∀ u, u ≠ t → e'.code u = e.code u) (hfc : ∀ x g, e.fcode x = some g → e'.fcode x = some g) (hn : e'.w.p.nextT = e.w.p.nextT)
    (hpos : posOf pr c (retv e.w.l t) e'.fcode (e'.w.p.stk t) (e'.code t) = some T'.pos)
    (hfns : T'.fns.map some = (e'.w.p.tdtors t).map e'.fcode) (htid : T'.tid = T.tid)
    (fns : a'.fns.map some = e'.w.p.dtors.map e'.fcode) (fresh : ∀ f, e'.w.p.nextF ≤ f → e'.fcode f = none)
    (closed : a'.closed = true ↔ (locks c = true ∧ PFinished e'.w.p.log))
    (status : e'.w.p.dead = false → a'.status = none) (ended : ∀ t x st, .group t x st ∈ e'.w.p.log → a'.status = some st) : Rel pr c e' a' := by
  refine ⟨hmem, ?_, ?_, fns, fresh, closed, status, ended, ?_⟩
  · rw [hthr, hn, List.length_set]; exact R.len
  · intro u U hU
    rw [hthr] at hU
    by_cases hut : u = t
    · subst hut
      rw [List.getElem?_set_self (List.getElem?_eq_some_iff.mp hT).1] at hU
      injection hU with hU; subst hU
      exact ⟨by rw [hl]; exact hpos, hfns, by rw [hl, htid]; exact (R.thr u T hT).tid⟩
    · rw [List.getElem?_set_ne (fun h => hut h.symm)] at hU
      refine (R.thr u U hU).mono (by rw [hl]) (fun L hL => ⟨L, by rw [hl]; exact hL, rfl⟩) (hstk u hut) (htd u hut) (hcode u hut) hfc
  · intro u cl hcl
    rw [hl] at hcl
    by_cases hut : u = t
    · subst hut; exact hcall cl hcl
    · rw [hstk u hut, hcode u hut]
      exact R.call u cl hcl

/-- The same, with no call in progress. -/
theorem Rel.upd {e e' : State σ C} {a a' : Abs σ C} (R : Rel pr c e a) {t : Nat} {T T' : AThr C} (hT : a.thr[t]? = some T)
    (hl : e'.w.l = e.w.l) (hcall : e.w.l.call t = none) (hmem : a'.mem = e'.mem) (hthr : a'.thr = a.thr.set t T')
    (hstk : ∀ u, u ≠ t → e'.w.p.stk u = e.w.p.stk u) (htd : ∀ u, u ≠ t → e'.w.p.tdtors u = e.w.p.tdtors u)
    (hcode : ∀ u, u ≠ t → e'.code u = e.code u) (hfc : ∀ x g, e.fcode x = some g → e'.fcode x = some g) (hn : e'.w.p.nextT = e.w.p.nextT)
    (hpos : posOf pr c (retv e.w.l t) e'.fcode (e'.w.p.stk t) (e'.code t) = some T'.pos)
    (hfns : T'.fns.map some = (e'.w.p.tdtors t).map e'.fcode) (htid : T'.tid = T.tid)
    (fns : a'.fns.map some = e'.w.p.dtors.map e'.fcode) (fresh : ∀ f, e'.w.p.nextF ≤ f → e'.fcode f = none)
    (closed : a'.closed = true ↔ (locks c = true ∧ PFinished e'.w.p.log))
    (status : e'.w.p.dead = false → a'.status = none) (ended : ∀ t x st, .group t x st ∈ e'.w.p.log → a'.status = some st) : Rel pr c e' a' :=
  R.upd2 hT hl (fun cl h => by rw [hcall] at h; cases h) hmem hthr hstk htd hcode hfc hn hpos hfns htid fns fresh closed status ended

end Origin.User
