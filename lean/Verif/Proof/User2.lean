import Verif.Proof.User
set_option linter.unusedSimpArgs false
/-! # User programs: steps of origin's own code -/

namespace Origin.User
open Proc (Frame Fn PFinished)
open Whole (userTop running news)

variable {σ C : Type} {pr : Prg σ C} {c : Proc.Cfg} {sig : Bool}

theorem news_cons {α : Type} (x : α) (l : List α) : news l (x :: l) = [x] := Whole.news_append [x] l
theorem news_self {α : Type} (l : List α) : news l l = [] := Whole.news_append [] l

theorem next_proc (w : Whole.State) {p' : Proc.State} {evs : List Proc.Ev} (h : p'.log = evs ++ w.p.log) :
    w.next w.l p' = ⟨w.l, p', false, evs.map .inr ++ w.log⟩ := by
  unfold Whole.State.next
  rw [news_self, h, Whole.news_append]
  simp

theorem absorb_proc (e : State σ C) {p' : Proc.State} {evs : List Proc.Ev} (h : p'.log = evs ++ e.w.p.log) :
    e.absorb pr c (e.w.next e.w.l p') = (evs.map .inr).reverse.foldl (react pr c) { e with w := ⟨e.w.l, p', false, evs.map .inr ++ e.w.log⟩ } := by
  unfold State.absorb
  rw [next_proc _ h, Whole.news_append]

/-- The feature for thread-`at_exit` functions is off: there are none. -/
theorem tdtors_off {s : Proc.State} (R : Proc.Reach c s) (h : c.threadAtExit = false) (t : Nat) : s.tdtors t = [] := by
  induction R with
  | init => rfl
  | step _ hs ih =>
    obtain ⟨-, tr⟩ := Proc.step_tr hs
    cases tr <;> simp_all [Proc.State.ev, Proc.State.setStk, Proc.State.setTd, Proc.State.beginExit] <;>
      first
      | (rename_i hq; have := Proc.acquire_fields hq; simp_all)
      | simp_all [Proc.release_fields]

theorem dtors_off {s : Proc.State} (R : Proc.Reach c s) (h : c.programAtExit = false) : s.dtors = [] := by
  have := R.pinv
  cases hd : s.dtors with
  | nil => rfl
  | cons f fs =>
    have hf : f ∈ Proc.pregs s.log := by
      have := this.pd
      rw [hd] at this
      have hm : f ∈ (f :: fs) := List.mem_cons_self
      rw [this] at hm
      exact (List.mem_filter.mp hm).1
    exact absurd (Proc.mem_pregs.mp hf) (this.off h f)

theorem set_same {α : Type} {l : List α} {t : Nat} {x : α} (h : l[t]? = some x) : l = l.set t x := by
  apply List.ext_getElem?
  intro i
  by_cases hi : t = i
  · subst hi; rw [List.getElem?_set_self (List.getElem?_eq_some_iff.mp h).1, h]
  · rw [List.getElem?_set_ne hi]

/-- The next state in which a frame step of `t` leaves the process, as far as the program is concerned. -/
structure Same (e e' : State σ C) (t : Nat) : Prop where
  l : e'.w.l = e.w.l
  mem : e'.mem = e.mem
  stk : ∀ u, u ≠ t → e'.w.p.stk u = e.w.p.stk u
  td : ∀ u, u ≠ t → e'.w.p.tdtors u = e.w.p.tdtors u
  code : ∀ u, u ≠ t → e'.code u = e.code u
  fc : ∀ x g, e.fcode x = some g → e'.fcode x = some g
  nextT : e'.w.p.nextT = e.w.p.nextT
  fresh : ∀ f, e'.w.p.nextF ≤ f → e'.fcode f = none
  dead : e'.w.p.dead = false → e.w.p.dead = false

/-- A step the abstract machine does not see. -/
theorem Rel.stutter {e e' : State σ C} {a : Abs σ C} (R : Rel pr c e a) {t : Nat} {T : AThr C} (hT : a.thr[t]? = some T)
    (hcall : e.w.l.call t = none) (S : Same e e' t)
    (hpos : posOf pr c (retv e.w.l t) e'.fcode (e'.w.p.stk t) (e'.code t) = some T.pos)
    (htd : e'.w.p.tdtors t = e.w.p.tdtors t) (hdt : e'.w.p.dtors = e.w.p.dtors)
    (hlog : ∀ x ∈ e'.w.p.log, x ∈ e.w.p.log ∨ ((∀ t e, x ≠ .pDone t e) ∧ ∀ t e st, x ≠ .group t e st))
    (hlog' : ∀ x ∈ e.w.p.log, x ∈ e'.w.p.log) : Rel pr c e' a := by
  refine R.upd hT S.l hcall (by rw [S.mem]; exact R.mem) (set_same hT) S.stk S.td S.code S.fc S.nextT hpos ?_ rfl ?_ S.fresh ?_ ?_ ?_
  · rw [htd]; exact map_mono S.fc (R.thr t T hT).fns
  · rw [hdt]; exact map_mono S.fc R.fns
  · rw [R.closed]
    refine and_congr Iff.rfl ⟨fun ⟨t, x, h⟩ => ⟨t, x, hlog' _ h⟩, fun ⟨t, x, h⟩ => ⟨t, x, (hlog _ h).resolve_right fun h => h.1 t x rfl⟩⟩
  · intro h; exact R.status (S.dead h)
  · intro t x st h; exact R.ended t x st ((hlog _ h).resolve_right fun h => h.2 t x st rfl)

/-- A step the abstract machine makes too: thread `t` becomes `T'`. -/
theorem Rel.move {e e' : State σ C} {a a' : Abs σ C} (R : Rel pr c e a) {t : Nat} {T : AThr C} (T' : AThr C) (hT : a.thr[t]? = some T)
    (hcall : e.w.l.call t = none) (S : Same e e' t) (hm : a'.mem = a.mem) (hthr : a'.thr = a.thr.set t T') (hss : a'.status = a.status)
    (hpos : posOf pr c (retv e.w.l t) e'.fcode (e'.w.p.stk t) (e'.code t) = some T'.pos)
    (hfns : T'.fns.map some = (e'.w.p.tdtors t).map e'.fcode) (htid : T'.tid = T.tid)
    (hdt : a'.fns.map some = e'.w.p.dtors.map e'.fcode) (hcl : a'.closed = true ↔ (locks c = true ∧ PFinished e'.w.p.log))
    (hd : e.w.p.dead = false)
    (hlog : ∀ x ∈ e'.w.p.log, x ∈ e.w.p.log ∨ ∀ t e st, x ≠ .group t e st) :
    Rel pr c e' a' :=
  R.upd hT S.l hcall (by rw [S.mem, hm]; exact R.mem) hthr S.stk S.td S.code S.fc S.nextT hpos hfns htid hdt S.fresh hcl
    (fun _ => hss.trans (R.status hd))
    fun t x st h => hss.trans (R.ended t x st ((hlog _ h).resolve_right fun h => h t x st rfl))

theorem Rel.thread {e : State σ C} {a : Abs σ C} (R : Rel pr c e a) (Rp : Proc.Reach c e.w.p) {t : Nat} (h : e.w.p.stk t ≠ []) :
    ∃ T, a.thr[t]? = some T := by
  have : t < a.thr.length := by
    rw [R.len]
    exact Nat.lt_of_not_le fun hn => h (Rp.sinv.new t hn)
  exact ⟨a.thr[t], List.getElem?_eq_getElem this⟩

end Origin.User
