import Verif.Proof.Lifecycle
/-!
# The lifecycle invariant is preserved
-/

namespace Origin.Life

variable {w : Inst → Bool} {b sig : Bool} {s s' : State}

theorem Inv.noSelfTarget (I : Inv w sig s) {t h : Inst} {c : Call} (hc : s.call t = some c) (hh : c.target = h) :
    ∀ j c', s.call j = some c' → c'.target = h → j = t := by
  intro j c' h1 h2
  have e1 := (I.callOk t c hc).cons
  have e2 := (I.callOk j c' h1).cons
  rw [hh] at e1
  rw [h2, e1] at e2
  injection e2 with e2
  have := congrArg Prod.fst e2
  exact this.symm

theorem callVal_mono {c : Call} {X X' : Thr} (h1 : ∀ v, X.ret = some v → X'.ret = some v) (h2 : X'.tid = X.tid)
    (h3 : X'.stage ≠ .dead) (h : CallVal b c X) : CallVal b c X' := by
  cases c with
  | swap a h => trivial
  | load k a h => trivial
  | wait k a h v => exact h.trans h2.symm
  | blocked k a h => exact .inr h3
  | loadRet a h => trivial
  | readFields k a h v => cases k with
    | join => exact h.imp id (h1 _)
    | detach => trivial
  | drop k a h v o => cases k with
    | join => exact ⟨h.1.imp id (h1 _), h.2⟩
    | detach => exact h
  | unmap k a h v => cases k with
    | join => exact h.imp id (h1 _)
    | detach => trivial

/-- A step of the thread's own: only `thr t`, its record and the log change. -/
theorem inv_own (I : Inv w sig s) (t : Inst) {X X' : Thr} (es : List Ev)
    (hx : s.thr t = some X) (hx' : s'.thr t = some X') (ha : X'.addr = X.addr) (ht : X'.tid = X.tid)
    (hthr : ∀ y, y ≠ t → s'.thr y = s.thr y) (hcons : s'.cons = s.cons) (hcall : s'.call = s.call)
    (hrec : ∀ a, a ≠ X.addr → s'.recs a = s.recs a)
    (hrec2 : s'.recs X.addr = s.recs X.addr ∨ ((∃ r, s.view X.addr t = some r) ∧
      (s'.recs X.addr = none ∨ ∃ r', s'.recs X.addr = some r' ∧ r'.owner = t)))
    (hlog : s'.log = es ++ s.log) (habout : ∀ e ∈ es, e.about = t) (hnext : s'.next = s.next)
    (hok : Ok (w t) sig t X' (s.cons t) (s'.view X.addr t) s'.log)
    (hidle : s.call t = none)
    (hval : ∀ j c, s.call j = some c → c.target = t → CallVal (w t) c X → CallVal (w t) c X')
    (htrace : TraceOk w s'.log) (hdead : X.stage = .dead → X'.stage = .dead) : Inv w sig s' := by
  refine inv_upd I t es hx hx' ha ht hthr (fun y _ => by rw [hcons]) hrec hrec2 hlog habout hnext
    (by rw [hcons]; exact hok) ?_ htrace hdead
  intro j c hc
  rw [hcall] at hc
  have C := I.callOk j c hc
  have hj : j ≠ t := by rintro rfl; rw [hidle] at hc; cases hc
  obtain ⟨H, q1, q2, q3⟩ := C.target
  refine ⟨by rw [hthr j hj]; exact C.actor, ?_, by rw [hcons]; exact C.cons⟩
  by_cases hh : c.target = t
  · rw [hh, hx] at q1; injection q1 with q1; subst q1
    exact ⟨X', by rw [hh]; exact hx', by rw [ha]; exact q2, by rw [hh] at q3 ⊢; exact hval j c hc hh q3⟩
  · exact ⟨H, by rw [hthr _ hh]; exact q1, q2, q3⟩

/-- A step of an API call of `t` on `h`: only `call t`, `cons h`, `h`'s record and the log change. -/
theorem inv_call (I : Inv w sig s) (t h : Inst) {T H : Thr} (es : List Ev)
    (hT : s.thr t = some T) (huser : T.stage.user) (hH : s.thr h = some H)
    (hthr : s'.thr = s.thr) (hcons : ∀ y, y ≠ h → s'.cons y = s.cons y)
    (hcall : ∀ j, j ≠ t → s'.call j = s.call j)
    (hrec : ∀ a, a ≠ H.addr → s'.recs a = s.recs a)
    (hrec2 : s'.recs H.addr = s.recs H.addr ∨ ((∃ r, s.view H.addr h = some r) ∧
      (s'.recs H.addr = none ∨ ∃ r', s'.recs H.addr = some r' ∧ r'.owner = h)))
    (hlog : s'.log = es ++ s.log) (habout : ∀ e ∈ es, e.about = h) (hnext : s'.next = s.next)
    (hok : Ok (w h) sig h H (s'.cons h) (s'.view H.addr h) s'.log)
    (hexcl : ∀ j c, s.call j = some c → c.target = h → j = t)
    (hnew : ∀ c, s'.call t = some c → c.target = h ∧ c.addr = H.addr ∧ CallVal (w h) c H ∧
      s'.cons h = some (t, c.kind, c.phase))
    (htrace : TraceOk w s'.log) : Inv w sig s' := by
  refine inv_upd I h es hH (by rw [hthr]; exact hH) rfl rfl (fun y _ => by rw [hthr]) hcons hrec hrec2 hlog habout
    hnext hok ?_ htrace id
  intro j c hc
  by_cases hj : j = t
  · subst hj
    obtain ⟨n1, n2, n3, n4⟩ := hnew c hc
    exact ⟨⟨T, by rw [hthr]; exact hT, huser⟩, ⟨H, by rw [hthr, n1]; exact hH, n2.symm, by rw [n1]; exact n3⟩, by rw [n1]; exact n4⟩
  · rw [hcall j hj] at hc
    have C := I.callOk j c hc
    have hne : c.target ≠ h := fun hh => hj (hexcl j c hc hh)
    exact ⟨by rw [hthr]; exact C.actor, by rw [hthr]; exact C.target, by rw [hcons _ hne]; exact C.cons⟩

theorem Link.mono {h : Inst} {T T' : Thr} {c c' : Cons} {m m' : Option Rec} {l : List Ev}
    (L : Link h T c m l) (e1 : T'.ret = T.ret) (e2 : T'.stage.gone ↔ T.stage.gone)
    (e3 : (T'.clear = true ∧ T'.stage.past) ↔ (T.clear = true ∧ T.stage.past)) (e4 : T'.addr = T.addr)
    (e5 : T'.tid = T.tid) (e6 : m' = none ↔ m = none)
    (e7 : c' = c ∨ ∃ j k p p', c = some (j, k, p) ∧ c' = some (j, k, p') ∧
      p ≠ .freed ∧ p ≠ .released ∧ p' ≠ .freed ∧ p' ≠ .released) : Link h T' c' m' l := by
  have E7 : (∀ j, (∃ ph, c' = some (j, .join, ph)) ↔ (∃ ph, c = some (j, .join, ph))) ∧
      (∀ j, (∃ ph, c' = some (j, .detach, ph)) ↔ (∃ ph, c = some (j, .detach, ph))) ∧
      (∀ j, c' = some (j, .join, .freed) ↔ c = some (j, .join, .freed)) ∧
      (∀ j, (c' = some (j, .detach, .released) ∨ c' = some (j, .detach, .freed)) ↔
        (c = some (j, .detach, .released) ∨ c = some (j, .detach, .freed))) := by
    rcases e7 with rfl | ⟨j, k, p, p', rfl, rfl, a1, a2, a3, a4⟩
    · simp
    · simp [a1, a2, a3, a4]
  obtain ⟨f1, f2, f3, f4⟩ := E7
  constructor
  · intro v; rw [e1]; exact L.ret v
  · rw [e2]; exact L.ex
  · rw [e3]; exact L.cl
  · intro j; rw [f1]; exact L.jc j
  · intro j; rw [f2]; exact L.dc j
  · intro j v; rw [f3]; exact L.jd j v
  · intro j; rw [f4]; exact L.dd j
  · rw [e4, e5]; exact L.cr
  · rw [e4, e5]; exact L.cr1
  · rw [e6]; exact L.um
  · exact L.um1

end Origin.Life
