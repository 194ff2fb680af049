import Verif.Spec.Lifecycle
/-!
# The lifecycle invariant
-/

namespace Origin.Life

def Call.kind : Call → Kind
  | .swap .. => .detach
  | .load k _ _ | .wait k _ _ _ | .blocked k _ _ | .readFields k _ _ _ | .drop k _ _ _ _ | .unmap k _ _ _ => k
  | .loadRet .. => .join

def Call.phase : Call → Phase
  | .swap .. => .start
  | .load .. | .wait .. | .blocked .. => .waiting
  | _ => .freeing

/-- The thread is in user code. -/
def Stage.user : Stage → Prop
  | .body | .dtors _ => True
  | _ => False

/-- The thread has made its `exit` call. -/
def Stage.gone : Stage → Prop
  | .kClear | .kWake | .dead => True
  | _ => False

/-- The kernel is past the clearing of the thread id. -/
def Stage.past : Stage → Prop
  | .kWake | .dead => True
  | _ => False

abbrev Cons := Option (Inst × Kind × Phase)

/-! The invariant comes in two strengths for each thread: `w = false` for a thread whose waiter is not woken by a stray wake-up and that gets no
late signal, `w = true` for all others: their waiter may go on to free their memory while they run. -/

/-- consumption not yet effective (or begun too early) -/
def Pending (w : Bool) (c : Cons) : Prop :=
  c = none ∨ (∃ j, c = some (j, .join, .waiting)) ∨ (∃ j, c = some (j, .detach, .start)) ∨
    (w = true ∧ ∃ j, c = some (j, .join, .freeing))

/-- The memory was freed too early. -/
def Lost (w : Bool) (c : Cons) (m : Option Rec) : Prop := w = true ∧ m = none ∧ ∃ j k, c = some (j, k, .freed)

def Released (c : Cons) : Prop := ∃ j, c = some (j, .detach, .released)

/-- Before the compare-exchange. -/
def Live (w : Bool) (T : Thr) (c : Cons) (m : Option Rec) : Prop :=
  T.clear = !T.forked ∧ (Lost w c m ∨ ∃ r, m = some r ∧ r.tid = T.tid ∧
    ((r.detached = .initial ∧ Pending w c) ∨ (r.detached = .detached ∧ Released c)))

/-- On the detached path, memory still there. -/
def Det (T : Thr) (c : Cons) (m : Option Rec) : Prop :=
  Released c ∧ ∃ r, m = some r ∧ r.tid = T.tid ∧ r.detached = .detached

/-- On the detached path, memory gone. -/
def DetGone (sig : Bool) (T : Thr) (c : Cons) (m : Option Rec) : Prop :=
  Released c ∧ m = none ∧ T.clear = false ∧ T.masked = sig

/-- On the joinable path, before the kernel clears the id. -/
def Aband (w : Bool) (T : Thr) (c : Cons) (m : Option Rec) : Prop :=
  T.clear = !T.forked ∧ (Lost w c m ∨ ∃ r, m = some r ∧ r.tid = T.tid ∧
    ((r.detached = .abandoned ∧ Pending w c) ∨
     (r.detached = .detached ∧ ∃ j, c = some (j, .detach, .waiting) ∨ (w = true ∧ c = some (j, .detach, .freeing)))))

/-- On the joinable path, after the kernel cleared the id. -/
def Over (w : Bool) (T : Thr) (c : Cons) (m : Option Rec) : Prop :=
  T.clear = true ∧
    ((m = none ∧ ∃ j k, c = some (j, k, .freed)) ∨
     ∃ r, m = some r ∧ r.tid = 0 ∧ T.ret = some r.ret ∧
      ((r.detached = .abandoned ∧ (Pending w c ∨ ∃ j, c = some (j, .join, .freeing))) ∨
       (r.detached = .detached ∧ ∃ j, c = some (j, .detach, .waiting) ∨ c = some (j, .detach, .freeing))))

/-- On the joinable path, over, and the kernel had no id to clear. -/
def Stuck (w : Bool) (T : Thr) (c : Cons) (m : Option Rec) : Prop :=
  T.forked = true ∧ Aband w T c m ∧ ∀ r, m = some r → T.ret = some r.ret

def Good (w sig : Bool) (T : Thr) (c : Cons) (m : Option Rec) : Prop :=
  match T.stage with
  | .born | .body => Live w T c m ∧ T.ret = none
  | .dtors v | .cas v => Live w T c m ∧ T.ret = some v
  | .storeRet v => Aband w T c m ∧ T.ret = some v
  | .dRead => Det T c m ∧ T.clear = !T.forked
  | .dDrop o => Det T c m ∧ T.clear = !T.forked ∧ o = true
  | .dSetTid => Det T c m ∧ T.clear = !T.forked
  | .dMask => Det T c m ∧ T.clear = false
  | .dUnmap => Det T c m ∧ T.clear = false ∧ T.masked = sig
  | .dExit => DetGone sig T c m
  | .exitCall => Aband w T c m ∧ ∀ r, m = some r → T.ret = some r.ret
  | .kClear => (Aband w T c m ∧ ∀ r, m = some r → T.ret = some r.ret) ∨ DetGone sig T c m
  | .kWake => Over w T c m
  | .dead => Over w T c m ∨ DetGone sig T c m ∨ Stuck w T c m

/-- What the log says about `h`. -/
structure Link (h : Inst) (T : Thr) (c : Cons) (m : Option Rec) (l : List Ev) : Prop where
  ret : ∀ v, Ev.returned h v ∈ l ↔ T.ret = some v
  ex : Ev.exited h ∈ l ↔ T.stage.gone
  cl : Ev.cleared h ∈ l ↔ (T.clear = true ∧ T.stage.past)
  jc : ∀ j, Ev.joinCall j h ∈ l ↔ ∃ ph, c = some (j, .join, ph)
  dc : ∀ j, Ev.detachCall j h ∈ l ↔ ∃ ph, c = some (j, .detach, ph)
  jd : ∀ j v, Ev.joined j h v ∈ l → c = some (j, .join, .freed)
  dd : ∀ j, Ev.detachDone j h ∈ l ↔ (c = some (j, .detach, .released) ∨ c = some (j, .detach, .freed))
  cr : ∃ p, Ev.created p h T.addr T.tid ∈ l
  cr1 : ∀ p a tid, Ev.created p h a tid ∈ l → a = T.addr ∧ tid = T.tid
  um : (∃ j, Ev.unmap h j ∈ l) ↔ m = none
  um1 : unmaps h l ≤ 1

/-- Main thread: never leaves its body, memory not its own and never freed. -/
def MainOk (h : Inst) (T : Thr) (c : Cons) (m : Option Rec) : Prop :=
  (h = 0 → T.stage = .body) ∧ (∀ r, m = some r → r.owned = decide (h ≠ 0)) ∧
    (h = 0 → m ≠ none ∧ ∀ j k, c ≠ some (j, k, .freeing) ∧ c ≠ some (j, k, .freed))

structure Ok (w sig : Bool) (h : Inst) (T : Thr) (c : Cons) (m : Option Rec) (l : List Ev) : Prop where
  good : Good w sig T c m
  link : Link h T c m l
  main : MainOk h T c m
  tid : T.tid ≠ 0

/-- What a call in progress knows. -/
def CallVal (w : Bool) : Call → Thr → Prop
  | .wait _ _ _ v, H => v = H.tid
  | .blocked _ _ _, H => H.forked = true ∨ H.stage ≠ .dead
  | .readFields .join _ _ v, H => w = true ∨ H.ret = some v
  | .drop .join _ _ v o, H => (w = true ∨ H.ret = some v) ∧ o = true
  | .drop .detach _ _ _ o, _ => o = true
  | .unmap .join _ _ v, H => w = true ∨ H.ret = some v
  | _, _ => True

structure CallOk (w : Inst → Bool) (s : State) (j : Inst) (c : Call) : Prop where
  actor : ∃ T, s.thr j = some T ∧ T.stage.user
  target : ∃ H, s.thr c.target = some H ∧ H.addr = c.addr ∧ CallVal (w c.target) c H
  cons : s.cons c.target = some (j, c.kind, c.phase)

/-- The instance an event is about. -/
def Ev.about : Ev → Inst
  | .created _ h _ _ | .returned h _ | .exited h | .cleared h | .joinCall _ h | .joined _ h _
  | .detachCall _ h | .detachDone _ h | .idRes _ h _ | .unmap h _ | .fault _ h => h

/-- What must have happened before an event. -/
def EvOk (w : Inst → Bool) : Ev → List Ev → Prop
  | .joined j h v, old => (w h = true ∨ Ev.returned h v ∈ old ∧ Ev.exited h ∈ old) ∧ Ev.unmap h j ∈ old
  | .unmap h j, old => (∀ j', Ev.unmap h j' ∉ old) ∧
      ((j = h ∧ Ev.exited h ∉ old ∧ ∃ d, Ev.detachDone d h ∈ old) ∨
       ((w h = true ∨ Ev.exited h ∈ old) ∧ (Ev.joinCall j h ∈ old ∨ Ev.detachCall j h ∈ old)))
  | .idRes _ h r, old => ∃ p a tid, Ev.created p h a tid ∈ old ∧
      (Ev.cleared h ∉ old → r = some tid) ∧ (Ev.cleared h ∈ old → r = none)
  | .fault t h, _ => t = h ∧ w h = true
  | _, _ => True

def TraceOk (w : Inst → Bool) : List Ev → Prop
  | [] => True
  | e :: l => EvOk w e l ∧ TraceOk w l

structure Inv (w : Inst → Bool) (sig : Bool) (s : State) : Prop where
  nextPos : s.next ≠ 0
  lt : ∀ h T, s.thr h = some T → h < s.next
  consThr : ∀ h, s.cons h ≠ none → s.thr h ≠ none
  ok : ∀ h T, s.thr h = some T → Ok (w h) sig h T (s.cons h) (s.view T.addr h) s.log
  recOk : ∀ a r, s.recs a = some r → ∃ T, s.thr r.owner = some T ∧ T.addr = a
  callOk : ∀ j c, s.call j = some c → CallOk w s j c
  logThr : ∀ e ∈ s.log, ∃ T, s.thr e.about = some T
  trace : TraceOk w s.log
  tids : ∀ h T h' T', s.thr h = some T → s.thr h' = some T' → T.stage ≠ .dead → T'.stage ≠ .dead →
    T.tid = T'.tid → h = h'
  mainAddr : ∀ T0 t T, s.thr 0 = some T0 → s.thr t = some T → t ≠ 0 → T.addr ≠ T0.addr

/-! ### frame lemmas -/

theorem unmaps_cons_ne {h : Inst} {e : Ev} {l : List Ev} (hne : e.about ≠ h) : unmaps h (e :: l) = unmaps h l := by
  unfold unmaps
  rw [List.filter_cons]
  cases e <;> simp_all [Ev.about]

theorem Link.frame {h : Inst} {T : Thr} {c : Cons} {m : Option Rec} {l : List Ev} {e : Ev}
    (L : Link h T c m l) (hne : e.about ≠ h) : Link h T c m (e :: l) := by
  have key : ∀ e' : Ev, e'.about = h → (e' ∈ e :: l ↔ e' ∈ l) := by
    intro e' he'
    rw [List.mem_cons]
    constructor
    · rintro (rfl | h)
      · exact absurd he' hne
      · exact h
    · exact .inr
  refine ⟨?_, ?_, ?_, ?_, ?_, ?_, ?_, ?_, ?_, ?_, ?_⟩
  · intro v; rw [key _ rfl]; exact L.ret v
  · rw [key _ rfl]; exact L.ex
  · rw [key _ rfl]; exact L.cl
  · intro j; rw [key _ rfl]; exact L.jc j
  · intro j; rw [key _ rfl]; exact L.dc j
  · intro j v; rw [key _ rfl]; exact L.jd j v
  · intro j; rw [key _ rfl]; exact L.dd j
  · obtain ⟨p, hp⟩ := L.cr; exact ⟨p, (key _ rfl).mpr hp⟩
  · intro p a tid; rw [key _ rfl]; exact L.cr1 p a tid
  · rw [← L.um]; constructor <;> rintro ⟨j, hj⟩ <;> exact ⟨j, by first | exact (key _ rfl).mp hj | exact (key _ rfl).mpr hj⟩
  · rw [unmaps_cons_ne hne]; exact L.um1

theorem Link.frames {h : Inst} {T : Thr} {c : Cons} {m : Option Rec} {l : List Ev} (es : List Ev)
    (L : Link h T c m l) (hne : ∀ e ∈ es, e.about ≠ h) : Link h T c m (es ++ l) := by
  induction es with
  | nil => exact L
  | cons e es ih =>
    exact (ih fun e he => hne e (List.mem_cons_of_mem _ he)).frame (hne e List.mem_cons_self)

theorem view_some {s : State} {a : Nat} {h : Inst} {r : Rec} (hv : s.view a h = some r) :
    s.recs a = some r ∧ r.owner = h := by
  unfold State.view at hv
  split at hv
  · next r' hr =>
    split at hv
    · next ho => injection hv with hv; subst hv; exact ⟨hr, ho⟩
    · cases hv
  · cases hv

theorem view_of {s : State} {a : Nat} {h : Inst} {r : Rec} (hr : s.recs a = some r) (ho : r.owner = h) :
    s.view a h = some r := by
  unfold State.view; simp [hr, ho]

/-- The general step lemma: only instance `x` changes. -/
theorem inv_upd {w : Inst → Bool} {sig : Bool} {s s' : State} (I : Inv w sig s) (x : Inst) {X X' : Thr} (es : List Ev)
    (hx : s.thr x = some X) (hx' : s'.thr x = some X') (ha : X'.addr = X.addr) (ht : X'.tid = X.tid)
    (hthr : ∀ y, y ≠ x → s'.thr y = s.thr y) (hcons : ∀ y, y ≠ x → s'.cons y = s.cons y)
    (hrec : ∀ a, a ≠ X.addr → s'.recs a = s.recs a)
    (hrec2 : s'.recs X.addr = s.recs X.addr ∨ ((∃ r, s.view X.addr x = some r) ∧
      (s'.recs X.addr = none ∨ ∃ r', s'.recs X.addr = some r' ∧ r'.owner = x)))
    (hlog : s'.log = es ++ s.log) (habout : ∀ e ∈ es, e.about = x) (hnext : s'.next = s.next)
    (hok : Ok (w x) sig x X' (s'.cons x) (s'.view X.addr x) s'.log)
    (hcall : ∀ j c, s'.call j = some c → CallOk w s' j c)
    (htrace : TraceOk w s'.log) (hdead : X.stage = .dead → X'.stage = .dead) : Inv w sig s' := by
  have hview : ∀ y Y, y ≠ x → s.thr y = some Y → s'.view Y.addr y = s.view Y.addr y := by
    intro y Y hy hY
    by_cases hYa : Y.addr = X.addr
    · rw [hYa]
      rcases hrec2 with h | ⟨⟨r, hr⟩, h⟩
      · unfold State.view; rw [h]
      · obtain ⟨h1, h2⟩ := view_some hr
        have e1 : s.view X.addr y = none := by
          unfold State.view; simp only [h1]; rw [if_neg (by rw [h2]; exact fun h => hy h.symm)]
        rw [e1]
        rcases h with h | ⟨r', h, ho⟩
        · unfold State.view; rw [h]
        · unfold State.view; simp only [h]; rw [if_neg (by rw [ho]; exact fun h => hy h.symm)]
    · unfold State.view; rw [hrec _ hYa]
  have hdom : ∀ y T, s'.thr y = some T → ∃ T0, s.thr y = some T0 := by
    intro y T hy
    by_cases h : y = x
    · subst h; exact ⟨X, hx⟩
    · rw [hthr y h] at hy; exact ⟨T, hy⟩
  constructor
  · rw [hnext]; exact I.nextPos
  · intro h T hT
    obtain ⟨T0, h0⟩ := hdom h T hT
    rw [hnext]; exact I.lt h T0 h0
  · intro h hc
    by_cases hh : h = x
    · subst hh; rw [hx']; simp
    · rw [hcons h hh] at hc; rw [hthr h hh]; exact I.consThr h hc
  · intro h T hT
    by_cases hh : h = x
    · subst hh
      rw [hx'] at hT; injection hT with hT; subst hT
      rw [ha]; exact hok
    · rw [hthr h hh] at hT
      have O := I.ok h T hT
      rw [hcons h hh, hview h T hh hT, hlog]
      exact ⟨O.good, O.link.frames es fun e he => by rw [habout e he]; exact fun h => hh h.symm, O.main, O.tid⟩
  · intro a r hr
    by_cases haX : a = X.addr
    · subst haX
      rcases hrec2 with h | ⟨-, h⟩
      · rw [h] at hr
        obtain ⟨T, h1, h2⟩ := I.recOk _ r hr
        by_cases hh : r.owner = x
        · rw [hh]; exact ⟨X', hx', ha⟩
        · exact ⟨T, by rw [hthr _ hh]; exact h1, h2⟩
      · rcases h with h | ⟨r', h, ho⟩
        · rw [h] at hr; cases hr
        · rw [h] at hr; injection hr with hr; subst hr
          rw [ho]; exact ⟨X', hx', ha⟩
    · rw [hrec a haX] at hr
      obtain ⟨T, h1, h2⟩ := I.recOk a r hr
      by_cases hh : r.owner = x
      · rw [hh, hx] at h1; injection h1 with h1; subst h1; exact absurd h2.symm haX
      · exact ⟨T, by rw [hthr _ hh]; exact h1, h2⟩
  · exact hcall
  · intro e he
    rw [hlog] at he
    rcases List.mem_append.mp he with he | he
    · rw [habout e he]; exact ⟨X', hx'⟩
    · obtain ⟨T, hT⟩ := I.logThr e he
      by_cases hh : e.about = x
      · rw [hh]; exact ⟨X', hx'⟩
      · rw [hthr _ hh]; exact ⟨T, hT⟩
  · exact htrace
  · intro h T h' T' h1 h2 d1 d2 heq
    have conv : ∀ y Y, s'.thr y = some Y → Y.stage ≠ .dead → ∃ Y0, s.thr y = some Y0 ∧ Y0.stage ≠ .dead ∧ Y0.tid = Y.tid := by
      intro y Y hy hd
      by_cases hh : y = x
      · subst hh; rw [hx'] at hy; injection hy with hy; subst hy
        exact ⟨X, hx, fun hX => hd (hdead hX), ht.symm⟩
      · rw [hthr y hh] at hy; exact ⟨Y, hy, hd, rfl⟩
    obtain ⟨A, a1, a2, a3⟩ := conv h T h1 d1
    obtain ⟨B, b1, b2, b3⟩ := conv h' T' h2 d2
    exact I.tids h A h' B a1 b1 a2 b2 (by rw [a3, b3, heq])
  · have conv : ∀ y Y, s'.thr y = some Y → ∃ Y0, s.thr y = some Y0 ∧ Y0.addr = Y.addr := by
      intro y Y hy
      by_cases hh : y = x
      · subst hh; rw [hx'] at hy; injection hy with hy; subst hy; exact ⟨X, hx, ha.symm⟩
      · rw [hthr y hh] at hy; exact ⟨Y, hy, rfl⟩
    intro T0 t T h0 h1 hne
    obtain ⟨A, a1, a2⟩ := conv 0 T0 h0
    obtain ⟨B, b1, b2⟩ := conv t T h1
    rw [← a2, ← b2]
    exact I.mainAddr A t B a1 b1 hne

end Origin.Life
