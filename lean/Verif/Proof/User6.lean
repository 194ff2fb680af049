import Verif.Proof.User5
set_option linter.unusedSimpArgs false
/-! # User programs: steps of the lifecycle -/

namespace Origin.User
open Proc (Frame Fn PFinished)
open Whole (userTop running news)

variable {σ C : Type} {pr : Prg σ C} {c : Proc.Cfg} {sig : Bool} {e : State σ C} {a : Abs σ C}

/-- What is known of origin's state: a history without stray wake-ups and late signals. -/
structure Calm (c : Proc.Cfg) (sig : Bool) (w : Whole.State) : Prop where
  known : Whole.Known c sig (Life.Orderly sig) none w
  up : w.crashed = false

theorem Calm.for {w : Whole.State} (K : Calm c sig w) (h : Nat) : Life.Inv (Life.only h) sig w.l := (K.known.life.orderlyFor h).inv

theorem Calm.linked {w : Whole.State} (K : Calm c sig w) : Whole.Linked w := K.known.inv.linked K.up

theorem no_fault {l : Life.State} (R : Life.Reach sig (Life.Orderly sig) l) (t h : Nat) : Life.Ev.fault t h ∉ l.log :=
  Life.C23_no_use_after_free_partial (R.orderlyFor h) t

theorem any_fault {l : Life.State} (R : Life.Reach sig (Life.Orderly sig) l) {evs old : List Life.Ev} (h : l.log = evs ++ old) :
    evs.any Whole.isFault = false := by
  rw [List.any_eq_false]
  intro x hx hf
  cases x <;> simp [Whole.isFault] at hf
  exact no_fault R _ _ (by rw [h]; exact List.mem_append_left _ hx)

/-- Nothing crashes. -/
theorem next_calm (w : Whole.State) {l' : Life.State} {p' : Proc.State} (R : Life.Reach sig (Life.Orderly sig) l') {le : List Life.Ev}
    {pe : List Proc.Ev} (hl : l'.log = le ++ w.l.log) (hp : p'.log = pe ++ w.p.log) :
    w.next l' p' = ⟨l', p', false, pe.map .inr ++ le.map .inl ++ w.log⟩ := by
  unfold Whole.State.next
  rw [hl, hp, Whole.news_append, Whole.news_append, any_fault R hl]
  simp

theorem absorb_both (e : State σ C) {l' : Life.State} {p' : Proc.State} (R : Life.Reach sig (Life.Orderly sig) l') {le : List Life.Ev}
    {pe : List Proc.Ev} (hl : l'.log = le ++ e.w.l.log) (hp : p'.log = pe ++ e.w.p.log) :
    e.absorb pr c (e.w.next l' p') =
      (pe.map Sum.inr ++ le.map Sum.inl).reverse.foldl (react pr c) { e with w := ⟨l', p', false, pe.map Sum.inr ++ le.map Sum.inl ++ e.w.log⟩ } := by
  unfold State.absorb
  rw [next_calm e.w R hl hp, Whole.news_append]

/-- Quiet events mean nothing to a program. -/
theorem react_quiet (evs : List Life.Ev) (h : ∀ x ∈ evs, x.quiet = true) (e : State σ C) :
    (evs.map Sum.inl).foldl (react pr c) e = e := by
  induction evs generalizing e with
  | nil => rfl
  | cons x xs ih =>
    rw [List.map_cons, List.foldl_cons]
    have hx := h x List.mem_cons_self
    have : react pr c e (.inl x) = e := by cases x <;> simp [Life.Ev.quiet] at hx <;> rfl
    rw [this]
    exact ih (fun y hy => h y (List.mem_cons_of_mem _ hy)) e

theorem Keep.retv {l l' : Life.State} (h : Life.Keep l l') {t : Nat} (ht : ∃ L, l.thr t = some L) : retv l' t = retv l t := by
  obtain ⟨L, hL⟩ := ht
  obtain ⟨L', h1, h2, -⟩ := h t L hL
  simp [User.retv, hL, h1, h2]

/-- Only the lifecycle moves, and the program does not see it. -/
theorem Rel.life (R : Rel pr c e a) {l' : Life.State} {cr : Bool} {lg : List Whole.Ev} (hk : Life.Keep e.w.l l')
    (hcall : ∀ u cl', l'.call u = some cl' → (∃ cl, e.w.l.call u = some cl ∧ cl'.kind = cl.kind ∧ cl'.target = cl.target) ∨
      ∃ fn rest cd cs, e.w.p.stk u = .user fn :: rest ∧ e.code u = cd :: cs ∧ (cl'.kind = .join → ∃ k, pr.op cd = .join cl'.target k)) :
    Rel pr c { e with w := ⟨l', e.w.p, cr, lg⟩ } a := by
  refine ⟨R.mem, R.len, ?_, R.fns, R.fresh, R.closed, R.status, R.ended, ?_⟩
  · intro t T hT
    have TR := R.thr t T hT
    refine TR.mono (Keep.retv hk ?_) ?_ rfl rfl rfl fun _ _ h => h
    · obtain ⟨L, h, -⟩ := TR.tid; exact ⟨L, h⟩
    · intro L hL
      obtain ⟨L', h1, -, h3⟩ := hk t L hL
      exact ⟨L', h1, h3⟩
  · intro t cl' h'
    rcases hcall t cl' h' with ⟨cl, h1, h2, h3⟩ | h
    case inr => exact h
    obtain ⟨fn, rest, cd, cs, q1, q2, q3⟩ := R.call t cl h1
    exact ⟨fn, rest, cd, cs, q1, q2, fun hk => by rw [h3]; exact q3 (h2 ▸ hk)⟩

/-- A thread that has been joined is done. -/
theorem joined_done {w : Whole.State} (K : Calm c sig w) {j h v : Nat} (hj : Life.Ev.joined j h v ∈ w.l.log) :
    w.p.stk h = [] ∧ retv w.l h = v ∧ h < w.p.nextT := by
  have I := K.for h
  obtain ⟨hl, h0⟩ := Life.late_of_gone I (.inl ⟨j, v, hj⟩)
  have hr := K.linked.late h h0 hl
  refine ⟨(K.known.proc.rinv.gone h hr).1, ?_, ?_⟩
  · obtain ⟨old, h1, h2⟩ := Life.trace_mem I.trace hj
    obtain ⟨T, hT⟩ := I.logThr _ hj
    have := (h1.1.resolve_left (by simp [Life.only_self])).1
    have := ((I.ok h T hT).link.ret v).mp (h2 _ this)
    simp [retv, show w.l.thr h = some T from hT, this]
  · obtain ⟨T, hT⟩ := I.logThr _ hj
    rw [← K.linked.next]
    exact I.lt h T hT

/-- A step of origin's or the kernel's in the lifecycle. -/
theorem sim_sysW (R : Rel pr c e a) (hd : e.w.p.dead = false) {l' : Life.State} (E : Life.SysEff e.w.l l') (K : Calm c sig (e.w.next l' e.w.p)) :
    ∃ a', ((a' = a ∧ ∃ evs, l'.log = evs ++ e.w.l.log ∧ ∀ x ∈ evs, x.quiet = true) ∨
      ∃ t r x, astep pr (locks c) a t r x = some a' ∧ a.waits pr t = true ∧
        ∃ u v evs, l'.log = .joined t u v :: evs ++ e.w.l.log ∧ ∀ x ∈ evs, x.quiet = true) ∧ Rel pr c (e.absorb pr c (e.w.next l' e.w.p)) a' := by
  obtain ⟨evs, hlog, hev⟩ := E.log
  have RL : Life.Reach sig (Life.Orderly sig) l' := by
    have := K.known.life; rwa [(Whole.next_cases l' e.w.p).1] at this
  have hn := next_calm (p' := e.w.p) (pe := []) e.w RL hlog rfl
  rw [absorb_both e RL hlog (pe := []) rfl]
  rw [hn] at K
  simp only [List.map_nil, List.nil_append] at K ⊢
  have R1 := R.life (cr := false) (lg := evs.map .inl ++ e.w.log) E.keep fun u cl h => .inl (E.call u cl h)
  rcases hev with hq | ⟨t, h, v, evs', rfl, hq, hc', cl, hcl, hk, htg⟩
  · rw [← List.map_reverse, react_quiet _ (fun x hx => hq x (List.mem_reverse.mp hx))]
    exact ⟨a, .inl ⟨rfl, evs, hlog, hq⟩, R1⟩
  · rw [List.map_cons, List.reverse_cons, List.foldl_append, ← List.map_reverse, react_quiet _ (fun x hx => hq x (List.mem_reverse.mp hx))]
    obtain ⟨fn, rest, cd, cs, hs, hcd, hop⟩ := R.call t cl hcl
    obtain ⟨k, hop⟩ := hop hk
    rw [htg] at hop
    obtain ⟨T, hT⟩ := R.thread K.known.proc (t := t) (by rw [hs]; simp)
    have TR := R1.thr t T hT
    have hpos := TR.pos
    obtain ⟨hg, hv, hlt⟩ := joined_done K (j := t) (h := h) (v := v) (by show _ ∈ l'.log; rw [hlog]; simp)
    rw [show ({ e with w := ⟨l', e.w.p, false, _⟩ } : State σ C).w.p.stk t = _ from hs, show ({ e with w := ⟨l', e.w.p, false, _⟩ } : State σ C).code t = _ from hcd] at hpos
    simp only [posOf] at hpos
    obtain ⟨cd', cs', kk, hcd', hTp⟩ := posU_run hpos
    cases hcd'
    have hst := R.status hd
    have has := astep_run (pr := pr) (c := c) (r := none) (x := 0) hst hT hTp
    have hlt' : h < a.thr.length := by rw [R.len]; exact hlt
    have hH : a.thr[h]? = some a.thr[h] := List.getElem?_eq_getElem hlt'
    have HR := (R1.thr h _ hH).pos
    rw [show ({ e with w := ⟨l', e.w.p, false, _⟩ } : State σ C).w.p.stk h = _ from hg] at HR
    simp only [posOf, Option.some.injEq] at HR
    rw [show retv _ h = v from hv] at HR
    rw [hop] at has
    have hop' : opStep a t T kk none 0 (.join h k) = some (a.setThr t { T with pos := .run (k v) kk }) := by
      simp only [opStep, hH]
      cases hx : a.thr[h] with
      | mk pp ff tt => rw [hx] at HR; simp only at HR; subst HR; rfl
    refine ⟨_, .inr ⟨t, none, 0, has.trans hop', by cases T; simp only at hTp; subst hTp; simp [Abs.waits, hT, hop], h, v, evs', hlog, hq⟩, ?_⟩
    simp only [List.map_cons, List.map_nil, List.foldl_cons, List.foldl_nil, react, hcd, hop]
    refine R1.upd (T' := { T with pos := .run (k v) kk }) hT rfl hc' R.mem rfl (fun _ _ => rfl) (fun _ _ => rfl) ?_ (fun _ _ h => h) rfl ?_ TR.fns rfl R.fns R.fresh R.closed (fun _ => hst) R.ended
    · intro u hu; simp [State.setCode, hu]
    · rw [hTp] at hpos
      simp only [State.setCode, if_true, hs, posOf]
      exact posU_congr hpos

theorem sim_sys (R : Rel pr c e a) (hd : e.w.p.dead = false) {l' : Life.State} (E : Life.SysEff e.w.l l') (K : Calm c sig (e.w.next l' e.w.p)) :
    Sim pr c a (e.absorb pr c (e.w.next l' e.w.p)) := by
  obtain ⟨a', h | ⟨t, r, x, h, -⟩, RR⟩ := sim_sysW R hd E K
  · exact ⟨a', .inl h.1, RR⟩
  · exact ⟨a', .inr ⟨t, r, x, h⟩, RR⟩

end Origin.User
