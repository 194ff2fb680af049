import Verif.Proof.Process4
/-! # The course of each exit call -/

namespace Origin.Proc

theorem course_cons (e : Exit) (x : Ev) (l : List Ev) :
    course e (x :: l) = course e l ++ (if x.exit? = some e then [x] else []) := by
  simp only [course, List.filter_cons]
  by_cases h : x.exit? = some e
  · rw [if_pos (by simp [h]), if_pos h]; simp
  · rw [if_neg (by simp [h]), if_neg h]; simp

theorem course_own {e : Exit} {x : Ev} (l : List Ev) (h : x.exit? = some e) : course e (x :: l) = course e l ++ [x] := by
  rw [course_cons, if_pos h]

theorem course_append (e : Exit) (evs l : List Ev) (h : ∀ x ∈ evs, x.exit? ≠ some e) : course e (evs ++ l) = course e l := by
  induction evs with
  | nil => rfl
  | cons x xs ih =>
    rw [List.cons_append, course_cons, if_neg (h x List.mem_cons_self), List.append_nil,
      ih (fun y hy => h y (List.mem_cons_of_mem _ hy))]

def thrPart (t : Tid) (e : Exit) (st : Int) (ts : List FnId) : List Ev :=
  [.exitBegin t e st] ++ ts.map (.tCall t (some e))
def progPart (t : Tid) (e : Exit) (st : Int) (ts ps : List FnId) : List Ev :=
  thrPart t e st ts ++ [.tDone t e] ++ ps.flatMap (fun f => [.pTake t e f, .pCall t e f])
def finiPart (c : Cfg) (n : Nat) (t : Tid) (e : Exit) (st : Int) (ts ps : List FnId) (k : Nat) : List Ev :=
  progPart t e st ts ps ++ [.pDone t e] ++ (List.range' k (n - k)).reverse.map (fun i => .fini t e (c.finiStart + i * c.ws))

theorem exitCourse_eq (c : Cfg) (n : Nat) (t : Tid) (e : Exit) (st : Int) (ts ps : List FnId) :
    exitCourse c n t e st ts ps = finiPart c n t e st ts ps 0 ++ [.group t e st] := by
  simp [exitCourse, finiPart, progPart, thrPart, List.range_eq_range']

/-- What has happened in an exit call whose frame is `fr`. -/
def Form (c : Cfg) (n : Nat) (t : Tid) (dead : Bool) (l : List Ev) : Frame → Prop
  | .exitThr e st => ∃ ts, course e l = thrPart t e st ts
  | .exitLock e st | .exitPop e st => ∃ ts ps, course e l = progPart t e st ts ps
  | .exitUnlock e st f | .exitCall e st f => ∃ ts ps, course e l = progPart t e st ts ps ++ [.pTake t e f]
  | .exitFini e st p => ∃ ts ps k, k ≤ n ∧ p = c.finiStart + k * c.ws ∧ course e l = finiPart c n t e st ts ps k
  | .exitImm e st => ∃ core, (core = [.immBegin t e st] ∨ ∃ ts ps, core = finiPart c n t e st ts ps 0) ∧
      (course e l = core ∨ (dead = true ∧ course e l = core ++ [.group t e st]))
  | _ => True

theorem Form.congr {c : Cfg} {n : Nat} {t : Tid} {d d' : Bool} {l l' : List Ev} {fr : Frame} (h : Form c n t d l fr)
    (hd : d = true → d' = true) (hc : ∀ e, fr.inst = some e → course e l' = course e l) : Form c n t d' l' fr := by
  cases fr <;> simp only [Form] at h ⊢
  all_goals (rw [hc _ rfl])
  all_goals first
    | exact h
    | (obtain ⟨core, h1, h2⟩ := h; exact ⟨core, h1, h2.imp id (fun h => ⟨hd h.1, h.2⟩)⟩)

def insts (l : List Frame) : List Exit := l.filterMap Frame.inst

theorem mem_insts {l : List Frame} {e : Exit} : e ∈ insts l ↔ ∃ fr ∈ l, fr.inst = some e := by simp [insts]

/-- What holds when the process ends. -/
def GOk (c : Cfg) (n : Nat) (K : Exit → Prop) (x : Ev) (old : List Ev) : Prop :=
  match x with
  | .group t e st => (∀ t' e' st', Ev.group t' e' st' ∉ old) ∧
      (course e old = [.immBegin t e st] ∨ ∃ ts ps, course e old ++ [.group t e st] = exitCourse c n t e st ts ps) ∧
      ∀ e' st', Ev.exitBegin t e' st' ∈ old ∨ Ev.immBegin t e' st' ∈ old → K e' ∨ e' ≤ e
  | _ => True

/-- What an `exit` call that was left in the middle (by a panic of one of the functions it called) had done. -/
def LeftForm (l : List Ev) (e : Exit) : Prop :=
  ∃ t st, (∃ ts, course e l = thrPart t e st ts) ∨ ∃ ts ps, course e l = progPart t e st ts ps

theorem LeftForm.congr {l l' : List Ev} {e : Exit} (h : LeftForm l e) (hc : course e l' = course e l) : LeftForm l' e := by
  unfold LeftForm at *; rw [hc]; exact h

/-- The invariant on `exit` calls; `K` are the calls that were left in the middle (none, as long as nobody panics). -/
structure EInv (c : Cfg) (n : Nat) (K : Exit → Prop) (s : State) : Prop where
  desc : ∀ t, (insts (s.stk t)).Pairwise (· > ·)
  lt : ∀ t, ∀ e ∈ insts (s.stk t), e < s.nextE
  dis : ∀ t t' e, e ∈ insts (s.stk t) → e ∈ insts (s.stk t') → t = t'
  form : ∀ t, ∀ fr ∈ s.stk t, Form c n t s.dead s.log fr
  cover : ∀ e, course e s.log ≠ [] → K e ∨ ∃ t, e ∈ insts (s.stk t)
  begun : ∀ t e st, Ev.exitBegin t e st ∈ s.log ∨ Ev.immBegin t e st ∈ s.log → K e ∨ e ∈ insts (s.stk t)
  left : ∀ e, K e → e < s.nextE ∧ (∀ t, e ∉ insts (s.stk t)) ∧ LeftForm s.log e
  alive : s.dead = false → ∀ t e st, Ev.group t e st ∉ s.log
  tr : TraceOk (GOk c n K) s.log

theorem EInv.init (c : Cfg) (n : Nat) : EInv c n (fun _ => False) init := by
  have h0 : ∀ t fr, fr ∈ Proc.init.stk t → fr = .entry := by
    intro t fr h
    simp only [Proc.init] at h
    split at h <;> simp at h
    exact h
  have hi : ∀ t, insts (Proc.init.stk t) = [] := by
    intro t
    simp only [insts, List.filterMap_eq_nil_iff]
    intro fr h; cases h0 t fr h; rfl
  constructor
  · intro t; rw [hi]; simp
  · intro t; rw [hi]; simp
  · intro t t' e; rw [hi]; simp
  · intro t fr h; cases h0 t fr h; trivial
  · intro e h; exact absurd rfl h
  · intro t e st h; rcases h with h | h <;> cases h
  · intro e h; cases h
  · intro _ t e st h; cases h
  · trivial

def Ev.isGroup : Ev → Bool
  | .group .. => true
  | _ => false

def Ev.isBegin : Ev → Bool
  | .exitBegin .. | .immBegin .. => true
  | _ => false

theorem gok_of {c : Cfg} {n : Nat} {K : Exit → Prop} {evs l : List Ev} (h : ∀ x ∈ evs, x.isGroup = false) (hl : TraceOk (GOk c n K) l) :
    TraceOk (GOk c n K) (evs ++ l) := by
  induction evs with
  | nil => exact hl
  | cons x xs ih =>
    refine ⟨?_, ih (fun y hy => h y (List.mem_cons_of_mem _ hy))⟩
    have := h x List.mem_cons_self
    cases x <;> first | trivial | simp [Ev.isGroup] at this

/-- A step of `t` concerning no exit call. -/
theorem EInv.upd0 {c : Cfg} {n : Nat} {K : Exit → Prop} {s s' : State} (I : EInv c n K s) {t : Tid} {l : List Frame} (evs : List Ev)
    (h1 : s'.stk = fun x => if x = t then l else s.stk x) (h2 : s'.nextE = s.nextE) (h3 : s'.dead = s.dead)
    (h4 : s'.log = evs ++ s.log) (h5 : ∀ x ∈ evs, x.exit? = none) (h6 : ∀ x ∈ l, x.inst ≠ none → x ∈ s.stk t)
    (h7 : insts l = insts (s.stk t)) : EInv c n K s' := by
  have hi : ∀ t', insts (s'.stk t') = insts (s.stk t') := by
    intro t'; rw [h1]; simp only; split
    · next h => subst h; exact h7
    · rfl
  have hc : ∀ e, course e s'.log = course e s.log := by
    intro e; rw [h4]; exact course_append _ _ _ (fun x hx => by rw [h5 x hx]; simp)
  have hm : ∀ x : Ev, x.exit? ≠ none → (x ∈ s'.log ↔ x ∈ s.log) := by
    intro x hx
    rw [h4, List.mem_append]
    exact ⟨fun h => h.resolve_left (fun h => hx (h5 x h)), .inr⟩
  constructor
  · intro t'; rw [hi]; exact I.desc t'
  · intro t'; rw [hi, h2]; exact I.lt t'
  · intro t1 t2 e; rw [hi, hi]; exact I.dis t1 t2 e
  · intro t' fr hfr
    have key : ∀ t', fr ∈ s.stk t' → Form c n t' s'.dead s'.log fr := fun t' h =>
      (I.form t' fr h).congr (by rw [h3]; exact id) (fun e _ => hc e)
    rw [h1] at hfr; simp only at hfr; split at hfr
    · next h =>
      subst h
      by_cases hn : fr.inst = none
      · cases fr <;> first | trivial | simp [Frame.inst] at hn
      · exact key t' (h6 fr hfr hn)
    · exact key t' hfr
  · intro e he; rw [hc] at he
    exact (I.cover e he).imp id fun ⟨t', ht'⟩ => ⟨t', by rw [hi]; exact ht'⟩
  · intro t' e st h
    rw [hm _ (by simp [Ev.exit?]), hm _ (by simp [Ev.exit?])] at h
    rw [hi]; exact I.begun t' e st h
  · intro e he
    obtain ⟨l1, l2, l3⟩ := I.left e he
    exact ⟨by rw [h2]; exact l1, fun t' => by rw [hi]; exact l2 t', l3.congr (hc e)⟩
  · intro hd t' e st h
    rw [hm _ (by simp [Ev.exit?])] at h
    exact I.alive (by rw [← h3]; exact hd) t' e st h
  · rw [h4]
    refine gok_of (fun x hx => ?_) I.tr
    have := h5 x hx
    cases x <;> first | rfl | simp [Ev.exit?] at this

/-- A step of `t` on the exit call `e` of its top frame `fr`, which becomes `fr'`. -/
theorem EInv.upd1 {c : Cfg} {n : Nat} {K : Exit → Prop} {s s' : State} (I : EInv c n K s) {t : Tid} {fr fr' : Frame} {rest : List Frame} (e : Exit)
    (pre : List Frame) (evs : List Ev) (hs : s.stk t = fr :: rest) (hfr : fr.inst = some e)
    (h1 : s'.stk = fun x => if x = t then pre ++ fr' :: rest else s.stk x) (h2 : s'.nextE = s.nextE) (h3 : s'.dead = s.dead)
    (h4 : s'.log = evs ++ s.log) (h5 : ∀ x ∈ evs, x.exit? = some e ∧ x.isGroup = false ∧ x.isBegin = false)
    (hp : ∀ x ∈ pre, x.inst = none) (hf : fr'.inst = some e)
    (h7 : Form c n t s.dead (evs ++ s.log) fr') : EInv c n K s' := by
  have hpi : insts pre = [] := by
    simp only [insts, List.filterMap_eq_nil_iff]; exact hp
  have hi : ∀ t', insts (s'.stk t') = insts (s.stk t') := by
    intro t'; rw [h1]; simp only; split
    · next h =>
      subst h; rw [hs]
      unfold insts at *
      rw [List.filterMap_append, hpi, List.filterMap_cons_some hf, List.filterMap_cons_some hfr]; rfl
    · rfl
  have het : e ∈ insts (s.stk t) := mem_insts.mpr ⟨fr, by rw [hs]; simp, hfr⟩
  have hc : ∀ e', e' ≠ e → course e' s'.log = course e' s.log := by
    intro e' hne; rw [h4]
    refine course_append _ _ _ (fun x hx h => ?_)
    rw [(h5 x hx).1] at h; injection h with h; exact hne h.symm
  have hg : ∀ x : Ev, x.isGroup = true ∨ x.isBegin = true → (x ∈ s'.log ↔ x ∈ s.log) := by
    intro x hx
    rw [h4, List.mem_append]
    refine ⟨fun h => h.resolve_left (fun h => ?_), .inr⟩
    rw [(h5 x h).2.1, (h5 x h).2.2] at hx; rcases hx with hx | hx <;> cases hx
  have hrest : ∀ x ∈ rest, x.inst ≠ some e := by
    intro x hx hxe
    have := I.desc t
    rw [hs] at this
    simp only [insts, List.filterMap_cons_some hfr, List.pairwise_cons] at this
    have := this.1 e (mem_insts.mpr ⟨x, hx, hxe⟩)
    exact Nat.lt_irrefl _ this
  constructor
  · intro t'; rw [hi]; exact I.desc t'
  · intro t'; rw [hi, h2]; exact I.lt t'
  · intro t1 t2 e; rw [hi, hi]; exact I.dis t1 t2 e
  · intro t' x hx
    have key : x.inst ≠ some e → ∀ t', x ∈ s.stk t' → Form c n t' s'.dead s'.log x := fun hne t' h =>
      (I.form t' x h).congr (by rw [h3]; exact id) (fun e' he' => hc e' (by rintro rfl; exact hne he'))
    rw [h1] at hx; simp only at hx; split at hx
    · next h =>
      subst h
      rcases List.mem_append.mp hx with hx | hx
      · have := hp x hx
        cases x <;> first | trivial | simp [Frame.inst] at this
      · rcases List.mem_cons.mp hx with rfl | hx
        · rw [h3, h4]; exact h7
        · exact key (hrest x hx) t' (by rw [hs]; exact List.mem_cons_of_mem _ hx)
    · next hne =>
      refine key (fun hxe => hne ?_) t' hx
      exact I.dis t' t e (mem_insts.mpr ⟨x, hx, hxe⟩) het
  · intro e' he'
    by_cases hee : e' = e
    · subst hee; exact .inr ⟨t, by rw [hi]; exact het⟩
    · rw [hc e' hee] at he'
      exact (I.cover e' he').imp id fun ⟨t', ht'⟩ => ⟨t', by rw [hi]; exact ht'⟩
  · intro t' e' st h
    rw [hg _ (.inr rfl), hg _ (.inr rfl)] at h
    rw [hi]; exact I.begun t' e' st h
  · intro e' he'
    obtain ⟨l1, l2, l3⟩ := I.left e' he'
    exact ⟨by rw [h2]; exact l1, fun t' => by rw [hi]; exact l2 t', l3.congr (hc e' (by rintro rfl; exact l2 t het))⟩
  · intro hd t' e' st h
    rw [hg _ (.inl rfl)] at h
    exact I.alive (by rw [← h3]; exact hd) t' e' st h
  · rw [h4]
    exact gok_of (fun x hx => (h5 x hx).2.1) I.tr

/-- A new exit call. -/
theorem EInv.fresh {c : Cfg} {n : Nat} {K : Exit → Prop} {s s' : State} (I : EInv c n K s) {t : Tid} {fr' : Frame} {l : List Frame} (x : Ev)
    (h1 : s'.stk = fun y => if y = t then fr' :: l else s.stk y) (h2 : s'.nextE = s.nextE + 1) (h3 : s'.dead = s.dead)
    (h4 : s'.log = x :: s.log) (h5 : x.exit? = some s.nextE) (h6 : x.isGroup = false)
    (h6' : ∀ t' e st, x = .exitBegin t' e st ∨ x = .immBegin t' e st → t' = t ∧ e = s.nextE)
    (hl : ∀ y ∈ l, y.inst ≠ none → y ∈ s.stk t)
    (hli : insts l = insts (s.stk t)) (hf : fr'.inst = some s.nextE)
    (h7 : course s.nextE (x :: s.log) = [x] → Form c n t s.dead (x :: s.log) fr') : EInv c n K s' := by
  have hi : ∀ t', insts (s'.stk t') = if t' = t then s.nextE :: insts (s.stk t') else insts (s.stk t') := by
    intro t'; rw [h1]; simp only
    by_cases h : t' = t
    · subst h; rw [if_pos rfl, if_pos rfl, ← hli]; simp only [insts, List.filterMap_cons_some hf]
    · rw [if_neg h, if_neg h]
  have hnone : ∀ t', s.nextE ∉ insts (s.stk t') := fun t' h => Nat.lt_irrefl _ (I.lt t' _ h)
  have hc0 : course s.nextE s.log = [] := by
    by_cases h : course s.nextE s.log = []
    · exact h
    · rcases I.cover _ h with hk | ⟨t', ht'⟩
      · exact absurd (I.left _ hk).1 (Nat.lt_irrefl _)
      · exact absurd ht' (hnone t')
  have hc1 : course s.nextE (x :: s.log) = [x] := by rw [course_cons, if_pos h5, hc0]; rfl
  have hc : ∀ e', e' ≠ s.nextE → course e' s'.log = course e' s.log := by
    intro e' hne; rw [h4, course_cons, if_neg, List.append_nil]
    rw [h5]; intro h; injection h with h; exact hne h.symm
  have sub : ∀ t' e, e ∈ insts (s'.stk t') → e ∈ insts (s.stk t') ∨ (e = s.nextE ∧ t' = t) := by
    intro t' e he
    rw [hi] at he
    split at he
    · next h => rcases List.mem_cons.mp he with h' | h'; exact .inr ⟨h', h⟩; exact .inl h'
    · exact .inl he
  have sup : ∀ t' e, e ∈ insts (s.stk t') → e ∈ insts (s'.stk t') := by
    intro t' e he
    rw [hi]; split
    · exact List.mem_cons_of_mem _ he
    · exact he
  constructor
  · intro t'; rw [hi]; split
    · rw [List.pairwise_cons]; exact ⟨fun e he => I.lt t' e he, I.desc t'⟩
    · exact I.desc t'
  · intro t' e he
    rw [h2]
    rcases sub t' e he with h | ⟨rfl, -⟩
    · exact Nat.lt_succ_of_lt (I.lt t' e h)
    · exact Nat.lt_succ_self _
  · intro t1 t2 e a b
    rcases sub t1 e a with a | ⟨a, a'⟩ <;> rcases sub t2 e b with b | ⟨b, b'⟩
    · exact I.dis t1 t2 e a b
    · subst b; exact absurd a (hnone t1)
    · subst a; exact absurd b (hnone t2)
    · rw [a', b']
  · intro t' y hy
    have key : ∀ t', y ∈ s.stk t' → Form c n t' s'.dead s'.log y := fun t' h =>
      (I.form t' y h).congr (by rw [h3]; exact id) (fun e he => hc e (by
        rintro rfl; exact hnone t' (mem_insts.mpr ⟨y, h, he⟩)))
    rw [h1] at hy; simp only at hy; split at hy
    · next h =>
      subst h
      rcases List.mem_cons.mp hy with rfl | hy
      · rw [h3, h4]; exact h7 hc1
      · by_cases hn : y.inst = none
        · cases y <;> first | trivial | simp [Frame.inst] at hn
        · exact key t' (hl y hy hn)
    · exact key t' hy
  · intro e he
    by_cases h : e = s.nextE
    · subst h; exact .inr ⟨t, by rw [hi, if_pos rfl]; simp⟩
    · rw [hc e h] at he
      exact (I.cover e he).imp id fun ⟨t', ht'⟩ => ⟨t', sup _ _ ht'⟩
  · intro t' e st h
    rw [h4] at h
    have : (Ev.exitBegin t' e st ∈ s.log ∨ Ev.immBegin t' e st ∈ s.log) ∨ (x = .exitBegin t' e st ∨ x = .immBegin t' e st) := by
      rcases h with h | h <;> rcases List.mem_cons.mp h with h | h
      · exact .inr (.inl h.symm)
      · exact .inl (.inl h)
      · exact .inr (.inr h.symm)
      · exact .inl (.inr h)
    rcases this with h | h
    · exact (I.begun t' e st h).imp id (sup _ _)
    · obtain ⟨rfl, rfl⟩ := h6' t' e st h
      rw [hi, if_pos rfl]; simp
  · intro e he
    obtain ⟨l1, l2, l3⟩ := I.left e he
    refine ⟨by rw [h2]; exact Nat.lt_succ_of_lt l1, fun t' hm => ?_, l3.congr (hc e (Nat.ne_of_lt l1))⟩
    rcases sub t' e hm with hm | ⟨rfl, -⟩
    · exact l2 t' hm
    · exact Nat.lt_irrefl _ l1
  · intro hd t' e st h
    rw [h4] at h
    rcases List.mem_cons.mp h with h | h
    · subst h; cases h6
    · exact I.alive (by rw [← h3]; exact hd) t' e st h
  · rw [h4]
    exact gok_of (evs := [x]) (by simpa using h6) I.tr

theorem range_fini (n k : Nat) (hk : 0 < k) (hkn : k ≤ n) (g : Nat → Ev) :
    (List.range' k (n - k)).reverse.map g ++ [g (k - 1)] = (List.range' (k - 1) (n - (k - 1))).reverse.map g := by
  have : n - (k - 1) = (n - k) + 1 := by omega
  rw [this, List.range'_succ, show k - 1 + 1 = k by omega]
  simp

theorem EInv.step {c : Cfg} {m n : Nat} {K : Exit → Prop} {s s' : State} (hok : c.Ok m n) (I : EInv c n K s) (S : SInv c s) (hd : s.dead = false)
    (h : Tr c s s') : EInv c n K s' := by
  cases h with
  | spawn t fn rest hs hc =>
    exact I.upd0 (t := s.nextT) (l := [.user .start]) [_] rfl rfl rfl rfl (by simp [Ev.exit?]) (by simp [Frame.inst])
      (by rw [S.new _ (Nat.le_refl _)]; rfl)
  | regThr t fn rest hs hc =>
    exact I.upd0 (t := t) (l := s.stk t) [.tReg t s.nextF] (by funext x; simp only [State.ev, State.setTd]; split <;> simp_all) rfl
      rfl rfl (by simp [Ev.exit?]) (fun x hx _ => hx) rfl
  | group t rest e st hs _ =>
    have hm : Frame.exitImm e st ∈ s.stk t := by rw [hs]; simp
    have het : e ∈ insts (s.stk t) := mem_insts.mpr ⟨_, hm, rfl⟩
    obtain ⟨core, f1, f2⟩ := I.form t _ hm
    have f2 : course e s.log = core := f2.resolve_right (fun h => by rw [hd] at h; cases h.1)
    have hnc : ∀ e', e' ≠ e → course e' (.group t e st :: s.log) = course e' s.log := by
      intro e' hne
      rw [course_cons, if_neg, List.append_nil]
      simp only [Ev.exit?]; intro h; injection h with h; exact hne h.symm
    have hce : course e (.group t e st :: s.log) = core ++ [.group t e st] := by
      rw [course_own _ rfl, f2]
    constructor
    · exact I.desc
    · exact I.lt
    · exact I.dis
    · intro t' fr hfr
      by_cases hfe : fr.inst = some e
      · obtain rfl : t' = t := I.dis t' t e (mem_insts.mpr ⟨fr, hfr, hfe⟩) het
        have hfr' : fr ∈ s.stk t' := hfr
        rw [hs] at hfr'
        rcases List.mem_cons.mp hfr' with rfl | hfr'
        · exact ⟨core, f1, .inr ⟨rfl, hce⟩⟩
        · have := I.desc t'
          rw [hs] at this
          simp only [insts, List.filterMap_cons_some (show (Frame.exitImm e st).inst = some e from rfl), List.pairwise_cons] at this
          exact absurd (this.1 e (mem_insts.mpr ⟨fr, hfr', hfe⟩)) (Nat.lt_irrefl _)
      · exact (I.form t' fr hfr).congr (fun _ => rfl) (fun e' he' => hnc e' (by rintro rfl; exact hfe he'))
    · intro e' he'
      by_cases hee : e' = e
      · subst hee; exact .inr ⟨t, het⟩
      · exact I.cover e' (by rw [← hnc e' hee]; exact he')
    · intro t' e' st' h
      refine I.begun t' e' st' ?_
      simpa [State.ev] using h
    · intro e' he'
      obtain ⟨l1, l2, l3⟩ := I.left e' he'
      exact ⟨l1, l2, l3.congr (hnc e' (by rintro rfl; exact l2 t het))⟩
    · intro h; cases h
    · refine ⟨⟨fun t' e' st' => I.alive hd t' e' st', ?_, ?_⟩, I.tr⟩
      · show course e s.log = _ ∨ ∃ ts ps, course e s.log ++ _ = _
        rcases f1 with f1 | ⟨ts, ps, f1⟩
        · left; rw [f2, f1]
        · right; exact ⟨ts, ps, by rw [f2, f1, exitCourse_eq]⟩
      · intro e' st' h
        rcases I.begun t e' st' h with hk | he'
        · exact .inl hk
        have := I.desc t
        rw [hs] at he' this
        simp only [insts, List.filterMap_cons_some (show (Frame.exitImm e st).inst = some e from rfl), List.pairwise_cons,
          List.mem_cons] at he' this
        rcases he' with h | h
        · rw [h]; exact .inr (Nat.le_refl _)
        · exact .inr (Nat.le_of_lt (this.1 e' h))
  | regProg t fn rest hs hc =>
    exact I.upd0 [] rfl rfl rfl rfl (by simp) (by rw [hs]; grind [Frame.inst]) (by rw [hs]; rfl)
  | exit t fn rest st hs =>
    refine I.fresh (.exitBegin t s.nextE st) rfl rfl rfl rfl rfl rfl (by simp) (by rw [hs]; grind) (by rw [hs]) rfl ?_
    intro h; exact ⟨[], h⟩
  | imm t fn rest st hs =>
    refine I.fresh (.immBegin t s.nextE st) rfl rfl rfl rfl rfl rfl (by simp) (by rw [hs]; grind) (by rw [hs]) rfl ?_
    intro h; exact ⟨_, .inl rfl, .inl h⟩
  | retMain t rest st hs =>
    have I' : EInv c n K (s.ev (.mainRet st)) :=
      I.upd0 (t := t) (l := s.stk t) [.mainRet st] (by funext x; simp only [State.ev]; split <;> simp_all) rfl
        rfl rfl (by simp [Ev.exit?]) (fun x hx _ => hx) rfl
    have hs' : (s.ev (.mainRet st)).stk t = .user .main :: rest := hs
    refine I'.fresh (.exitBegin t s.nextE st) rfl rfl rfl rfl rfl rfl (by simp; grind [State.ev]) (by rw [hs']; grind) (by rw [hs']; rfl) rfl ?_
    intro h; exact ⟨[], h⟩
  | retStart t rest hs =>
    exact I.upd0 [] rfl rfl rfl rfl (by simp) (by rw [hs]; grind [Frame.inst]) (by rw [hs]; rfl)
  | ret t fn rest hs h1 h2 =>
    exact I.upd0 [] rfl rfl rfl rfl (by simp) (by rw [hs]; grind [Frame.inst]) (by rw [hs]; rfl)
  | entry t rest hs =>
    exact I.upd0 [_] rfl rfl rfl rfl (by simp [Ev.exit?]) (by rw [hs]; grind [Frame.inst]) (by rw [hs]; rfl)
  | initEnd t rest hs =>
    exact I.upd0 [_] rfl rfl rfl rfl (by simp [Ev.exit?]) (by rw [hs]; grind [Frame.inst]) (by rw [hs]; rfl)
  | init t p rest hs hp =>
    exact I.upd0 [_] rfl rfl rfl rfl (by simp [Ev.exit?]) (by rw [hs]; grind [Frame.inst]) (by rw [hs]; rfl)
  | thrCall t rest f fs hs hc ht =>
    exact I.upd0 [_] rfl rfl rfl rfl (by simp [Ev.exit?]) (by rw [hs]; grind [Frame.inst]) (by rw [hs]; rfl)
  | thrEnd t rest hs ht =>
    have Sh := S.shape t; rw [hs] at Sh
    cases Sh.bottom_nil rfl
    exact I.upd0 [_] rfl rfl rfl rfl (by simp [Ev.exit?]) (by simp) (by rw [hs]; rfl)
  | regLock t rest s1 hs ha =>
    obtain ⟨h0, -, -, -, -, h1, h2, h3⟩ := acquire_fields ha
    exact I.upd0 (l := .regPush :: rest) [] (by rw [← h0]; rfl) h1 h2 h3 (by simp) (by rw [hs]; grind [Frame.inst]) (by rw [hs]; rfl)
  | regPush t rest hs =>
    exact I.upd0 [_] rfl rfl rfl rfl (by simp [Ev.exit?]) (by rw [hs]; grind [Frame.inst]) (by rw [hs]; rfl)
  | regUnlock t rest f hs =>
    obtain ⟨h0, -, -, -, -, h1, h2, h3⟩ := release_fields c s
    exact I.upd0 (l := rest) [.pRegRet t f] (by rw [← h0]; rfl) h1 h2 (by rw [← h3]; rfl) (by simp [Ev.exit?])
      (by rw [hs]; grind [Frame.inst]) (by rw [hs]; rfl)
  | exitThrCall t rest e st f fs hs hc ht =>
    obtain ⟨ts, hf⟩ := I.form t _ (show Frame.exitThr e st ∈ s.stk t by rw [hs]; simp)
    refine I.upd1 e [.user (.tdtor f)] [.tCall t (some e) f] hs rfl rfl rfl rfl rfl (by simp [Ev.exit?, Ev.isGroup, Ev.isBegin])
      (by simp [Frame.inst]) rfl ⟨ts ++ [f], ?_⟩
    rw [List.singleton_append, course_own _ rfl, hf]; simp [thrPart]
  | exitThr t rest e st hs ht =>
    obtain ⟨ts, hf⟩ := I.form t _ (show Frame.exitThr e st ∈ s.stk t by rw [hs]; simp)
    refine I.upd1 e [] [.tDone t e] hs rfl rfl rfl rfl rfl (by simp [Ev.exit?, Ev.isGroup, Ev.isBegin])
      (by simp) rfl ⟨ts, [], ?_⟩
    rw [List.singleton_append, course_own _ rfl, hf]; simp [progPart]
  | exitLock t rest e st s1 hs hc ha =>
    obtain ⟨h0, -, -, -, -, h1, h2, h3⟩ := acquire_fields ha
    have hf := I.form t _ (show Frame.exitLock e st ∈ s.stk t by rw [hs]; simp)
    exact I.upd1 (fr' := .exitPop e st) e [] [] hs rfl (by rw [← h0]; rfl) h1 h2 h3 (by simp) (by simp) rfl hf
  | exitNoLock t rest e st hs hc =>
    obtain ⟨ts, ps, hf⟩ := I.form t _ (show Frame.exitLock e st ∈ s.stk t by rw [hs]; simp)
    refine I.upd1 e [] [.pDone t e] hs rfl rfl rfl rfl rfl (by simp [Ev.exit?, Ev.isGroup, Ev.isBegin])
      (by simp) rfl ⟨ts, ps, n, Nat.le_refl _, ?_, ?_⟩
    · unfold Cfg.finiFirst; split
      · next h => rw [hok.fini h]
      · next h => rw [hok.fini0 (by simpa using h)]; simp
    · rw [List.singleton_append, course_own _ rfl, hf]; simp [finiPart]
  | exitPop t rest e st f fs hs hdt =>
    obtain ⟨ts, ps, hf⟩ := I.form t _ (show Frame.exitPop e st ∈ s.stk t by rw [hs]; simp)
    refine I.upd1 e [] [.pTake t e f] hs rfl rfl rfl rfl rfl (by simp [Ev.exit?, Ev.isGroup, Ev.isBegin])
      (by simp) rfl ⟨ts, ps, ?_⟩
    rw [List.singleton_append, course_own _ rfl, hf]
  | exitPopEnd t rest e st hs hdt =>
    obtain ⟨ts, ps, hf⟩ := I.form t _ (show Frame.exitPop e st ∈ s.stk t by rw [hs]; simp)
    refine I.upd1 e [] [.pDone t e] hs rfl rfl rfl rfl rfl (by simp [Ev.exit?, Ev.isGroup, Ev.isBegin])
      (by simp) rfl ⟨ts, ps, n, Nat.le_refl _, ?_, ?_⟩
    · unfold Cfg.finiFirst; split
      · next h => rw [hok.fini h]
      · next h => rw [hok.fini0 (by simpa using h)]; simp
    · rw [List.singleton_append, course_own _ rfl, hf]; simp [finiPart]
  | exitUnlock t rest e st f hs =>
    obtain ⟨h0, -, -, -, -, h1, h2, h3⟩ := release_fields c s
    have hf := I.form t _ (show Frame.exitUnlock e st f ∈ s.stk t by rw [hs]; simp)
    exact I.upd1 (fr' := .exitCall e st f) e [] [] hs rfl (by rw [← h0]; rfl) h1 h2 h3 (by simp) (by simp) rfl hf
  | exitCall t rest e st f hs =>
    obtain ⟨ts, ps, hf⟩ := I.form t _ (show Frame.exitCall e st f ∈ s.stk t by rw [hs]; simp)
    refine I.upd1 e [.user (.pdtor f)] [.pCall t e f] hs rfl rfl rfl rfl rfl (by simp [Ev.exit?, Ev.isGroup, Ev.isBegin])
      (by simp [Frame.inst]) rfl ⟨ts, ps ++ [f], ?_⟩
    rw [List.singleton_append, course_own _ rfl, hf]; simp [progPart]
  | exitFiniEnd t rest e st hs =>
    obtain ⟨ts, ps, k, hk, hp, hf⟩ := I.form t _ (show Frame.exitFini e st c.finiStart ∈ s.stk t by rw [hs]; simp)
    have hk0 : k = 0 := by
      have hws := hok.ws
      rcases Nat.eq_zero_or_pos k with h | h
      · exact h
      · have := Nat.mul_pos h hws; omega
    subst hk0
    exact I.upd1 e [] [] hs rfl rfl rfl rfl rfl (by simp) (by simp) rfl ⟨_, .inr ⟨ts, ps, rfl⟩, .inl hf⟩
  | exitFini t rest e st p hs hp =>
    obtain ⟨ts, ps, k, hk, hpk, hf⟩ := I.form t _ (show Frame.exitFini e st p ∈ s.stk t by rw [hs]; simp)
    have hk0 : 0 < k := by
      rcases Nat.eq_zero_or_pos k with h | h
      · subst h; simp at hpk; exact absurd hpk hp
      · exact h
    have hp' : p - c.ws = c.finiStart + (k - 1) * c.ws := by
      obtain ⟨j, rfl⟩ : ∃ j, k = j + 1 := ⟨k - 1, by omega⟩
      rw [hpk, Nat.add_mul]; simp; omega
    refine I.upd1 e [.user (.fini (p - c.ws))] [.fini t e (p - c.ws)] hs rfl rfl rfl rfl rfl (by simp [Ev.exit?, Ev.isGroup, Ev.isBegin])
      (by simp [Frame.inst]) rfl ⟨ts, ps, k - 1, by omega, hp', ?_⟩
    rw [List.singleton_append, course_own _ rfl, hf, hp']
    unfold finiPart
    rw [← range_fini n k hk0 hk]
    simp

theorem Reach.einv {c : Cfg} {m n : Nat} (hok : c.Ok m n) {s : State} (h : Reach c s) : EInv c n (fun _ => False) s := by
  induction h with
  | init => exact EInv.init c n
  | step hr hs ih => exact ih.step hok hr.sinv (step_tr hs).1 (step_tr hs).2

end Origin.Proc
