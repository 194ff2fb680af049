import Verif.Spec.Ctors
import Verif.Props.LogBoot
import Verif.Props.Startup
/-! # C79: constructors in order of priority, and the logger among them.  C80: external start -/

namespace Origin.Ctors

open Proc (Cfg Ev Tid Action Reach boots bootCourse Whenever)

variable {c : Cfg} {es a : List Entry} {s : Proc.State} {m : Nat}

/-! ### Histories -/

theorem boots_append (l l' : List Ev) : boots (l ++ l') = boots l' ++ boots l := by simp [boots]

theorem boots_cons {x : Ev} (hx : x.boot = true) (l : List Ev) : boots (x :: l) = boots l ++ [x] := by simp [boots, hx]

theorem mem_boots {x : Ev} {l : List Ev} (h : x ∈ boots l) : x ∈ l := by
  simp only [boots, List.mem_reverse, List.mem_filter] at h
  exact h.1

theorem slot_inj (hw : 0 < c.ws) {i j : Nat} (h : slot c i = slot c j) : i = j := by
  unfold slot at h
  exact Nat.eq_of_mul_eq_mul_right hw (by omega)

/-- What comes before in the order of start has happened before. -/
theorem before_of {B l newer older : List Ev} {x y : Ev} {i j : Nat} (hp : boots l <+: B) (hB : ∀ k, B[k]? = some x → k = j) (hl : l = newer ++ x :: older) (hx : x.boot = true)
    (hi : B[i]? = some y) (hij : i < j) : y ∈ older := by
  rw [hl, boots_append, boots_cons hx] at hp
  obtain ⟨t, ht⟩ := hp
  have hk : (boots older).length = j := hB _ (by rw [← ht]; simp)
  have : (boots older)[i]? = some y := by
    rw [← hi, ← ht, List.append_assoc, List.append_assoc, List.getElem?_append_left (by omega)]
  exact mem_boots (List.mem_of_getElem? this)

theorem course_ctor {n : Nat} {v : Int} {i : Nat} (hi : i < n) : (bootCourse c n v)[i + 1]? = some (.ctor (slot c i) c.args) := by
  simp [bootCourse, slot, List.getElem?_append, hi]

theorem course_main {n : Nat} {v : Int} : (bootCourse c n v)[n + 1]? = some (.main c.args) := by
  simp [bootCourse, List.getElem?_append]

theorem course_succ {n : Nat} {v : Int} {k : Nat} (hk : ¬ k < n) : (bootCourse c n v)[k + 1]? = [Ev.main c.args, .mainRet v][k - n]? := by
  have h : bootCourse c n v = .runtimeInit :: ((List.range n).map (fun i => Ev.ctor (c.initStart + i * c.ws) c.args) ++ [.main c.args, .mainRet v]) := by simp [bootCourse]
  rw [h, List.getElem?_cons_succ, List.getElem?_append_right (by simpa using hk)]
  simp

theorem course_ctor_idx {n : Nat} {v : Int} (hw : 0 < c.ws) {i k : Nat} (h : (bootCourse c n v)[k]? = some (.ctor (slot c i) c.args)) : k = i + 1 ∧ i < n := by
  cases k with
  | zero => simp [bootCourse] at h
  | succ k =>
    by_cases hk : k < n
    · rw [course_ctor hk] at h
      injection h with h; injection h with h
      rw [← slot_inj hw h]
      exact ⟨rfl, hk⟩
    · rw [course_succ hk] at h
      have := List.mem_of_getElem? h
      simp at this

theorem course_main_idx {n : Nat} {v : Int} {k : Nat} (h : (bootCourse c n v)[k]? = some (.main c.args)) : k = n + 1 := by
  cases k with
  | zero => simp [bootCourse] at h
  | succ k =>
    by_cases hk : k < n
    · rw [course_ctor hk] at h; cases h
    · rw [course_succ hk] at h
      have hk' : k - n = 0 ∨ k - n = 1 ∨ 2 ≤ k - n := by omega
      rcases hk' with hk' | hk' | hk'
      · omega
      · rw [hk'] at h; simp at h
      · rw [List.getElem?_eq_none (by simpa using hk')] at h; cases h

theorem course_mem_ctor {n : Nat} {v : Int} (hw : 0 < c.ws) {i : Nat} (h : Ev.ctor (slot c i) c.args ∈ bootCourse c n v) : i < n := by
  obtain ⟨k, hk⟩ := List.mem_iff_getElem?.mp h
  exact (course_ctor_idx hw hk).2

theorem course_count {n : Nat} {v : Int} (hw : 0 < c.ws) {i : Nat} : (bootCourse c n v).count (.ctor (slot c i) c.args) ≤ 1 := by
  have : ∀ (l : List Nat), l.Nodup → (l.map (fun i => Ev.ctor (c.initStart + i * c.ws) c.args)).count (.ctor (slot c i) c.args) ≤ 1 := by
    intro l hl
    rw [List.count_eq_countP, List.countP_map]
    refine Nat.le_trans (List.countP_mono_left (q := fun j => j == i) fun j _ hj => ?_) (List.count_eq_countP (a := i) (l := l) ▸ List.nodup_iff_count.mp hl i)
    simp only [Function.comp, beq_iff_eq] at hj ⊢
    injection hj with hj
    exact slot_inj hw hj
  have h1 := this _ (List.nodup_range (n := n))
  simp only [bootCourse, List.count_append]
  simpa [List.count_cons] using h1

/-- An earlier slot's function is called earlier. -/
theorem slots_of {l : List Ev} {n : Nat} {v : Int} (hw : 0 < c.ws) (hp : boots l <+: bootCourse c n v) {i j : Nat} (hij : i < j) :
    Whenever l (.ctor (slot c j) c.args) fun old => Called c old i := by
  intro newer older hl
  refine before_of (j := j + 1) (i := i + 1) hp (fun k hk => (course_ctor_idx hw hk).1) hl rfl (course_ctor ?_) (by omega)
  have hm : Ev.ctor (slot c j) c.args ∈ bootCourse c n v := hp.subset (by rw [hl, boots_append, boots_cons rfl]; simp)
  have := course_mem_ctor hw hm
  omega

theorem before_slot {i j : Nat} {e e' : Entry} (hs : a.Pairwise Entry.NotAfter) (hi : At a i e) (hj : At a j e') (hb : e.Before e') : i < j := by
  obtain ⟨hi1, hi2⟩ := List.getElem?_eq_some_iff.mp hi
  obtain ⟨hj1, hj2⟩ := List.getElem?_eq_some_iff.mp hj
  rw [List.pairwise_iff_getElem] at hs
  rcases Nat.lt_trichotomy i j with h | h | h
  · exact h
  · subst h
    exfalso; apply hb
    rw [← hj2, hi2]
    unfold Entry.NotAfter
    split
    · trivial
    · next h1 h2 => rw [h1] at h2; cases h2
    · next h1 h2 => rw [h1] at h2; injection h2 with h2; omega
  · exact absurd (hi2 ▸ hj2 ▸ hs j i hj1 hi1 h) hb

/-! ### Without messages -/

/-- **C79 (priorities).** In every history, whenever the function of an entry is called, the functions of all entries that come before it by priority have been called. -/
theorem C79_priority (hok : c.Ok a.length m) (L : Linked es a) (h : Reach c s) {i j : Nat} {e e' : Entry} (hi : At a i e) (hj : At a j e') (hb : e.Before e') :
    Whenever s.log (.ctor (slot c j) c.args) fun old => Called c old i := by
  obtain ⟨⟨v, hp⟩, -⟩ := Proc.C34_startup hok h
  exact slots_of hok.ws hp (before_slot L.sorted hi hj hb)

/-- **C79 (before `origin_main`).** Whenever `origin_main` is called, the functions of all entries of all object files have been called, each exactly once. -/
theorem C79_all (hok : c.Ok a.length m) (L : Linked es a) (h : Reach c s) :
    Whenever s.log (.main c.args) fun old => ∀ e ∈ es, ∃ i, At a i e ∧ Called c old i ∧ s.log.count (.ctor (slot c i) c.args) = 1 := by
  intro newer older hl e he
  obtain ⟨i, hi⟩ := List.mem_iff_getElem?.mp (L.perm.mem_iff.mpr he)
  obtain ⟨⟨v, hp⟩, -⟩ := Proc.C34_startup hok h
  have hlt : i < a.length := (List.getElem?_eq_some_iff.mp hi).1
  have hmem : Called c older i := before_of (j := a.length + 1) (i := i + 1) hp (fun k hk => course_main_idx hk) hl rfl (course_ctor hlt) (by omega)
  refine ⟨i, hi, hmem, ?_⟩
  have h1 : s.log.count (.ctor (slot c i) c.args) = (boots s.log).count (.ctor (slot c i) c.args) := by
    rw [boots, List.count_reverse, List.count_filter (by rfl)]
  have h2 : (boots s.log).count (.ctor (slot c i) c.args) ≤ 1 := by
    exact Nat.le_trans (hp.sublist.count_le _) (course_count hok.ws)
  have h3 : 0 < s.log.count (.ctor (slot c i) c.args) := List.count_pos_iff.mpr (by rw [hl]; simp; exact .inr hmem)
  omega

/-! ### With messages -/

open LogProc (LEv Msg real plain mem_real)

/-- **C79 (with the "log" feature).** The order is the same whatever the logger does: whenever the function of an entry is called, those of all entries that come before it by priority
have been called (c-scape's entry with priority 98 before the logger's, for example). -/
theorem C79_logged_priority {s : LogProc.State} (hok : c.Ok a.length m) (L : Linked es a) (h : LogProc.Reach c s) {i j : Nat} {e e' : Entry} (hi : At a i e) (hj : At a j e')
    (hb : e.Before e') : Whenever (real s.log) (.ctor (slot c j) c.args) fun old => Called c old i := by
  obtain ⟨⟨v, hp⟩, -⟩ := LogProc.C68_startup hok h
  exact slots_of hok.ws hp (before_slot L.sorted hi hj hb)

/-- **C79 (what the logger needs).** Whenever the logger's initialisation is called, the functions with priorities below 99 (c-scape's, which sets up the environment variables, has 98)
have been called. -/
theorem C79_before_logger {s : LogProc.State} (hok : c.Ok a.length m) (L : Linked es a) (h : LogProc.Reach c s) {i j : Nat} {f p g : Nat} (hi : At a i ⟨some p, g⟩) (hp : p < 99)
    (hj : At a j (loggerEntry f)) : Whenever (real s.log) (.ctor (slot c j) c.args) fun old => Called c old i := by
  refine C79_logged_priority hok L h hi hj ?_
  simp only [Entry.Before, Entry.NotAfter, loggerEntry]
  omega

/-- **C79 (the logger is there for the later ones).** Whenever origin announces the call of a function without a priority or with one greater than 99, the logger's initialisation has
been called. -/
theorem C79_messages {s : LogProc.State} (hok : c.Ok a.length m) (L : Linked es a) (h : LogProc.Reach c s) {i j : Nat} {f : Nat} {e : Entry} (hi : At a i (loggerEntry f)) (hj : At a j e)
    (hp : ∀ p, e.prio = some p → 99 < p) (t : Tid) : Whenever s.log (.msg t (.ctor (slot c j))) fun old => Called c (real old) i := by
  intro newer older hl
  have hb : (loggerEntry f).Before e := by
    unfold Entry.Before Entry.NotAfter loggerEntry
    cases he : e.prio with
    | none => simp
    | some p => simpa using hp p he
  obtain ⟨⟨v, h1⟩, -⟩ := LogProc.plain_course hok h
  have h2 : plain c s.log = plain c newer ++ .ctor (slot c j) c.args :: plain c older := by rw [hl, LogProc.plain_append, LogProc.plain_msg rfl]
  exact mem_real.mpr (LogProc.announced_done h (t := t) (g := .ctor (slot c j)) rfl rfl rfl hl (slots_of hok.ws h1 (before_slot L.sorted hi hj hb) _ _ h2))

/-- **C79 (and for `origin_main`).** Whenever origin announces the call of `origin_main`, the functions of all entries, the logger's among them, have been called. -/
theorem C79_main_message {s : LogProc.State} (hok : c.Ok a.length m) (L : Linked es a) (h : LogProc.Reach c s) (t : Tid) :
    Whenever s.log (.msg t .main) fun old => ∀ e ∈ es, ∃ i, At a i e ∧ Called c (real old) i := by
  intro newer older hl e he
  obtain ⟨i, hi⟩ := List.mem_iff_getElem?.mp (L.perm.mem_iff.mpr he)
  obtain ⟨⟨v, h1⟩, -⟩ := LogProc.plain_course hok h
  have h2 : plain c s.log = plain c newer ++ .main c.args :: plain c older := by rw [hl, LogProc.plain_append, LogProc.plain_msg rfl]
  have hlt : i < a.length := (List.getElem?_eq_some_iff.mp hi).1
  have h3 := before_of (j := a.length + 1) (i := i + 1) h1 (fun k hk => course_main_idx hk) h2 rfl (course_ctor hlt) (by omega)
  exact ⟨i, hi, mem_real.mpr (LogProc.announced_done h (t := t) (g := .main) rfl rfl rfl hl h3)⟩

/-- **C79 (what the logger never gets).** When the logger's initialisation is called, the messages about it and about all functions before it have been sent already: the chosen logger
does not get them. -/
theorem C79_lost {s : LogProc.State} (hok : c.Ok a.length m) (h : LogProc.Reach c s) {i j : Nat} (hij : i ≤ j) :
    Whenever s.log (.ev (.ctor (slot c j) c.args)) fun old => ∃ t, .msg t (.ctor (slot c i)) ∈ old := by
  intro newer older hl
  have main : ∀ {l1 l2 : List LEv} {k : Nat}, s.log = l1 ++ .ev (.ctor (slot c k) c.args) :: l2 → ∃ t, .msg t (.ctor (slot c k)) ∈ l2 := by
    intro l1 l2 k hl
    obtain ⟨t, g, h1, h2⟩ := LogProc.C68_announced h (.ctor (slot c k) c.args) rfl _ _ hl
    refine ⟨t, ?_⟩
    cases g <;> simp [Msg.announces] at h2
    subst h2
    exact h1
  rcases Nat.lt_or_eq_of_le hij with hij | rfl
  · obtain ⟨⟨v, hp⟩, -⟩ := LogProc.C68_startup hok h
    have h1 : Called c (real older) i := by
      refine slots_of hok.ws hp hij (real newer) (real older) ?_
      rw [hl, LogProc.real_append]; simp [real]
    obtain ⟨l1, l2, h2⟩ := List.append_of_mem (mem_real.mp h1)
    obtain ⟨t, h3⟩ := main (l1 := newer ++ .ev (.ctor (slot c j) c.args) :: l1) (l2 := l2) (k := i) (by rw [hl, h2]; simp)
    exact ⟨t, by rw [h2]; simp [h3]⟩
  · exact main hl

end Origin.Ctors
