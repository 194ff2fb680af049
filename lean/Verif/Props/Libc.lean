import Verif.Model.Libc
import Verif.Proof.Fields
/-!
# C45, C49: the libc backend
-/

namespace Origin.Libc

/-- An event of thread `i`. -/
def Ev.about (i : Nat) : Ev → Bool
  | .called j _ _ | .returned j _ | .freed j _ | .joined j _ => j = i

/-- What happened in thread `i`, in order. -/
def history (w : World) (i : Nat) : List Ev := (w.ev.filter (Ev.about i)).reverse

/-- A thread's life: called with exactly what `create` was given; then returned, and its argument block freed; then joined with the
function's result. -/
def life (i : Nat) (t : Thread) (rv : Option Nat) : List Ev := [.called i t.fn t.args, .returned i rv, .freed i t.ptr, .joined i rv]

/-- How far it has got. -/
def steps : TState → Nat
  | .new => 0
  | .running => 1
  | .done _ => 3
  | .joined => 4

def active (t : Thread) : Prop := t.st = .new ∨ t.st = .running

def block (ws : Nat) (t : Thread) : Block := ⟨t.ptr, (t.args.length + 2) * ws, true⟩

structure Inv (e : Endian) (ws : Nat) (w : World) : Prop where
  disj : w.live.Pairwise Block.Disj
  pos : ∀ b ∈ w.live, 0 < b.size
  good : w.bad = false
  own : ∀ (i : Nat) (t : Thread), w.threads[i]? = some t → active t → block ws t ∈ w.live
  uniq : ∀ (i j : Nat) (t u : Thread), w.threads[i]? = some t → w.threads[j]? = some u → active t → active u → t.ptr = u.ptr → i = j
  word : ∀ (i : Nat) (t : Thread), w.threads[i]? = some t → t.st = .new →
    ∀ (j : Nat) (v : Nat), (t.args.length :: t.fn :: t.args)[j]? = some v → ldN e ws w.mem (t.ptr + ws * j) = v
  hist : ∀ (i : Nat) (t : Thread), w.threads[i]? = some t → ∃ rv, history w i = (life i t rv).take (steps t.st) ∧
    ∀ raw, t.st = .done raw → raw = toRaw rv ∧ rv ≠ some 0
  none : ∀ i, w.threads.length ≤ i → history w i = []

theorem nonNull_toRaw {rv : Option Nat} (h : rv ≠ some 0) : nonNull (toRaw rv) = rv := by
  cases rv with
  | none => rfl
  | some p => 
    have : p ≠ 0 := fun hp => h (by rw [hp])
    simp [nonNull, toRaw, this]

theorem getElem?_set_cases {α : Type} {l : List α} {i j : Nat} {x y : α} (h : (l.set i x)[j]? = some y) :
    (j = i ∧ y = x ∧ i < l.length) ∨ (j ≠ i ∧ l[j]? = some y) := by
  rw [List.getElem?_set] at h
  by_cases e : i = j
  · subst e
    rw [if_pos rfl] at h
    split at h
    · exact Or.inl ⟨rfl, by simpa using h.symm, by assumption⟩
    · cases h
  · rw [if_neg e] at h
    exact Or.inr ⟨fun h => e h.symm, h⟩

theorem history_cons_other {w : World} {l : List Thread} {m : Mem} {lv : List Block} {b : Bool} {x : Ev} {i : Nat} (h : x.about i = false) :
    history ⟨m, lv, l, x :: w.ev, b⟩ i = history w i := by
  simp [history, h]

theorem history_cons_same {w : World} {l : List Thread} {m : Mem} {lv : List Block} {b : Bool} {x : Ev} {i : Nat} (h : x.about i = true) :
    history ⟨m, lv, l, x :: w.ev, b⟩ i = history w i ++ [x] := by
  simp [history, h]

theorem umul_size {ws n : Nat} (h : (n + 2) * ws < umax ws) (hws : 0 < ws) : umul ws (uadd ws n 2) ws = (n + 2) * ws := by
  have h1 : n + 2 ≤ (n + 2) * ws := Nat.le_mul_of_pos_right _ hws
  rw [uadd_of_lt (by omega)]
  unfold umul umax at *
  have h2 : ws ≤ (n + 2) * ws := Nat.le_mul_of_pos_left _ (by omega)
  rw [BitVec.toNat_mul, BitVec.toNat_ofNat, BitVec.toNat_ofNat, Nat.mod_eq_of_lt (a := n + 2) (by omega), Nat.mod_eq_of_lt (a := ws) (by omega),
    Nat.mod_eq_of_lt h]

/-- Only a thread's own block is at its address. -/
theorem addr_inj {live : List Block} (hd : live.Pairwise Block.Disj) (hp : ∀ b ∈ live, 0 < b.size) {b c : Block} (hb : b ∈ live) (hc : c ∈ live)
    (h : b.addr = c.addr) : b = c := by
  induction live with
  | nil => cases hb
  | cons d ds ih =>
    rw [List.pairwise_cons] at hd
    have p1 := hp b hb; have p2 := hp c hc
    rcases List.mem_cons.mp hb with rfl | hb' <;> rcases List.mem_cons.mp hc with rfl | hc'
    · rfl
    · have := hd.1 c hc'; unfold Block.Disj at this; omega
    · have := hd.1 b hb'; unfold Block.Disj at this; omega
    · exact ih hd.2 (fun x hx => hp x (List.mem_cons_of_mem _ hx)) hb' hc'

theorem mem_eraseP_of_ne {live : List Block} {p : Nat} {b : Block} (hb : b ∈ live) (h : b.addr ≠ p) : b ∈ live.eraseP (·.addr = p) := by
  rw [List.mem_eraseP_of_neg (by simpa using h)]; exact hb

theorem Inv.init (e : Endian) (ws : Nat) (m : Mem) : Inv e ws ⟨m, [], [], [], false⟩ where
  disj := List.Pairwise.nil
  pos := fun _ h => by cases h
  good := rfl
  own := fun i t h => by simp at h
  uniq := fun i j t u h => by simp at h
  word := fun i t h => by simp at h
  hist := fun i t h => by simp at h
  none := fun _ _ => rfl

/-- New memory, in which the contents of new threads' blocks are as before. -/
theorem Inv.mem {e : Endian} {ws : Nat} {w : World} (I : Inv e ws w) {m : Mem}
    (h : ∀ (i : Nat) (t : Thread), w.threads[i]? = some t → t.st = .new →
      ∀ x, t.ptr ≤ x → x < t.ptr + (t.args.length + 2) * ws → m x = w.mem x) : Inv e ws { w with mem := m } :=
  { I with
    word := by
      intro i t hi ht j v hv
      rw [← I.word i t hi ht j v hv]
      apply ldN_congr
      intro q hq
      have hj : j < t.args.length + 2 := by
        have := (List.getElem?_eq_some_iff.mp hv).1
        simpa using this
      have hb : ws * j + ws ≤ (t.args.length + 2) * ws := by
        have := Nat.mul_le_mul_left ws (show j + 1 ≤ t.args.length + 2 by omega)
        rw [Nat.mul_add, Nat.mul_comm ws (t.args.length + 2)] at this; omega
      exact h i t hi ht _ (by omega) (by omega) }

theorem Inv.alloc {e : Endian} {ws : Nat} {w : World} (I : Inv e ws w) {b : Block} (h0 : 0 < b.size) (hd : ∀ c ∈ w.live, c.Disj b) :
    Inv e ws { w with live := b :: w.live } :=
  { I with
    disj := List.pairwise_cons.mpr ⟨fun c hc => by have := hd c hc; unfold Block.Disj at *; omega, I.disj⟩
    pos := fun c hc => (List.mem_cons.mp hc).elim (fun h => h ▸ h0) (I.pos c)
    own := fun i t hi ht => List.mem_cons_of_mem _ (I.own i t hi ht) }

theorem Inv.create {e : Endian} {ws : Nat} {w : World} (hws : 0 < ws) (I : Inv e ws w) (a : Answers) (fn : Nat) (args : List Nat) (stack guard : Nat)
    (hlen : (args.length + 2) * ws < umax ws) (hfn : fn < umax ws) (hargs : ∀ v ∈ args, v < umax ws)
    (hm : a.malloc ≠ 0 → a.malloc + (args.length + 2) * ws ≤ umax ws ∧ ∀ b ∈ w.live, b.Disj ⟨a.malloc, (args.length + 2) * ws, true⟩) :
    Inv e ws (create e ws w a fn args stack guard).1 := by
  unfold Libc.create
  split; · exact I
  split; · exact I
  split; · exact I
  split; · exact I
  rename_i h0
  obtain ⟨h1, h2⟩ := hm h0
  rw [umul_size hlen hws]
  have hpos : 0 < (args.length + 2) * ws := Nat.mul_pos (by omega) hws
  have hl : ws * (args.length :: fn :: args).length = (args.length + 2) * ws := by
    rw [Nat.mul_comm]; rfl
  have J : Inv e ws { w with live := ⟨a.malloc, (args.length + 2) * ws, true⟩ :: w.live
                             mem := stWords e ws w.mem a.malloc (args.length :: fn :: args) } := by
    refine (I.alloc (b := ⟨a.malloc, (args.length + 2) * ws, true⟩) hpos h2).mem ?_
    intro i t hi ht x hx1 hx2
    have := h2 _ (I.own i t hi (Or.inl ht))
    unfold Block.Disj block at this
    simp only at this
    exact stWords_frame (by omega)
  split
  · exact J
  · rename_i h heq
    let t0 : Thread := ⟨h, a.malloc, stack, guard, fn, args, false, .new⟩
    have cases0 : ∀ (i : Nat) (t : Thread), (w.threads ++ [t0])[i]? = some t → w.threads[i]? = some t ∨ (i = w.threads.length ∧ t = t0) := by
      intro i t hi
      rw [List.getElem?_append] at hi
      split at hi
      · exact Or.inl hi
      · right
        have hlt := (List.getElem?_eq_some_iff.mp hi).1
        simp only [List.length_cons, List.length_nil] at hlt
        have : i = w.threads.length := by omega
        subst this
        simp only [Nat.sub_self, List.getElem?_cons_zero, Option.some.injEq] at hi
        exact ⟨rfl, hi.symm⟩
    have new : ∀ (i : Nat) (t : Thread), w.threads[i]? = some t → active t → t.ptr ≠ a.malloc := by
      intro i t hi ht hp
      have := h2 _ (I.own i t hi ht)
      have hp2 := I.pos _ (I.own i t hi ht)
      unfold Block.Disj block at *
      simp only at this hp2
      omega
    constructor
    · exact J.disj
    · exact J.pos
    · exact J.good
    · intro i t hi ht
      rcases cases0 i t hi with hi | ⟨-, rfl⟩
      · exact J.own i t hi ht
      · exact List.mem_cons_self
    · intro i j t u hi hj ht hu hp
      rcases cases0 i t hi with hi | ⟨rfl, rfl⟩ <;> rcases cases0 j u hj with hj | ⟨rfl, rfl⟩
      · exact J.uniq i j t u hi hj ht hu hp
      · exact absurd hp (new i t hi ht)
      · exact absurd hp.symm (new j u hj hu)
      · rfl
    · intro i t hi ht j v hv
      rcases cases0 i t hi with hi | ⟨-, rfl⟩
      · exact J.word i t hi ht j v hv
      · obtain ⟨hj, rfl⟩ := List.getElem?_eq_some_iff.mp hv
        refine ldN_stWords hj ?_
        have hall : ∀ v ∈ (args.length :: fn :: args), v < umax ws := by
          intro v hv
          rcases List.mem_cons.mp hv with rfl | hv
          · have : args.length + 2 ≤ (args.length + 2) * ws := Nat.le_mul_of_pos_right _ hws
            omega
          · rcases List.mem_cons.mp hv with rfl | hv
            · exact hfn
            · exact hargs v hv
        exact hall _ (List.getElem_mem hj)
    · intro i t hi
      rcases cases0 i t hi with hi | ⟨rfl, rfl⟩
      · exact J.hist i t hi
      · refine ⟨.none, I.none _ (Nat.le_refl _), fun raw hr => by cases hr⟩
    · intro i hi
      simp only [List.length_append, List.length_cons, List.length_nil] at hi
      exact J.none i (show w.threads.length ≤ i by omega)

/-- Changing one thread's state, and adding events about it. -/
theorem Inv.set {e : Endian} {ws : Nat} {w : World} (I : Inv e ws w) {i : Nat} {t t' : Thread} (hi : w.threads[i]? = some t)
    (same : t'.ptr = t.ptr ∧ t'.fn = t.fn ∧ t'.args = t.args) {evs : List Ev} (hev : ∀ x ∈ evs, x.about i = true)
    (hact : active t' → active t) (hnew : t'.st = .new → t.st = .new)
    (hh : ∃ rv, history w i ++ evs.reverse = (life i t' rv).take (steps t'.st) ∧ ∀ raw, t'.st = .done raw → raw = toRaw rv ∧ rv ≠ some 0) :
    Inv e ws { w with threads := w.threads.set i t', ev := evs ++ w.ev } := by
  obtain ⟨s1, s2, s3⟩ := same
  have other : ∀ j, j ≠ i → ∀ (l : List Thread), history { w with threads := l, ev := evs ++ w.ev } j = history w j := by
    intro j hj l
    unfold history
    simp only [List.filter_append]
    rw [List.filter_eq_nil_iff.mpr, List.nil_append]
    intro x hx
    have := hev x hx
    cases x <;> simp only [Ev.about, decide_eq_true_eq] at this ⊢ <;> omega
  have self : ∀ (l : List Thread), history { w with threads := l, ev := evs ++ w.ev } i = history w i ++ evs.reverse := by
    intro l
    unfold history
    simp only [List.filter_append, List.reverse_append]
    rw [List.filter_eq_self.mpr hev]
  constructor
  · exact I.disj
  · exact I.pos
  · exact I.good
  · intro j u hj hu
    rcases getElem?_set_cases hj with ⟨rfl, rfl, -⟩ | ⟨-, hj⟩
    · have := I.own j t hi (hact hu)
      unfold block at *
      rw [s1, s3]; exact this
    · exact I.own j u hj hu
  · intro j k u v hj hk hu hv hp
    rcases getElem?_set_cases hj with ⟨rfl, rfl, -⟩ | ⟨nj, hj'⟩ <;> rcases getElem?_set_cases hk with ⟨rfl, rfl, -⟩ | ⟨nk, hk'⟩
    · rfl
    · exact I.uniq _ _ _ _ hi hk' (hact hu) hv (s1.symm.trans hp)
    · exact I.uniq _ _ _ _ hj' hi hu (hact hv) (hp.trans s1)
    · exact I.uniq _ _ _ _ hj' hk' hu hv hp
  · intro j u hj hu
    rcases getElem?_set_cases hj with ⟨rfl, rfl, -⟩ | ⟨-, hj⟩
    · rw [s1, s2, s3]; exact I.word j t hi (hnew hu)
    · exact I.word j u hj hu
  · intro j u hj
    rcases getElem?_set_cases hj with ⟨rfl, rfl, -⟩ | ⟨nj, hj⟩
    · rw [self]; exact hh
    · rw [other j nj]; exact I.hist j u hj
  · intro j hj
    simp only [List.length_set] at hj
    have : i < w.threads.length := (List.getElem?_eq_some_iff.mp hi).1
    rw [other j (by omega)]
    exact I.none j hj

theorem Inv.begin {e : Endian} {ws : Nat} {w : World} (I : Inv e ws w) {i : Nat} {t : Thread} (hi : w.threads[i]? = some t)
    (ht : t.st = .new) : Inv e ws (begin e ws w i t) := by
  have h0 := I.word i t hi ht 0 _ rfl
  have h1 := I.word i t hi ht 1 _ rfl
  have h2 : ((List.range t.args.length).map fun j => ldN e ws w.mem (t.ptr + ws * (2 + j))) = t.args := by
    apply List.ext_getElem (by simp)
    intro j hj1 hj2
    simp only [List.getElem_map, List.getElem_range]
    refine I.word i t hi ht (2 + j) _ ?_
    rw [show 2 + j = j + 1 + 1 by omega, List.getElem?_cons_succ, List.getElem?_cons_succ, List.getElem?_eq_getElem hj2]
  unfold Libc.begin setT
  rw [Nat.mul_zero, Nat.add_zero] at h0
  rw [Nat.mul_one] at h1
  simp only [h0, h1, h2]
  refine I.set (t' := { t with st := .running }) (evs := [.called i t.fn t.args]) hi ⟨rfl, rfl, rfl⟩ ?_ ?_ ?_ ?_
  · intro x hx; simp only [List.mem_singleton] at hx; subst hx; simp [Ev.about]
  · intro _; exact Or.inl ht
  · intro h; cases h
  · obtain ⟨rv, h, -⟩ := I.hist i t hi
    refine ⟨rv, ?_, fun raw hr => by cases hr⟩
    rw [h, ht]; rfl

theorem Inv.finish {e : Endian} {ws : Nat} {w : World} (I : Inv e ws w) {i : Nat} {t : Thread} {rv : Option Nat}
    (hi : w.threads[i]? = some t) (ht : t.st = .running) (hr : rv ≠ some 0) : Inv e ws (finish w i t rv) := by
  have hb := I.own i t hi (Or.inr ht)
  have hany : w.live.any (·.addr = t.ptr) = true := by
    rw [List.any_eq_true]; exact ⟨_, hb, by simp [block]⟩
  unfold Libc.finish free setT
  rw [if_pos hany]
  have J := I.set (t' := { t with st := .done (toRaw rv) }) (evs := [.freed i t.ptr, .returned i rv]) hi ⟨rfl, rfl, rfl⟩
    (by intro x hx; simp only [List.mem_cons, List.not_mem_nil, or_false] at hx; rcases hx with rfl | rfl <;> simp [Ev.about])
    (by intro h; rcases h with h | h <;> cases h) (by intro h; cases h)
    (by
      obtain ⟨rv', h, -⟩ := I.hist i t hi
      refine ⟨rv, ?_, fun raw hr' => by cases hr'; exact ⟨rfl, hr⟩⟩
      rw [h, ht]; rfl)
  exact { J with
    disj := I.disj.sublist List.eraseP_sublist
    pos := fun b hb => I.pos b (List.mem_of_mem_eraseP hb)
    own := by
      intro j u hj hu
      refine mem_eraseP_of_ne (J.own j u hj hu) ?_
      rcases getElem?_set_cases hj with ⟨rfl, rfl, -⟩ | ⟨nj, hj⟩
      · rcases hu with hu | hu <;> cases hu
      · intro hp
        exact nj (I.uniq j i u t hj hi hu (Or.inr ht) hp) }

theorem Inv.step {e : Endian} {ws : Nat} {w w' : World} (hws : 0 < ws) (I : Inv e ws w) (s : Step e ws w w') : Inv e ws w' := by
  cases s with
  | create hlen hfn hargs hm => exact I.create hws _ _ _ _ _ hlen hfn hargs hm
  | begin hi ht => exact I.begin hi ht
  | finish hi ht hr => exact I.finish hi ht hr
  | @join i t raw hi ht hd =>
    obtain ⟨rv, h, h2⟩ := I.hist i t hi
    obtain ⟨rfl, hrv⟩ := h2 raw ht
    refine I.set (t' := { t with st := .joined }) (evs := [.joined i (nonNull (toRaw rv))]) hi ⟨rfl, rfl, rfl⟩ ?_ ?_ ?_ ?_
    · intro x hx; simp only [List.mem_singleton] at hx; subst hx; simp [Ev.about]
    · intro h; rcases h with h | h <;> cases h
    · intro h; cases h
    · refine ⟨rv, ?_, fun raw hr => by cases hr⟩
      rw [h, ht, nonNull_toRaw hrv]; rfl
  | @detach i t hi hd ht =>
    refine I.set (t' := { t with detached := true }) (evs := []) hi ⟨rfl, rfl, rfl⟩ (fun x hx => by cases hx) id id ?_
    obtain ⟨rv, h, h2⟩ := I.hist i t hi
    exact ⟨rv, by rw [List.reverse_nil, List.append_nil, h]; rfl, h2⟩
  | alloc hb h0 hd => exact I.alloc h0 hd
  | @dealloc b hb hm =>
    exact { I with
      disj := I.disj.sublist List.erase_sublist
      pos := fun c hc => I.pos c (List.mem_of_mem_erase hc)
      own := fun i t hi ht => by
        refine (List.mem_erase_of_ne ?_).mpr (I.own i t hi ht)
        rintro rfl; simp [block] at hm }
  | @write m h =>
    refine I.mem ?_
    intro i t hi ht x hx1 hx2
    refine h _ (I.own i t hi (Or.inl ht)) rfl ?_ x hx1 hx2
    intro u hu hru hp
    obtain ⟨j, hj⟩ := List.mem_iff_getElem?.mp hu
    have := I.uniq j i u t hj hi (Or.inr hru) (Or.inl ht) hp
    subst this
    rw [hi] at hj; cases hj
    rw [ht] at hru; cases hru

theorem inv {e : Endian} {ws : Nat} {w : World} (hws : 0 < ws) (h : Reach e ws w) : Inv e ws w := by
  induction h with
  | init m => exact Inv.init e ws m
  | step _ s ih => exact ih.step hws s

/-! ## C45 -/

/-- **C45 (round trip, freed once, joined).**  After any history of the process, with any number of threads: what has happened in each created
thread is a prefix of: its function (the one given to `create`) called, with exactly the arguments given to `create`; the function returned;
the argument block freed; `join` returned the function's result.  And no `free` ever was of an address that is not an allocated block. -/
theorem C45_life {e : Endian} {ws : Nat} {w : World} (hws : 0 < ws) (h : Reach e ws w) (i : Nat) (t : Thread) (hi : w.threads[i]? = some t) :
    (∃ rv, history w i <+: [.called i t.fn t.args, .returned i rv, .freed i t.ptr, .joined i rv]) ∧ w.bad = false := by
  obtain ⟨rv, h1, -⟩ := (inv hws h).hist i t hi
  exact ⟨⟨rv, h1 ▸ List.take_prefix _ _⟩, (inv hws h).good⟩

/-- **C45 (freed once).**  A finished thread's block has been freed exactly once, and a thread not finished has not had its block freed. -/
theorem C45_freed_once {e : Endian} {ws : Nat} {w : World} (hws : 0 < ws) (h : Reach e ws w) (i : Nat) (t : Thread) (hi : w.threads[i]? = some t) :
    (history w i).countP (fun x => match x with | .freed _ _ => true | _ => false) =
      match t.st with | .new | .running => 0 | .done _ | .joined => 1 := by
  obtain ⟨rv, h1, -⟩ := (inv hws h).hist i t hi
  rw [h1]
  cases t.st <;> rfl

/-- **C45 (create).**  `create` returns `Ok` exactly when every libc call in it succeeds, with `pthread_create`'s handle, and otherwise the error
of the first that failed (`ENOMEM` for `malloc`); the thread made has the stack and guard size given, and `create` makes no thread when it
fails. -/
theorem C45_create (e : Endian) (ws : Nat) (w : World) (a : Answers) (fn : Nat) (args : List Nat) (stack guard : Nat) :
    ∃ w', Libc.create e ws w a fn args stack guard = (w',
      if a.attrInit ≠ 0 then .error a.attrInit else if a.setStack ≠ 0 then .error a.setStack else if a.setGuard ≠ 0 then .error a.setGuard
      else if a.malloc = 0 then .error 12 else a.create) ∧
      ∀ t, t ∈ w'.threads ↔ t ∈ w.threads ∨ (∃ hd, (Libc.create e ws w a fn args stack guard).2 = .ok hd ∧
        t = ⟨hd, a.malloc, stack, guard, fn, args, false, .new⟩) := by
  unfold Libc.create
  by_cases h1 : a.attrInit ≠ 0
  · simp only [if_pos h1]; exact ⟨w, rfl, fun t => ⟨Or.inl, fun h => h.elim id (fun ⟨_, h, _⟩ => by cases h)⟩⟩
  simp only [if_neg h1]
  by_cases h2 : a.setStack ≠ 0
  · simp only [if_pos h2]; exact ⟨w, rfl, fun t => ⟨Or.inl, fun h => h.elim id (fun ⟨_, h, _⟩ => by cases h)⟩⟩
  simp only [if_neg h2]
  by_cases h3 : a.setGuard ≠ 0
  · simp only [if_pos h3]; exact ⟨w, rfl, fun t => ⟨Or.inl, fun h => h.elim id (fun ⟨_, h, _⟩ => by cases h)⟩⟩
  simp only [if_neg h3]
  by_cases h4 : a.malloc = 0
  · simp only [if_pos h4]; exact ⟨w, rfl, fun t => ⟨Or.inl, fun h => h.elim id (fun ⟨_, h, _⟩ => by cases h)⟩⟩
  simp only [if_neg h4]
  cases a.create with
  | error err => exact ⟨_, rfl, fun t => ⟨Or.inl, fun h => h.elim id (fun ⟨_, h, _⟩ => by cases h)⟩⟩
  | ok hd =>
    refine ⟨_, rfl, fun t => ?_⟩
    simp only [List.mem_append, List.mem_singleton]
    refine or_congr Iff.rfl ⟨fun h => ⟨hd, rfl, h⟩, ?_⟩
    rintro ⟨_, h, rfl⟩; cases h; rfl

/-- A history from one world to another. -/
inductive Steps (e : Endian) (ws : Nat) : World → World → Prop where
  | refl (w : World) : Steps e ws w w
  | tail {w w' w'' : World} (h : Steps e ws w w') (s : Step e ws w' w'') : Steps e ws w w''

/-- A block of `create`'s that no thread will free. -/
def Orphan (w : World) (b : Block) : Prop := b ∈ w.live ∧ b.mine = true ∧ ∀ t ∈ w.threads, active t → t.ptr ≠ b.addr

theorem orphan_step {e : Endian} {ws : Nat} {w w' : World} (hws : 0 < ws) (I : Inv e ws w) (s : Step e ws w w') {b : Block} (h : Orphan w b) :
    Orphan w' b := by
  obtain ⟨h1, h2, h3⟩ := h
  have setOk : ∀ {i : Nat} {t t' : Thread}, w.threads[i]? = some t → t'.ptr = t.ptr → (active t' → active t) →
      ∀ u ∈ w.threads.set i t', active u → u.ptr ≠ b.addr := by
    intro i t t' hi hp hact u hu hua
    obtain ⟨j, hj⟩ := List.mem_iff_getElem?.mp hu
    rcases getElem?_set_cases hj with ⟨rfl, rfl, -⟩ | ⟨nj, hj⟩
    · rw [hp]; exact h3 t (List.mem_of_getElem? hi) (hact hua)
    · exact h3 u (List.mem_of_getElem? hj) hua
  cases s with
  | @create a fn args stack guard hlen hfn hargs hm =>
    unfold Libc.create
    split; · exact ⟨h1, h2, h3⟩
    split; · exact ⟨h1, h2, h3⟩
    split; · exact ⟨h1, h2, h3⟩
    split; · exact ⟨h1, h2, h3⟩
    rename_i h0
    split
    · exact ⟨List.mem_cons_of_mem _ h1, h2, h3⟩
    · refine ⟨List.mem_cons_of_mem _ h1, h2, ?_⟩
      intro t ht hta hp
      rcases List.mem_append.mp ht with ht | ht
      · exact h3 t ht hta hp
      · simp only [List.mem_singleton] at ht
        subst ht
        have := (hm h0).2 b h1
        have hb := I.pos b h1
        have hq : 0 < (args.length + 2) * ws := Nat.mul_pos (by omega) hws
        unfold Block.Disj at this
        simp only at this hp
        omega
  | begin hi ht => exact ⟨h1, h2, setOk hi rfl (fun _ => Or.inl ht)⟩
  | @finish i t rv hi ht hr =>
    have hb := I.own i t hi (Or.inr ht)
    have hany : w.live.any (·.addr = t.ptr) = true := by
      rw [List.any_eq_true]; exact ⟨_, hb, by simp [block]⟩
    unfold Libc.finish free setT
    rw [if_pos hany]
    refine ⟨mem_eraseP_of_ne h1 ?_, h2, setOk hi rfl (fun h => by rcases h with h | h <;> cases h)⟩
    exact fun hp => h3 t (List.mem_of_getElem? hi) (Or.inr ht) hp.symm
  | join hi ht hd => exact ⟨h1, h2, setOk hi rfl (fun h => by rcases h with h | h <;> cases h)⟩
  | detach hi hd ht => exact ⟨h1, h2, setOk hi rfl id⟩
  | alloc hb h0 hd => exact ⟨List.mem_cons_of_mem _ h1, h2, h3⟩
  | dealloc hb hm =>
    refine ⟨(List.mem_erase_of_ne ?_).mpr h1, h2, h3⟩
    rintro rfl; rw [h2] at hm; cases hm
  | write h => exact ⟨h1, h2, h3⟩

/-- **C45 (the leak).**  If `pthread_create` fails, the argument block stays allocated, for ever, whatever happens afterwards. -/
theorem C45_leak {e : Endian} {ws : Nat} {w w' : World} (hws : 0 < ws) (h : Reach e ws w) (a : Answers) (fn : Nat) (args : List Nat)
    (stack guard err : Nat) (hlen : (args.length + 2) * ws < umax ws) (hfn : fn < umax ws) (hargs : ∀ v ∈ args, v < umax ws)
    (hm : a.malloc ≠ 0 → a.malloc + (args.length + 2) * ws ≤ umax ws ∧ ∀ b ∈ w.live, b.Disj ⟨a.malloc, (args.length + 2) * ws, true⟩)
    (h1 : a.attrInit = 0) (h2 : a.setStack = 0) (h3 : a.setGuard = 0) (h4 : a.malloc ≠ 0) (h5 : a.create = .error err)
    (hs : Steps e ws (Libc.create e ws w a fn args stack guard).1 w') : ⟨a.malloc, (args.length + 2) * ws, true⟩ ∈ w'.live := by
  have I := inv hws h
  have hO : Orphan (Libc.create e ws w a fn args stack guard).1 ⟨a.malloc, (args.length + 2) * ws, true⟩ := by
    unfold Libc.create
    rw [if_neg (by omega), if_neg (by omega), if_neg (by omega), if_neg h4, h5, umul_size hlen hws]
    refine ⟨List.mem_cons_self, rfl, ?_⟩
    intro t ht hta hp
    obtain ⟨i, hi⟩ := List.mem_iff_getElem?.mp ht
    have q := (hm h4).2 _ (I.own i t hi hta)
    have hp2 := I.pos _ (I.own i t hi hta)
    have hq : 0 < (args.length + 2) * ws := Nat.mul_pos (by omega) hws
    unfold Block.Disj block at *
    simp only at q hp2 hp
    omega
  have hI := I.step hws (Step.create (e := e) (ws := ws) (w := w) (a := a) (stack := stack) (guard := guard) hlen hfn hargs hm)
  have : Inv e ws w' ∧ Orphan w' ⟨a.malloc, (args.length + 2) * ws, true⟩ := by
    generalize Libc.create e ws w a fn args stack guard = r at hs hO hI
    generalize hr : r.1 = w0 at hs hO hI
    clear hr
    induction hs with
    | refl => exact ⟨hI, hO⟩
    | tail _ s ih =>
      obtain ⟨i1, i2⟩ := ih
      exact ⟨i1.step hws s, orphan_step hws i1 s i2⟩
  exact this.2.1

/-! ## C49 -/

/-- **C49.**  In any order of registrations and of libc calling the newest registered handler: the closures run are exactly those registered,
newest first, each once; every box is freed when its closure is run, and no box is used after that. -/
theorem C49_at_exit {h : Handlers} {stack ran : List Nat} (r : HReach h stack ran) :
    h.ran = ran ∧ h.boxes.map (·.2) = stack ∧ h.registered = h.boxes.map (·.1) ∧ h.bad = false := by
  induction r with
  | init => exact ⟨rfl, rfl, rfl, rfl⟩
  | reg r hp ih =>
    obtain ⟨i1, i2, i3, i4⟩ := ih
    exact ⟨i1, by simp [atExit, i2], by simp [atExit, i3], i4⟩
  | @call h f stack ran p ps r hr ih =>
    obtain ⟨i1, i2, i3, i4⟩ := ih
    cases hb : h.boxes with
    | nil => rw [hb] at i2; cases i2
    | cons b bs =>
      rw [hb] at i2 i3
      rw [hr] at i3
      simp only [List.map_cons, List.cons.injEq] at i2 i3
      obtain ⟨rfl, rfl⟩ := i2
      obtain ⟨rfl, rfl⟩ := i3
      unfold callBox
      simp only [List.find?_cons, decide_true, List.eraseP_cons]
      exact ⟨by simp [i1], rfl, rfl, i4⟩

/-! ## Concrete cases -/

/-- Two threads, the second with no arguments: created, run, joined and detached; memory is a heap at `0x1000`. -/
def demo1 : World := (create .little 8 ⟨fun _ => 0, [], [], [], false⟩ ⟨0, 0, 0, 0x1000, .ok 77⟩ 0x4242 [5, 0, 7] 65536 4096).1
def demo2 : World := (create .little 8 demo1 ⟨0, 0, 0, 0x2000, .ok 78⟩ 0x4343 [] 65536 4096).1

theorem demo2_reach : Reach .little 8 demo2 :=
  ((Reach.init (fun _ => 0)).step (Step.create (by decide) (by decide) (by decide) (fun _ => ⟨by decide, fun b hb => by cases hb⟩))).step
    (Step.create (by decide) (by decide) (by decide) (fun _ => ⟨by decide, fun b hb => by
      have : b ∈ [(⟨0x1000, 40, true⟩ : Block)] := hb
      simp only [List.mem_singleton] at this
      subst this; unfold Block.Disj; decide⟩))

/-- The first thread starts: its function is called with `[5, 0, 7]`. -/
example : ∃ w, Reach .little 8 w ∧ history w 0 = [.called 0 0x4242 [5, 0, 7]] := by
  have hi : demo2.threads[0]? = some ⟨77, 0x1000, 65536, 4096, 0x4242, [5, 0, 7], false, .new⟩ := rfl
  have R := demo2_reach.step (Step.begin hi rfl)
  refine ⟨_, R, ?_⟩
  obtain ⟨rv, h, -⟩ := (inv (by decide) R).hist 0 ⟨77, 0x1000, 65536, 4096, 0x4242, [5, 0, 7], false, .running⟩ rfl
  exact h

/-- And runs to the end: it returns null, its block is freed, and joined. -/
example : ∃ w, Reach .little 8 w ∧
    history w 0 = [.called 0 0x4242 [5, 0, 7], .returned 0 none, .freed 0 0x1000, .joined 0 none] ∧ w.live = [⟨0x2000, 16, true⟩] := by
  have hi : demo2.threads[0]? = some ⟨77, 0x1000, 65536, 4096, 0x4242, [5, 0, 7], false, .new⟩ := rfl
  have R1 := demo2_reach.step (Step.begin hi rfl)
  have R2 := R1.step (Step.finish (i := 0) (t := ⟨77, 0x1000, 65536, 4096, 0x4242, [5, 0, 7], false, .running⟩) (rv := none) rfl rfl (by decide))
  have R3 := R2.step (Step.join (i := 0) (t := ⟨77, 0x1000, 65536, 4096, 0x4242, [5, 0, 7], false, .done 0⟩) (raw := 0) rfl rfl rfl)
  refine ⟨_, R3, ?_, rfl⟩
  obtain ⟨rv, h, -⟩ := (inv (by decide) R1).hist 0 ⟨77, 0x1000, 65536, 4096, 0x4242, [5, 0, 7], false, .running⟩ rfl
  have e : ∀ (w : World) (x y z : Ev), x.about 0 = true → y.about 0 = true → z.about 0 = true → ∀ m l t b,
      history ⟨m, l, t, x :: y :: z :: w.ev, b⟩ 0 = history w 0 ++ [z, y, x] := by
    intro w x y z hx hy hz m l t b; simp [history, hx, hy, hz]
  exact (e (begin .little 8 demo2 0 ⟨77, 0x1000, 65536, 4096, 0x4242, [5, 0, 7], false, .new⟩) _ _ _ rfl rfl rfl _ _ _ _).trans (by rw [h]; rfl)

/-- Closures 1, 2 registered; 2 runs and registers 3; then 3 and 1 run. -/
example : ∃ h, HReach h [] [1, 3, 2] ∧ h.boxes = [] :=
  ⟨_, (((((HReach.init.reg (p := 100) (f := 1) (by decide)).reg (p := 200) (f := 2) (by decide)).call (p := 200) rfl).reg (p := 200) (f := 3)
    (by decide)).call (p := 200) rfl).call (p := 100) rfl, rfl⟩

end Origin.Libc
