import Verif.Proof.Relocate3
/-!
# C35-C40: program headers and startup relocation
-/

namespace Origin.Elf

open Gabi.Field

/-! ## C35 -/

theorem uwsub_dyna {ws b v : Nat} (hb : b < 2 ^ (8 * ws)) (hv : v < 2 ^ (8 * ws)) : uwsub ws (dyna ws b v) v = b := by
  by_cases h : b + v < 2 ^ (8 * ws)
  · rw [dyna, Nat.mod_eq_of_lt h, uwsub_of_le (by unfold umax; exact h) (by omega)]; omega
  · have e : dyna ws b v = b + v - 2 ^ (8 * ws) := by
      unfold dyna
      rw [Nat.mod_eq_sub_mod (by omega), Nat.mod_eq_of_lt (by omega)]
    rw [e, uwsub_of_gt (by omega) (by unfold umax; exact hv)]
    unfold umax; omega

/-- One header, with the gABI's numbers. -/
theorem scanPhdr_gabi (ws first dyn : Nat) (x : Scan) (h : Phdr) : scanPhdr ws first dyn x h =
    if h.type = Gabi.PT_PHDR then { x with offset := uwsub ws first h.vaddr }
    else if h.type = Gabi.PT_DYNAMIC then { x with offset := uwsub ws dyn h.vaddr }
    else if h.type = Gabi.PT_TLS then { x with tls := some h }
    else if h.type = Gabi.PT_GNU_STACK then { x with stackSize := h.memsz }
    else x := rfl

theorem scan_inv {i : Image} {b first : Nat} (hb : b < 2 ^ (8 * i.ws)) : ∀ (hs : List Phdr) (x : Scan),
    (∀ h ∈ hs, h.vaddr < 2 ^ (8 * i.ws)) →
    (∀ h ∈ hs, h.type = Gabi.PT_PHDR → first = dyna i.ws b h.vaddr) → (∀ h ∈ hs, h.type = Gabi.PT_DYNAMIC → i.dyn = dyna i.ws b h.vaddr) →
    ((∃ h ∈ hs, h.type = Gabi.PT_PHDR ∨ h.type = Gabi.PT_DYNAMIC) ∨ x.offset = b) →
    hs.foldl (scanPhdr i.ws first i.dyn) x =
      ⟨(lastPhdr Gabi.PT_TLS hs).or x.tls, ((lastPhdr Gabi.PT_GNU_STACK hs).map Phdr.memsz).getD x.stackSize, b⟩ := by
  intro hs
  induction hs with
  | nil =>
    intro x _ _ _ h
    rcases h with ⟨h, h1, -⟩ | h
    · cases h1
    · subst h; rfl
  | cons h hs ih =>
    intro x hv h1 h2 h3
    have hv' := hv h List.mem_cons_self
    have step : ∀ y : Scan, ((∃ h ∈ hs, h.type = Gabi.PT_PHDR ∨ h.type = Gabi.PT_DYNAMIC) ∨ y.offset = b) → _ := fun y hy =>
      ih y (fun g hg => hv g (List.mem_cons_of_mem _ hg)) (fun g hg => h1 g (List.mem_cons_of_mem _ hg))
        (fun g hg => h2 g (List.mem_cons_of_mem _ hg)) hy
    have old : h.type ≠ Gabi.PT_PHDR → h.type ≠ Gabi.PT_DYNAMIC → ((∃ h ∈ hs, h.type = Gabi.PT_PHDR ∨ h.type = Gabi.PT_DYNAMIC) ∨ x.offset = b) := by
      intro n1 n2
      rcases h3 with ⟨g, hg, hk⟩ | h3
      · rcases List.mem_cons.mp hg with rfl | hg
        · rcases hk with hk | hk
          · exact absurd hk n1
          · exact absurd hk n2
        · exact Or.inl ⟨g, hg, hk⟩
      · exact Or.inr h3
    rw [List.foldl_cons]
    by_cases t1 : h.type = Gabi.PT_PHDR
    · have e : scanPhdr i.ws first i.dyn x h = { x with offset := b } := by
        rw [scanPhdr_gabi, if_pos t1, h1 h List.mem_cons_self t1, uwsub_dyna hb hv']
      rw [e, step _ (Or.inr rfl)]
      simp [lastPhdr, t1, Gabi.PT_PHDR, Gabi.PT_TLS, Gabi.PT_GNU_STACK]
    by_cases t2 : h.type = Gabi.PT_DYNAMIC
    · have e : scanPhdr i.ws first i.dyn x h = { x with offset := b } := by
        rw [scanPhdr_gabi, if_neg t1, if_pos t2, h2 h List.mem_cons_self t2, uwsub_dyna hb hv']
      rw [e, step _ (Or.inr rfl)]
      simp [lastPhdr, t2, Gabi.PT_DYNAMIC, Gabi.PT_TLS, Gabi.PT_GNU_STACK]
    by_cases t3 : h.type = Gabi.PT_TLS
    · have e : scanPhdr i.ws first i.dyn x h = { x with tls := some h } := by
        rw [scanPhdr_gabi, if_neg t1, if_neg t2, if_pos t3]
      rw [e, step { x with tls := some h } (old t1 t2)]
      have ne : h.type ≠ Gabi.PT_GNU_STACK := by rw [t3]; decide
      have f1 : lastPhdr Gabi.PT_TLS (h :: hs) = (lastPhdr Gabi.PT_TLS hs).or (some h) := by
        unfold lastPhdr
        rw [List.filter_cons, if_pos (by simp [t3]), List.getLast?_cons]
        cases (hs.filter fun g => decide (g.type = Gabi.PT_TLS)).getLast? <;> rfl
      have f2 : lastPhdr Gabi.PT_GNU_STACK (h :: hs) = lastPhdr Gabi.PT_GNU_STACK hs := by
        unfold lastPhdr; rw [List.filter_cons, if_neg (by simp [ne])]
      rw [f1, f2]
      cases lastPhdr Gabi.PT_TLS hs <;> rfl
    by_cases t4 : h.type = Gabi.PT_GNU_STACK
    · have e : scanPhdr i.ws first i.dyn x h = { x with stackSize := h.memsz } := by
        rw [scanPhdr_gabi, if_neg t1, if_neg t2, if_neg t3, if_pos t4]
      rw [e, step { x with stackSize := h.memsz } (old t1 t2)]
      have f1 : lastPhdr Gabi.PT_GNU_STACK (h :: hs) = (lastPhdr Gabi.PT_GNU_STACK hs).or (some h) := by
        unfold lastPhdr
        rw [List.filter_cons, if_pos (by simp [t4]), List.getLast?_cons]
        cases (hs.filter fun g => decide (g.type = Gabi.PT_GNU_STACK)).getLast? <;> rfl
      have f2 : lastPhdr Gabi.PT_TLS (h :: hs) = lastPhdr Gabi.PT_TLS hs := by
        unfold lastPhdr; rw [List.filter_cons, if_neg (by simp [t3])]
      rw [f1, f2]
      cases lastPhdr Gabi.PT_GNU_STACK hs <;> rfl
    · have e : scanPhdr i.ws first i.dyn x h = x := by
        rw [scanPhdr_gabi, if_neg t1, if_neg t2, if_neg t3, if_neg t4]
      rw [e, step _ (old t1 t2)]
      have f1 : lastPhdr Gabi.PT_GNU_STACK (h :: hs) = lastPhdr Gabi.PT_GNU_STACK hs := by
        unfold lastPhdr; rw [List.filter_cons, if_neg (by simp [t4])]
      have f2 : lastPhdr Gabi.PT_TLS (h :: hs) = lastPhdr Gabi.PT_TLS hs := by
        unfold lastPhdr; rw [List.filter_cons, if_neg (by simp [t3])]
      rw [f1, f2]

theorem PhdrsAt.vaddr_lt {i : Image} (hi : i.ws = 4 ∨ i.ws = 8) {m : Mem} {phent : Nat} : ∀ {hs : List Phdr} {a : Nat}, PhdrsAt i m phent a hs →
    ∀ h ∈ hs, h.vaddr < 2 ^ (8 * i.ws) := by
  intro hs
  induction hs with
  | nil => intro a _ h hh; cases hh
  | cons g hs ih =>
    intro a ⟨h1, h2⟩ h hh
    rcases List.mem_cons.mp hh with rfl | hh
    · rw [phdrAt_iff hi] at h1
      rw [← h1]; unfold readPhdr; split <;> exact ld_lt i m _
    · exact ih h2 h hh

theorem lastPhdr_none {ty : Nat} {hs : List Phdr} (h : ∀ g ∈ hs, g.type ≠ ty) : lastPhdr ty hs = none := by
  unfold lastPhdr
  rw [List.getLast?_eq_none_iff, List.filter_eq_nil_iff]
  intro g hg
  simpa using h g hg

/-- **C35.** For every program header table, in any order, of a program loaded with any bias: the recorded TLS image is
at `PT_TLS`'s static address + bias, with its sizes and alignment, or is empty with alignment 1; the recorded stack
size is `PT_GNU_STACK`'s size or 0. -/
theorem C35_startup_info {i : Image} {m : Mem} {b first phent : Nat} {hs : List Phdr} (hi : i.ws = 4 ∨ i.ws = 8) (hb : b < 2 ^ (8 * i.ws)) (hp : 0 < phent)
    (hat : PhdrsAt i m phent first hs) (hend : first + hs.length * phent < 2 ^ (8 * i.ws)) (hl : Loaded i b first hs) :
    ∃ r, (∀ fuel > hs.length, initializeStartupInfo i m fuel first phent hs.length = some r) ∧ InfoOk i.ws b hs r := by
  obtain ⟨h1, h2, h3⟩ := hl
  have hscan := scan_inv hb hs ⟨none, 0, 0⟩ (PhdrsAt.vaddr_lt hi hat) h1 h2 (by rcases h3 with h | h; exact Or.inl h; exact Or.inr h.symm)
  have hstop : uadd i.ws first (umul i.ws hs.length phent) = first + hs.length * phent := by
    rw [umul_eq, Nat.mod_eq_of_lt (by unfold umax; omega), uadd_of_lt (by unfold umax; exact hend)]
  refine ⟨startupInfo i.ws ⟨(lastPhdr Gabi.PT_TLS hs).or none, ((lastPhdr Gabi.PT_GNU_STACK hs).map Phdr.memsz).getD 0, b⟩, ?_, ?_⟩
  · intro fuel hf
    unfold initializeStartupInfo
    rw [hstop, phdrLoop_ok hi hp hs first fuel _ hat (by unfold umax; exact hend) hf, hscan]
    rfl
  · constructor
    · intro h hh
      rw [hh]
      exact ⟨by simp [startupInfo, uadd_eq, dyna, umax], rfl, rfl, rfl⟩
    · intro h
      rw [lastPhdr_none h]; exact ⟨rfl, rfl, rfl⟩
    · intro h hh; rw [hh]; rfl
    · intro h; rw [lastPhdr_none h]; rfl

theorem lastPhdr_perm {ty : Nat} {hs hs' : List Phdr} (h : hs.Perm hs') (h1 : (hs.filter fun g => g.type = ty).length ≤ 1) :
    lastPhdr ty hs = lastPhdr ty hs' := by
  unfold lastPhdr
  have hp : (hs.filter fun g => decide (g.type = ty)).Perm (hs'.filter fun g => decide (g.type = ty)) := h.filter _
  cases e : hs.filter (fun g => decide (g.type = ty)) with
  | nil => rw [e] at hp; rw [List.nil_perm.mp hp]
  | cons g l =>
    rw [e] at hp h1
    simp only [List.length_cons] at h1
    have : l = [] := List.eq_nil_of_length_eq_zero (by omega)
    subst this
    rw [List.singleton_perm.mp hp]

/-- **C35 (order).** With at most one header of each of the two types, the order of the headers makes no
difference: two programs whose headers are permutations of each other get the same information. -/
theorem C35_order {i : Image} {m m' : Mem} {b first phent : Nat} {hs hs' : List Phdr} (hi : i.ws = 4 ∨ i.ws = 8) (hb : b < 2 ^ (8 * i.ws)) (hp : 0 < phent)
    (hat : PhdrsAt i m phent first hs) (hat' : PhdrsAt i m' phent first hs') (hend : first + hs.length * phent < 2 ^ (8 * i.ws))
    (hl : Loaded i b first hs) (hperm : hs.Perm hs')
    (u1 : (hs.filter fun g => g.type = Gabi.PT_TLS).length ≤ 1) (u2 : (hs.filter fun g => g.type = Gabi.PT_GNU_STACK).length ≤ 1) :
    ∀ fuel > hs.length, (initializeStartupInfo i m fuel first phent hs.length).isSome ∧
      initializeStartupInfo i m fuel first phent hs.length = initializeStartupInfo i m' fuel first phent hs'.length := by
  intro fuel hf
  have hlen := hperm.length_eq
  obtain ⟨h1, h2, h3⟩ := hl
  have s1 := scan_inv hb hs ⟨none, 0, 0⟩ (PhdrsAt.vaddr_lt hi hat) h1 h2 (by rcases h3 with h | h; exact Or.inl h; exact Or.inr h.symm)
  have s2 := scan_inv hb hs' ⟨none, 0, 0⟩ (PhdrsAt.vaddr_lt hi hat') (fun h hh => h1 h (hperm.mem_iff.mpr hh))
    (fun h hh => h2 h (hperm.mem_iff.mpr hh)) (by
      rcases h3 with ⟨h, h4, h5⟩ | h
      · exact Or.inl ⟨h, hperm.mem_iff.mp h4, h5⟩
      · exact Or.inr h.symm)
  have hstop : uadd i.ws first (umul i.ws hs.length phent) = first + hs.length * phent := by
    rw [umul_eq, Nat.mod_eq_of_lt (by unfold umax; omega), uadd_of_lt (by unfold umax; exact hend)]
  have e1 := phdrLoop_ok (first := first) hi hp hs first fuel ⟨none, 0, 0⟩ hat (by unfold umax; exact hend) hf
  have e2 := phdrLoop_ok (first := first) hi hp hs' first fuel ⟨none, 0, 0⟩ hat' (by unfold umax; rw [← hlen]; exact hend) (by omega)
  unfold initializeStartupInfo
  rw [← hlen, hstop, e1]
  rw [← hlen] at e2
  rw [e2, s1, s2, lastPhdr_perm hperm u1, lastPhdr_perm hperm u2]
  exact ⟨rfl, rfl⟩

/-! ## C36 -/

/-- **C36 (no relocation).** A static executable at its static address, and a program already relocated by a dynamic
linker, are left alone: nothing is written, nothing is protected. -/
theorem C36_not_needed {i : Image} {m : Mem} {envp start b : Nat} {env : List Nat} {aux : List (Nat × Nat)} (ok : Nat → Nat → Bool)
    (he : EnvAt i m envp env aux) (h : Launch i.ws start b (i.ld m i.staticStart) (auxOf aux) (ehdrField i m e_entry) false) :
    ∀ fuel > env.length + aux.length, relocate i ok fuel m envp = some (.done ⟨m, [], []⟩) := by
  intro fuel hf
  rw [relocate_start he hf]
  have : decision i m (auxOf aux) = none := by
    unfold decision loadStaticStart
    cases h with
    | static h1 h2 h3 h4 => rw [if_pos (by rw [h2, h4])]
    | dynamic h1 h2 => rw [if_pos (by rw [h1, h2])]
  rw [this]

theorem decision_needed {i : Image} {m : Mem} {start b : Nat} {a : Aux} (hb : b < 2 ^ (8 * i.ws)) (hs : start < 2 ^ (8 * i.ws))
    (h : Launch i.ws start b (i.ld m i.staticStart) a (ehdrField i m e_entry) true) (hco : i.ld m i.staticStart ≠ a.entry) :
    decision i m a = some b := by
  unfold decision loadStaticStart
  rw [if_neg hco]
  cases h with
  | staticPie h1 h2 h3 h4 =>
    rw [if_pos h1, h2]
    rw [eEntry_eq, h3, Nat.add_comm start]
    rw [show (b + start) % 2 ^ (8 * i.ws) = dyna i.ws b start from rfl, uwsub_dyna hb hs]
  | linker h1 h2 h3 => rw [if_neg (by rw [h1]; exact h2), h1]

/-- The debug builds' check of the decision, `load_static_start() == AT_ENTRY` after relocation: the word at
`STATIC_START` is one of those that the tables relocate, so this holds. -/
theorem C36_after {i : Image} {m : Mem} {start b : Nat} {ops : List Op} {s : State} (h : Applied i m ops s)
    (ho : ∃ o ∈ ops, o.addr = i.staticStart ∧ o.value (i.ld m i.staticStart) = (start + b) % 2 ^ (8 * i.ws)) :
    loadStaticStart i s.mem = (start + b) % 2 ^ (8 * i.ws) := by
  obtain ⟨o, h1, h2, h3⟩ := ho
  unfold loadStaticStart
  rw [← h2, h.words o h1, h2, h3]

/-! ## C37, C38, C40: the effect of `relocate` -/

theorem Setup.run {i : Image} {m : Mem} {envp start b phoff phent : Nat} {env : List Nat} {aux d : List (Nat × Nat)} {t : Tables}
    {hs : List Phdr} (h : Setup i m envp start b env aux d t phoff phent hs) (ok : Nat → Nat → Bool) :
    ∃ N, ∀ fuel > N, relocate i ok fuel m envp = some (protect i ok b (lastAux Gabi.AT_PAGESZ aux)
      (((lastPhdr Gabi.PT_GNU_RELRO hs).map fun h => (h.vaddr, h.memsz)).getD (0, 0)) (runOps i ⟨m, [], []⟩ (t.ops i.ws b))) := by
  refine ⟨env.length + aux.length + (d.length + t.rela.length + t.rel.length + t.relr.length + 8 * i.ws + hs.length), fun fuel hf => ?_⟩
  rw [relocate_start h.env (by omega), decision_needed h.hb h.hstart h.launch h.distinct]
  simp only
  rw [relocateWith_ok h.ws h.dyn h.tables h.types h.headers (by omega)]
  rfl

/-- `protect` changes no memory. -/
theorem protect_cases (i : Image) (ok : Nat → Nat → Bool) (b page : Nat) (r : Nat × Nat) (s : State) :
    (r.2 = 0 ∧ protect i ok b page r s = .done s) ∨
    (r.2 ≠ 0 ∧ ok (uand i.ws (uadd i.ws r.1 b) (uneg i.ws page)) r.2 = true ∧
      protect i ok b page r s = .done { s with prots := (uand i.ws (uadd i.ws r.1 b) (uneg i.ws page), r.2) :: s.prots }) ∨
    (r.2 ≠ 0 ∧ ok (uand i.ws (uadd i.ws r.1 b) (uneg i.ws page)) r.2 = false ∧ protect i ok b page r s = .trap s) := by
  unfold protect
  by_cases h : r.2 = 0
  · left; simp [h]
  · right
    cases h2 : ok (uand i.ws (uadd i.ws r.1 b) (uneg i.ws page)) r.2 <;> simp [h, h2]

theorem Applied.withProts {i : Image} {m : Mem} {ops : List Op} {s : State} (h : Applied i m ops s) (p : List (Nat × Nat)) :
    Applied i m ops { s with prots := p } := ⟨h.words, h.others, h.stores⟩

/-- **C37, C36 (relocation).** Whatever the tables and the load bias: `relocate` ends, with every word named by a RELA
entry holding addend + bias, every word named by a REL or RELR entry its previous content + bias, and every other byte
of memory unchanged, each word having been stored once; it then returns, unless the kernel refuses to protect the
RELRO segment (then it traps).  (Partial with respect to C36 only: `Setup.distinct` excludes the coincidence of
`C36_false`.) -/
theorem C37_applied {i : Image} {m : Mem} {envp start b phoff phent : Nat} {env : List Nat} {aux d : List (Nat × Nat)} {t : Tables}
    {hs : List Phdr} (h : Setup i m envp start b env aux d t phoff phent hs) (ok : Nat → Nat → Bool) :
    ∃ N out s, (∀ fuel > N, relocate i ok fuel m envp = some out) ∧ Applied i m (t.ops i.ws b) s ∧
      (out = .done s ∨ (out = .trap s ∧ ∃ addr len, ok addr len = false)) := by
  obtain ⟨N, hN⟩ := h.run ok
  have happ : Applied i m (t.ops i.ws b) (runOps i ⟨m, [], []⟩ (t.ops i.ws b)) := applied_runOps rfl rfl h.separate ops_lt
  rcases protect_cases i ok b (lastAux Gabi.AT_PAGESZ aux) (((lastPhdr Gabi.PT_GNU_RELRO hs).map fun h => (h.vaddr, h.memsz)).getD (0, 0))
    (runOps i ⟨m, [], []⟩ (t.ops i.ws b)) with ⟨-, e⟩ | ⟨-, -, e⟩ | ⟨-, hk, e⟩
  · exact ⟨N, _, _, hN, happ, Or.inl e⟩
  · exact ⟨N, _, _, hN, happ.withProts _, Or.inl e⟩
  · exact ⟨N, _, _, hN, happ, Or.inr ⟨e, _, _, hk⟩⟩

/-- **C36 (load bias used).** In the cases in which relocation is needed, what is relocated is displaced by the actual
load bias `b`: a program whose only relocation is the RELA entry for `STATIC_START` has the address of `_start` there
afterwards. -/
theorem C36_needed_partial {i : Image} {m : Mem} {envp start b phoff phent : Nat} {env : List Nat} {aux d : List (Nat × Nat)}
    {t : Tables} {hs : List Phdr} (h : Setup i m envp start b env aux d t phoff phent hs)
    (r : Rela) (hr : r ∈ t.rela) (ha : (r.offset + b) % 2 ^ (8 * i.ws) = i.staticStart) (hv : r.addend = start) :
    ∃ N s, (∀ fuel > N, relocate i (fun _ _ => true) fuel m envp = some (.done s)) ∧
      i.ld s.mem i.staticStart = (start + b) % 2 ^ (8 * i.ws) := by
  obtain ⟨N, out, s, h1, h2, h3⟩ := C37_applied h (fun _ _ => true)
  rcases h3 with rfl | ⟨-, _, _, h3⟩
  · refine ⟨N, s, h1, ?_⟩
    have := h2.words ⟨(r.offset + b) % 2 ^ (8 * i.ws), fun _ => (r.addend + b) % 2 ^ (8 * i.ws)⟩ (by
      rw [Tables.ops]
      exact List.mem_append_left _ (List.mem_append_left _ (List.mem_map.mpr ⟨r, hr, rfl⟩)))
    simp only at this
    rw [ha, hv] at this
    exact this
  · cases h3

/-- **C38.** For every RELR table, whatever the entries, the words relocated, in order, are exactly those that the
format's definition (`relrWords`) names: here for a program that has only a RELR table. -/
theorem C38_relr {i : Image} {m : Mem} {envp start b phoff phent : Nat} {env : List Nat} {aux d : List (Nat × Nat)} {relr : List Nat}
    {hs : List Phdr} (h : Setup i m envp start b env aux d ⟨[], [], relr⟩ phoff phent hs) (ok : Nat → Nat → Bool) :
    ∃ N out s, (∀ fuel > N, relocate i ok fuel m envp = some out) ∧ (out = .done s ∨ out = .trap s) ∧
      s.stores.reverse.map Prod.fst = (relrWords i.ws b 0 relr).map (· % 2 ^ (8 * i.ws)) := by
  obtain ⟨N, out, s, h1, h2, h3⟩ := C37_applied h ok
  refine ⟨N, out, s, h1, ?_, ?_⟩
  · rcases h3 with h3 | ⟨h3, -⟩
    · exact Or.inl h3
    · exact Or.inr h3
  · rw [h2.stores]
    simp [Tables.ops, Function.comp_def]

/-- **C38 (decoder).** As above, for the RELR loop by itself: any table at `p`, and any memory, even when the words
named are not distinct. -/
theorem C38_loop {i : Image} (hws : 0 < i.ws) {b p fuel : Nat} {l : List Nat} {s : State} (hat : RelrAt i s.mem p l)
    (hsafe : ∀ a ∈ relrWords i.ws b 0 l, Apart (a % 2 ^ (8 * i.ws)) i.ws p (l.length * i.ws)) (hf : l.length + 8 * i.ws < fuel) :
    ∃ s', relrLoop i b (p + l.length * i.ws) fuel p 0 s = some s' ∧
      ∃ new, s'.stores = new ++ s.stores ∧ new.reverse.map Prod.fst = (relrWords i.ws b 0 l).map (· % 2 ^ (8 * i.ws)) := by
  refine ⟨_, relr_done hws (fun _ => ⟨hat, ?_⟩) hf, ?_⟩
  · intro o ho
    obtain ⟨a, ha, rfl⟩ := List.mem_map.mp ho
    exact hsafe a ha
  · clear hsafe hat hf
    generalize relrWords i.ws b 0 l = ws
    induction ws generalizing s with
    | nil => exact ⟨[], rfl, rfl⟩
    | cons a ws ih =>
      obtain ⟨new, h1, h2⟩ := ih (s := runOp i s (wordOp i.ws b a))
      refine ⟨new ++ [((wordOp i.ws b a).addr, (wordOp i.ws b a).value (i.ld s.mem (wordOp i.ws b a).addr))], ?_, ?_⟩
      · rw [List.map_cons, runOps_cons, h1]
        simp [runOp, State.store]
      · rw [List.reverse_append, List.map_append, h2]
        rfl

/-! ## C39 -/

/-- **C39 (RELA).** If a RELA table has an entry of another type, the process is killed by a trap, having applied
exactly the entries before it. -/
theorem C39_rela {i : Image} {m : Mem} {envp start b : Nat} {env : List Nat} {aux d : List (Nat × Nat)} {pre post : List Rela} {bad : Rela}
    (hi : i.ws = 4 ∨ i.ws = 8) (hb : b < 2 ^ (8 * i.ws)) (hs : start < 2 ^ (8 * i.ws)) (he : EnvAt i m envp env aux)
    (hl : Launch i.ws start b (i.ld m i.staticStart) (auxOf aux) (ehdrField i m e_entry) true)
    (hco : i.ld m i.staticStart ≠ lastAux Gabi.AT_ENTRY aux) (hd : DynAt i m i.dyn d)
    (ht : RelaTableAt i m b (Tables.ops i.ws b ⟨pre, [], []⟩) d (pre ++ bad :: post))
    (hpre : ∀ r ∈ pre, Gabi.R_TYPE i.ws r.info = i.rRelative) (hbad : Gabi.R_TYPE i.ws bad.info ≠ i.rRelative)
    (hsep : Separate i.ws (Tables.ops i.ws b ⟨pre, [], []⟩)) (ok : Nat → Nat → Bool) :
    ∃ N s, (∀ fuel > N, relocate i ok fuel m envp = some (.trap s)) ∧ Applied i m (Tables.ops i.ws b ⟨pre, [], []⟩) s := by
  have e : Tables.ops i.ws b ⟨pre, [], []⟩ = pre.map (relaOp i.ws b) := by simp [Tables.ops_eq, relrWords]
  refine ⟨env.length + aux.length + (d.length + pre.length), runOps i ⟨m, [], []⟩ (Tables.ops i.ws b ⟨pre, [], []⟩), fun fuel hf => ?_,
    applied_runOps rfl rfl hsep ops_lt⟩
  · rw [relocate_start he (by omega), decision_needed hb hs hl hco]
    simp only
    rw [e] at ht ⊢
    exact rela_trapWith (s := ⟨m, [], []⟩) hi hd ht hpre hbad (by omega)

/-- **C39 (REL).** Likewise for a REL table: the whole RELA table, and the entries before the unsupported one. -/
theorem C39_rel {i : Image} {m : Mem} {envp start b : Nat} {env : List Nat} {aux d : List (Nat × Nat)} {rela : List Rela}
    {pre post : List Rel} {bad : Rel}
    (hi : i.ws = 4 ∨ i.ws = 8) (hb : b < 2 ^ (8 * i.ws)) (hs : start < 2 ^ (8 * i.ws)) (he : EnvAt i m envp env aux)
    (hl : Launch i.ws start b (i.ld m i.staticStart) (auxOf aux) (ehdrField i m e_entry) true)
    (hco : i.ld m i.staticStart ≠ lastAux Gabi.AT_ENTRY aux) (hd : DynAt i m i.dyn d)
    (hta : RelaTableAt i m b (Tables.ops i.ws b ⟨rela, pre, []⟩) d rela)
    (ht : RelTableAt i m b (Tables.ops i.ws b ⟨rela, pre, []⟩) d (pre ++ bad :: post))
    (hrela : ∀ r ∈ rela, Gabi.R_TYPE i.ws r.info = i.rRelative)
    (hpre : ∀ r ∈ pre, Gabi.R_TYPE i.ws r.info = i.rRelative) (hbad : Gabi.R_TYPE i.ws bad.info ≠ i.rRelative)
    (hsep : Separate i.ws (Tables.ops i.ws b ⟨rela, pre, []⟩)) (ok : Nat → Nat → Bool) :
    ∃ N s, (∀ fuel > N, relocate i ok fuel m envp = some (.trap s)) ∧ Applied i m (Tables.ops i.ws b ⟨rela, pre, []⟩) s := by
  have e : Tables.ops i.ws b ⟨rela, pre, []⟩ = rela.map (relaOp i.ws b) ++ pre.map (relOp i.ws b) := by simp [Tables.ops_eq, relrWords]
  refine ⟨env.length + aux.length + (d.length + rela.length + pre.length), runOps i ⟨m, [], []⟩ (Tables.ops i.ws b ⟨rela, pre, []⟩),
    fun fuel hf => ?_, applied_runOps rfl rfl hsep ops_lt⟩
  · rw [relocate_start he (by omega), decision_needed hb hs hl hco]
    simp only
    rw [e] at ht hta ⊢
    exact rel_trapWith (s := ⟨m, [], []⟩) hi hd hta ht hrela hpre hbad (by omega)

/-! ## C40 -/

/-- **C40 (call).** With a RELRO header and a page size `2 ^ k`: one `mprotect(.., PROT_READ)` call is made, after all the
relocations, for the segment's start + bias rounded down to a page, with the segment's size; a refusal traps. -/
theorem C40_call {i : Image} {m : Mem} {envp start b phoff phent k : Nat} {env : List Nat} {aux d : List (Nat × Nat)} {t : Tables}
    {hs : List Phdr} (h : Setup i m envp start b env aux d t phoff phent hs) (hk : k < 8 * i.ws) (hpage : lastAux Gabi.AT_PAGESZ aux = 2 ^ k)
    {g : Phdr} (hg : lastPhdr Gabi.PT_GNU_RELRO hs = some g) (hne : g.memsz ≠ 0) (ok : Nat → Nat → Bool) :
    ∃ N s, Applied i m (t.ops i.ws b) s ∧
      (ok (dyna i.ws b g.vaddr / 2 ^ k * 2 ^ k) g.memsz = true → s.prots = [(dyna i.ws b g.vaddr / 2 ^ k * 2 ^ k, g.memsz)] ∧
        ∀ fuel > N, relocate i ok fuel m envp = some (.done s)) ∧
      (ok (dyna i.ws b g.vaddr / 2 ^ k * 2 ^ k) g.memsz = false → s.prots = [] ∧
        ∀ fuel > N, relocate i ok fuel m envp = some (.trap s)) := by
  obtain ⟨N, hN⟩ := h.run ok
  have happ : Applied i m (t.ops i.ws b) (runOps i ⟨m, [], []⟩ (t.ops i.ws b)) := applied_runOps rfl rfl h.separate ops_lt
  have hp0 : (runOps i ⟨m, [], []⟩ (t.ops i.ws b)).prots = [] := runOps_prots i _ _
  have haddr : uand i.ws (uadd i.ws g.vaddr b) (uneg i.ws (lastAux Gabi.AT_PAGESZ aux)) = dyna i.ws b g.vaddr / 2 ^ k * 2 ^ k := by
    rw [hpage, uand_uneg rfl hk (by rw [uadd_eq]; exact Nat.mod_lt _ (umax_pos _)), uadd_eq, Nat.add_comm]; rfl
  rw [hg] at hN
  simp only [Option.map_some, Option.getD_some] at hN
  rcases protect_cases i ok b (lastAux Gabi.AT_PAGESZ aux) (g.vaddr, g.memsz) (runOps i ⟨m, [], []⟩ (t.ops i.ws b)) with
    ⟨h0, -⟩ | ⟨-, hk, e⟩ | ⟨-, hk, e⟩
  · exact absurd h0 hne
  · rw [haddr] at hk e
    rw [e] at hN
    refine ⟨N, _, happ.withProts _, fun _ => ⟨?_, hN⟩, fun hc => by rw [hk] at hc; cases hc⟩
    rw [hp0]
  · rw [haddr] at hk
    rw [e] at hN
    exact ⟨N, _, happ, (fun hc => by rw [hk] at hc; cases hc), fun _ => ⟨hp0, hN⟩⟩

/-- **C40 (no RELRO).** Without a RELRO header, nothing is protected. -/
theorem C40_none {i : Image} {m : Mem} {envp start b phoff phent : Nat} {env : List Nat} {aux d : List (Nat × Nat)} {t : Tables}
    {hs : List Phdr} (h : Setup i m envp start b env aux d t phoff phent hs) (hg : ∀ g ∈ hs, g.type ≠ Gabi.PT_GNU_RELRO)
    (ok : Nat → Nat → Bool) :
    ∃ N s, (∀ fuel > N, relocate i ok fuel m envp = some (.done s)) ∧ s.prots = [] := by
  obtain ⟨N, hN⟩ := h.run ok
  refine ⟨N, _, ?_, runOps_prots i ⟨m, [], []⟩ (t.ops i.ws b)⟩
  rw [lastPhdr_none hg] at hN
  exact hN

theorem page_le {page x y : Nat} (hx : page ∣ x) (hy : page ∣ y) (h : x < y + page) : x ≤ y := by
  obtain ⟨p, rfl⟩ := hx
  obtain ⟨q, rfl⟩ := hy
  apply Nat.mul_le_mul_left
  have : page * p < page * (q + 1) := by rw [Nat.mul_add, Nat.mul_one]; exact h
  have := Nat.lt_of_mul_lt_mul_left this
  omega

/-- **C40 (coverage).** The call for the segment `[v, v + n)` protects every page that lies wholly in the segment,
and no byte outside the pages that the segment overlaps. -/
theorem C40_coverage {page v n : Nat} (hp : 0 < page) :
    (∀ x, (∃ p, page ∣ p ∧ v ≤ p ∧ p + page ≤ v + n ∧ p ≤ x ∧ x < p + page) → Protected page (v / page * page) n x) ∧
    (∀ x, Protected page (v / page * page) n x → v / page * page ≤ x ∧ x < natRoundUp (v + n) page) := by
  have h1 : v / page * page ≤ v := Nat.div_mul_le_self v page
  have h2 : v < v / page * page + page := by have := Nat.div_add_mod v page; have := Nat.mod_lt v hp; rw [Nat.mul_comm]; omega
  have ha : page ∣ v / page * page := Nat.dvd_mul_left _ _
  have hr := dvd_natRoundUp n page
  have hn := le_natRoundUp (x := n) hp
  constructor
  · rintro x ⟨p, hd, h3, h4, h5, h6⟩
    refine ⟨by omega, ?_⟩
    have : p + page ≤ v / page * page + natRoundUp n page :=
      page_le (Nat.dvd_add hd (Nat.dvd_refl _)) (Nat.dvd_add ha hr) (by omega)
    omega
  · rintro x ⟨h3, h4⟩
    refine ⟨h3, ?_⟩
    have h5 := natRoundUp_lt (x := n) hp
    have h6 := le_natRoundUp (x := v + n) hp
    have : v / page * page + natRoundUp n page ≤ natRoundUp (v + n) page :=
      page_le (Nat.dvd_add ha hr) (dvd_natRoundUp _ _) (by omega)
    omega

/-- **C40 (exact).** With a segment that ends on a page boundary, it is covered completely, and nothing after it is
protected. -/
theorem C40_exact {page v n : Nat} (hp : 0 < page) (hend : page ∣ v + n) :
    ∀ x, Protected page (v / page * page) n x ↔ v / page * page ≤ x ∧ x < v + n := by
  have h1 : v / page * page ≤ v := Nat.div_mul_le_self v page
  have h2 : v < v / page * page + page := by have := Nat.div_add_mod v page; have := Nat.mod_lt v hp; rw [Nat.mul_comm]; omega
  have ha : page ∣ v / page * page := Nat.dvd_mul_left _ _
  have hr := dvd_natRoundUp n page
  have hn := le_natRoundUp (x := n) hp
  have h3 : v + n ≤ v / page * page + natRoundUp n page := page_le hend (Nat.dvd_add ha hr) (by omega)
  have h4 := natRoundUp_lt (x := n) hp
  have h5 : v / page * page + natRoundUp n page ≤ v + n := page_le (Nat.dvd_add ha hr) hend (by omega)
  intro x
  unfold Protected
  rw [show v / page * page + natRoundUp n page = v + n by omega]

/-- **C40 (otherwise false).** With other segments the call protects writable data after the segment ... -/
theorem C40_after_false : ∃ page v n x, page = 4096 ∧ page ∣ v ∧ v + n ≤ x ∧ Protected page (v / page * page) n x :=
  ⟨4096, 0x1000, 0x1800, 0x2fff, rfl, ⟨1, rfl⟩, by decide, by unfold Protected natRoundUp; decide⟩

/-- ... or leaves the end of the segment writable. -/
theorem C40_tail_false : ∃ page v n x, page = 4096 ∧ v ≤ x ∧ x < v + n ∧ ¬ Protected page (v / page * page) n x :=
  ⟨4096, 0x1800, 0x900, 0x2000, rfl, by decide, by decide, by unfold Protected natRoundUp; decide⟩

/-! ## Non-vacuity: a program

A 64-bit static position-independent executable at bias `0x100` (page size `0x100`), with two RELA, two REL and two
RELR entries (one a bitmap), and a RELRO segment. -/

instance decWords (i : Image) (m : Mem) : ∀ (l : List Nat) (a : Nat), Decidable (WordsAt i m a l)
  | [], _ => .isTrue trivial
  | x :: xs, a => @instDecidableAnd (i.ld m a = x) (WordsAt i m (a + i.ws) xs) (inferInstance) (decWords i m xs (a + i.ws))

instance (i : Image) (m : Mem) (a : Nat) (h : Phdr) : Decidable (PhdrAt i m a h) :=
  decidable_of_iff
    (Gabi.get i.endian m a (Gabi.phdrFields i.ws) p_type = h.type ∧ Gabi.get i.endian m a (Gabi.phdrFields i.ws) p_vaddr = h.vaddr ∧
     Gabi.get i.endian m a (Gabi.phdrFields i.ws) p_filesz = h.filesz ∧ Gabi.get i.endian m a (Gabi.phdrFields i.ws) p_memsz = h.memsz ∧
     Gabi.get i.endian m a (Gabi.phdrFields i.ws) p_align = h.align)
    ⟨fun ⟨h1, h2, h3, h4, h5⟩ => ⟨h1, h2, h3, h4, h5⟩, fun ⟨h1, h2, h3, h4, h5⟩ => ⟨h1, h2, h3, h4, h5⟩⟩

instance decPhdrs (i : Image) (m : Mem) (n : Nat) : ∀ (l : List Phdr) (a : Nat), Decidable (PhdrsAt i m n a l)
  | [], _ => .isTrue trivial
  | x :: xs, a => @instDecidableAnd (PhdrAt i m a x) (PhdrsAt i m n (a + n) xs) (inferInstance) (decPhdrs i m n xs (a + n))

instance (a n b k : Nat) : Decidable (Apart a n b k) := by unfold Apart; infer_instance
instance (ws : Nat) (ops : List Op) (a n : Nat) : Decidable (Safe ws ops a n) := by unfold Safe; infer_instance
instance (ws : Nat) (ops : List Op) : Decidable (Separate ws ops) := by unfold Separate; infer_instance

def demoWords : List Nat := [2457, 0, 6, 256, 33, 5, 9, 320, 0, 0, 0, 0, 0, 0, 0, 0, 0, 0, 0, 0, 0, 0, 0, 0, 0, 0, 0, 0, 0, 0, 0, 0, 0, 0, 0, 64, 64, 0, 15762598695796736, 2, 1, 0, 0, 0, 768, 768, 256, 1685382482, 0, 512, 0, 256, 256, 1, 7, 304, 8, 48, 9, 24, 17, 352, 18, 32, 36, 384, 35, 16, 0, 0, 512, 8, 64, 520, 8, 72, 528, 8, 536, 8, 544, 11, 0, 0, 0, 0, 0, 0, 0, 0, 0, 0, 0, 0, 0, 0, 0, 0, 80, 88, 96, 104, 30583, 112]
def demoMem : Mem := fun a => BitVec.ofNat 8 (demoWords.getD (a / 8) 0 >>> (8 * (a % 8)))
def demoImage : Image := { ws := 8, endian := .little, rRelative := 8, staticStart := 0x300, ehdr := 0x100, dyn := 0x1b0 }
def demoTables : Tables :=
  { rela := [⟨0x200, 8, 0x40⟩, ⟨0x208, 8, 0x48⟩], rel := [⟨0x210, 8⟩, ⟨0x218, 8⟩], relr := [0x220, 11] }
def demoHeaders : List Phdr := [⟨1, 0, 0x300, 0x300, 0x100⟩, ⟨Gabi.PT_GNU_RELRO, 0x200, 0x100, 0x100, 1⟩]

theorem demo_setup : Setup demoImage demoMem 0 0x40 0x100 [0x999] [(6, 256), (33, 5), (9, 0x140)]
    [(7, 0x130), (8, 48), (9, 24), (17, 0x160), (18, 32), (36, 0x180), (35, 16)] demoTables 0x40 56 demoHeaders where
  ws := Or.inr rfl
  hb := by decide
  hstart := by decide
  env := ⟨by decide, by decide, by decide, (by decide : WordsAt _ _ _ _)⟩
  launch := .staticPie (by decide) (by decide) (by decide) (by decide)
  distinct := by decide
  dyn := ⟨by decide, (by decide : WordsAt _ _ _ _)⟩
  tables := ⟨⟨by decide, fun _ => ⟨by decide, (by decide : WordsAt _ _ _ _), by decide⟩⟩,
    ⟨by decide, fun _ => ⟨by decide, (by decide : WordsAt _ _ _ _), by decide⟩⟩,
    ⟨by decide, fun _ => ⟨by decide, (by decide : WordsAt _ _ _ _), by decide⟩⟩⟩
  types := ⟨by decide, by decide⟩
  headers := ⟨by decide, by decide, by decide, by decide, by decide, by decide, by decide⟩
  separate := by decide

/-- The seven words of the program that get relocated. -/
example : (demoTables.ops 8 0x100).map (fun o => (o.addr, o.value (demoImage.ld demoMem o.addr))) =
    [(0x300, 0x140), (0x308, 0x148), (0x310, 0x150), (0x318, 0x158), (0x320, 0x160), (0x328, 0x168), (0x338, 0x170)] := by decide

/-- The program, run. -/
example : ∃ s, relocate demoImage (fun _ _ => true) 100 demoMem 0 = some (.done s) ∧ s.prots = [(0x300, 0x100)] ∧
    s.stores.reverse = [(0x300, 0x140), (0x308, 0x148), (0x310, 0x150), (0x318, 0x158), (0x320, 0x160), (0x328, 0x168), (0x338, 0x170)] :=
  ⟨_, rfl, rfl, rfl⟩

/-- **C36 (coincidence).** As a dynamic linker whose unrelocated `STATIC_START` word happens to equal the other
program's entry point, the code does not relocate although it must. -/
theorem C36_false : ∃ (i : Image) (m : Mem) (envp start b : Nat) (env : List Nat) (aux : List (Nat × Nat)),
    EnvAt i m envp env aux ∧
    Launch i.ws start b (i.ld m i.staticStart) (auxOf aux) (ehdrField i m e_entry) true ∧
    i.ld m i.staticStart = start ∧ ∀ ok, ∀ fuel > 10, relocate i ok fuel m envp = some (.done ⟨m, [], []⟩) := by
  refine ⟨demoImage, fun a => if a = 8 then 7#8 else if a = 17 then 4#8 else if a = 24 then 9#8 else if a = 33 ∨ a = 0x301 then 3#8 else 0#8,
    0, 0x300, 0x400, [], [(7, 0x400), (9, 0x300)],
    ⟨by decide, by decide, by decide, (by decide : WordsAt _ _ _ _)⟩, .linker (by decide) (by decide) (by decide), by decide, ?_⟩
  intro ok fuel hf
  rw [relocate_start (env := []) (aux := [(7, 0x400), (9, 0x300)]) ⟨by decide, by decide, by decide, (by decide : WordsAt _ _ _ _)⟩ (by simp; omega)]
  rfl

/-! ### Non-vacuity of C39: the same program, its second RELA entry of type 6 (not `R_RELATIVE`) -/

def demoBadMem : Mem := fun a => BitVec.ofNat 8 ((demoWords.set ((0x230 + 24 + 8) / 8) 6).getD (a / 8) 0 >>> (8 * (a % 8)))

example (ok : Nat → Nat → Bool) : ∃ N s, (∀ fuel > N, relocate demoImage ok fuel demoBadMem 0 = some (.trap s)) ∧
    s.stores.reverse = [(0x300, 0x140)] := by
  obtain ⟨N, s, h1, h2⟩ := C39_rela (i := demoImage) (m := demoBadMem) (envp := 0) (start := 0x40) (b := 0x100) (env := [0x999])
    (aux := [(6, 256), (33, 5), (9, 0x140)]) (d := [(7, 0x130), (8, 48), (9, 24), (17, 0x160), (18, 32), (36, 0x180), (35, 16)])
    (pre := [⟨0x200, 8, 0x40⟩]) (bad := ⟨0x208, 6, 0x48⟩) (post := []) (Or.inr rfl) (by decide) (by decide)
    ⟨by decide, by decide, by decide, (by decide : WordsAt _ _ _ _)⟩ (.staticPie (by decide) (by decide) (by decide) (by decide)) (by decide)
    ⟨by decide, (by decide : WordsAt _ _ _ _)⟩ ⟨by decide, fun _ => ⟨by decide, (by decide : WordsAt _ _ _ _), by decide⟩⟩
    (by decide) (by decide) (by decide) ok
  exact ⟨N, s, h1, h2.stores.trans (by decide)⟩

/-! ### Non-vacuity of C35: headers `PT_PHDR`, `PT_TLS` of a program at bias `0x1000` -/

def demoPhdrMem : Mem := fun a => BitVec.ofNat 8 (([6, 0, 64, 0, 0, 112, 8, 7, 0, 512, 0, 24, 40, 16] : List Nat).getD ((a - 0x1040) / 8) 0 >>> (8 * (a % 8)))

example : ∃ r, (∀ fuel > 2, initializeStartupInfo demoImage demoPhdrMem fuel 0x1040 56 2 = some r) ∧
    r.tls.addr = 0x1200 ∧ r.tls.fileSize = 24 ∧ r.tls.memSize = 40 ∧ r.tls.align = 16 ∧ r.stackSize = 0 := by
  obtain ⟨r, h1, h2⟩ := C35_startup_info (i := demoImage) (m := demoPhdrMem) (b := 0x1000) (first := 0x1040) (phent := 56)
    (hs := [⟨6, 0x40, 0, 112, 8⟩, ⟨7, 0x200, 24, 40, 16⟩]) (Or.inr rfl) (by decide) (by decide) (by decide) (by decide)
    ⟨by decide, by decide, Or.inl ⟨_, List.mem_cons_self, Or.inl rfl⟩⟩
  obtain ⟨h3, h4, h5, h6⟩ := h2.tls ⟨7, 0x200, 24, 40, 16⟩ rfl
  exact ⟨r, h1, h3, h4, h5, h6, h2.noStack (by decide)⟩

/-! A 32-bit program at bias `0x1000`, with `PT_TLS` and `PT_GNU_STACK` before `PT_PHDR`. -/

/-- The headers of a program loaded at `0x5000`, whose dynamic section is at `0x5200`. -/
def demoOtherMem : Mem := fun a =>
  BitVec.ofNat 8 (([6, 0, 64, 0, 0, 168, 8, 2, 0, 512, 0, 64, 64, 8, 7, 0, 768, 0, 24, 40, 16] : List Nat).getD ((a - 0x5040) / 8) 0 >>> (8 * (a % 8)))

/-- **C35 (the hypothesis `Loaded` is needed).** As a dynamic linker (the fourth case of src/relocate.rs:105-120), origin's `_DYNAMIC` (here `0x1b0`) is not the
program's: from the header `PT_DYNAMIC` of the program it is asked to run it computes a wrong bias, even though `PT_PHDR` is there and right, and records
the TLS image at a wrong address. -/
theorem C35_linker_false : ∃ (i : Image) (m : Mem) (b first phent : Nat) (hs : List Phdr) (r : StartupInfo),
    PhdrsAt i m phent first hs ∧ (∃ h ∈ hs, h.type = Gabi.PT_PHDR) ∧ (∀ h ∈ hs, h.type = Gabi.PT_PHDR → first = dyna i.ws b h.vaddr) ∧
    (∀ fuel > 3, initializeStartupInfo i m fuel first phent hs.length = some r) ∧
    ∃ h, lastPhdr Gabi.PT_TLS hs = some h ∧ r.tls.addr ≠ dyna i.ws b h.vaddr := by
  refine ⟨demoImage, demoOtherMem, 0x5000, 0x5040, 56, [⟨6, 0x40, 0, 168, 8⟩, ⟨2, 512, 64, 64, 8⟩, ⟨7, 768, 24, 40, 16⟩],
    ⟨⟨uadd 8 (uwsub 8 0x1b0 512) 768, 40, 24, 16⟩, 0⟩, by decide, ⟨_, List.mem_cons_self, rfl⟩, by decide, ?_, _, rfl, by decide⟩
  intro fuel hf
  obtain ⟨n, rfl⟩ : ∃ n, fuel = n + 4 := ⟨fuel - 4, by omega⟩
  rfl

def demoImage32 : Image := { ws := 4, endian := .little, rRelative := 23, staticStart := 0x300, ehdr := 0x100, dyn := 0x1b0 }
def demoPhdrMem32 : Mem := fun a =>
  BitVec.ofNat 8 (([7, 0x200, 0x200, 0x200, 24, 40, 4, 16, 1685382481, 0, 0, 0, 0, 0x8000, 6, 16,
    6, 0x34, 0x34, 0x34, 96, 96, 4, 4] : List Nat).getD ((a - 0x1034) / 4) 0 >>> (8 * (a % 4)))

example : ∃ r, (∀ fuel > 3, initializeStartupInfo demoImage32 demoPhdrMem32 fuel 0x1034 32 3 = some r) ∧
    r.tls.addr = 0x1200 ∧ r.tls.fileSize = 24 ∧ r.tls.memSize = 40 ∧ r.tls.align = 16 ∧ r.stackSize = 0x8000 := by
  obtain ⟨r, h1, h2⟩ := C35_startup_info (i := demoImage32) (m := demoPhdrMem32) (b := 0x1000) (first := 0x1034) (phent := 32)
    (hs := [⟨7, 0x200, 24, 40, 16⟩, ⟨1685382481, 0, 0, 0x8000, 16⟩, ⟨6, 0x34, 96, 96, 4⟩]) (Or.inl rfl) (by decide) (by decide) (by decide) (by decide)
    ⟨by decide, by decide, Or.inl ⟨⟨6, 0x34, 96, 96, 4⟩, by decide, Or.inl rfl⟩⟩
  obtain ⟨h3, h4, h5, h6⟩ := h2.tls ⟨7, 0x200, 24, 40, 16⟩ rfl
  exact ⟨r, h1, h3, h4, h5, h6, h2.stack ⟨1685382481, 0, 0, 0x8000, 16⟩ rfl⟩

end Origin.Elf
