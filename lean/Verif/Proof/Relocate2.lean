import Verif.Proof.Relocate
/-! # RELR, the dynamic section, the auxiliary vector, the program headers -/

namespace Origin.Elf

theorem runOp_word {i : Image} {s : State} {b a x : Nat} (h : x = a % 2 ^ (8 * i.ws)) :
    s.store i x (uadd i.ws (i.ld s.mem x) b) = runOp i s (wordOp i.ws b a) := by
  subst h; rw [uadd_eq]; rfl

theorem testBit_shift (e k : Nat) : (e >>> 1).testBit k = e.testBit (k + 1) := by
  rw [Nat.testBit_shiftRight, Nat.add_comm]

/-- The bitmap loop relocates the words whose bits are set. -/
theorem relrBits_ok {i : Image} (b base addr : Nat) (ha : addr = base % 2 ^ (8 * i.ws)) :
    ∀ (n k e fuel : Nat) (s : State), e < 2 ^ (n + 1) → n < fuel →
    relrBits i b addr fuel k e s =
      some (runOps i s ((((List.range n).filter fun j => e.testBit (j + 1)).map fun j => base + (k + j) * i.ws).map (wordOp i.ws b))) := by
  intro n
  induction n with
  | zero =>
    intro k e fuel s he hf
    cases fuel with
    | zero => omega
    | succ f =>
      have : e >>> 1 = 0 := by rw [Nat.shiftRight_eq_div_pow]; omega
      simp [relrBits, this, runOps]
  | succ n ih =>
    intro k e fuel s he hf
    cases fuel with
    | zero => omega
    | succ f =>
      rw [relrBits]
      by_cases h0 : e >>> 1 = 0
      · simp only [h0, if_true]
        have : (List.range (n + 1)).filter (fun j => e.testBit (j + 1)) = [] := by
          rw [List.filter_eq_nil_iff]
          intro j _
          rw [← testBit_shift, h0]; simp
        rw [this]; rfl
      · simp only [h0, if_false]
        have he' : e >>> 1 < 2 ^ (n + 1) := by
          rw [Nat.shiftRight_eq_div_pow, Nat.div_lt_iff_lt_mul (by decide)]
          have : 2 ^ (n + 1 + 1) = 2 ^ (n + 1) * 2 := Nat.pow_succ _ _
          omega
        have haddr : uadd i.ws addr (umul i.ws k i.ws) = (base + (k + 0) * i.ws) % 2 ^ (8 * i.ws) := by
          rw [uadd_eq, umul_eq, ha]; unfold umax
          rw [← Nat.add_mod, Nat.add_zero]
        rw [haddr, ih (k + 1) (e >>> 1) f _ he' (by omega)]
        have hrange : (List.range (n + 1)).filter (fun j => e.testBit (j + 1)) =
            (if e.testBit 1 then [0] else []) ++ ((List.range n).filter fun j => (e >>> 1).testBit (j + 1)).map (· + 1) := by
          rw [List.range_succ_eq_map, List.filter_cons, List.filter_map]
          have hf : ((fun j => e.testBit (j + 1)) ∘ Nat.succ) = fun j => (e >>> 1).testBit (j + 1) := by
            funext j; simp only [Function.comp]; rw [testBit_shift]
          rw [hf]
          split <;> rfl
        have hbit : (e >>> 1 &&& 1 ≠ 0) ↔ e.testBit 1 = true := by
          rw [Nat.and_one_is_mod]
          rw [← testBit_shift e 0, Nat.testBit_zero, decide_eq_true_eq]
          omega
        rw [hrange, List.map_append, List.map_append, runOps_append]
        congr 2
        · by_cases hb : e.testBit 1 = true
          · rw [if_pos (hbit.mpr hb), if_pos hb]
            exact runOp_word rfl
          · rw [if_neg (fun h => hb (hbit.mp h)), if_neg hb]; rfl
        · simp only [List.map_map]
          apply List.map_congr_left
          intro j _
          simp only [Function.comp]
          congr 2
          rw [show k + 1 + j = k + (j + 1) by omega]

theorem relrLoop_ok {i : Image} (hws : 0 < i.ws) (b : Nat) : ∀ (l : List Nat) (p fuel base addr : Nat) (s : State),
    RelrAt i s.mem p l → addr = base % 2 ^ (8 * i.ws) → l.length < fuel → 8 * i.ws < fuel - l.length →
    (∀ o ∈ (relrWords i.ws b base l).map (wordOp i.ws b), Apart o.addr i.ws p (l.length * i.ws)) →
    relrLoop i b (p + l.length * i.ws) fuel p addr s = some (runOps i s ((relrWords i.ws b base l).map (wordOp i.ws b))) := by
  intro l
  induction l with
  | nil =>
    intro p fuel base addr s _ _ hf _ _
    cases fuel with
    | zero => cases hf
    | succ f => simp [relrLoop, relrWords, runOps]
  | cons e es ih =>
    intro p fuel base addr s hrows haddr hf hf2 hap
    obtain ⟨e1, hrest⟩ := hrows
    have hrest : Rows i s.mem (p + i.ws) (es.map fun r => [r]) := hrest
    cases fuel with
    | zero => cases hf
    | succ f =>
      simp only [List.length_cons] at hf hf2 hap ⊢
      have hmul : (es.length + 1) * i.ws = i.ws + es.length * i.ws := by rw [Nat.add_mul]; omega
      rw [hmul] at hap ⊢
      have hne : p ≠ p + (i.ws + es.length * i.ws) := by omega
      have hlt : e < 2 ^ (8 * i.ws) := by rw [← e1]; exact ld_lt i s.mem p
      rw [relrLoop, if_neg hne]
      simp only [e1]
      rw [← Nat.add_assoc p]
      have tailrows : ∀ os : List Op, (∀ o ∈ os, Apart o.addr i.ws p (i.ws + es.length * i.ws)) →
          RelrAt i (runOps i s os).mem (p + i.ws) es := by
        intro os hos
        refine Rows.frame hrest (fun x h1 h2 => runOps_range hos x (by omega) ?_)
        rw [rowsLen_map _ 1 (by simp), Nat.mul_one] at h2; omega
      have tailap : ∀ os : List Op, (∀ o ∈ os, Apart o.addr i.ws p (i.ws + es.length * i.ws)) →
          ∀ o ∈ os, Apart o.addr i.ws (p + i.ws) (es.length * i.ws) := by
        intro os hos o ho
        have := hos o ho
        unfold Apart at this ⊢; omega
      by_cases hev : e % 2 = 0
      · rw [if_pos (by rw [Nat.and_one_is_mod]; exact hev)]
        have hw : relrWords i.ws b base (e :: es) = (b + e) :: relrWords i.ws b (b + e + i.ws) es := by
          rw [relrWords, if_pos hev]
        rw [hw] at hap ⊢
        rw [runOp_word (a := b + e) (by rw [uadd_eq]; rfl)]
        rw [List.map_cons] at hap
        have h1 := hap _ List.mem_cons_self
        have h2 := fun o ho => hap o (List.mem_cons_of_mem _ ho)
        rw [ih (p + i.ws) f (b + e + i.ws) _ (runOp i s (wordOp i.ws b (b + e))) ?_ ?_ (by omega) (by omega) (tailap _ h2)]
        · rfl
        · exact tailrows [wordOp i.ws b (b + e)] (by simpa using h1)
        · rw [uadd_eq, uadd_eq]; unfold umax; rw [Nat.mod_add_mod]
      · rw [if_neg (by rw [Nat.and_one_is_mod]; exact hev)]
        have hw : relrWords i.ws b base (e :: es) =
            ((List.range (8 * i.ws - 1)).filter fun k => e.testBit (k + 1)).map (fun k => base + k * i.ws)
            ++ relrWords i.ws b (base + (8 * i.ws - 1) * i.ws) es := by
          rw [relrWords, if_neg hev]
        rw [hw] at hap ⊢
        rw [List.map_append] at hap ⊢
        rw [relrBits_ok b base addr haddr (8 * i.ws - 1) 0 e (f + 1) s
          (by rw [show 8 * i.ws - 1 + 1 = 8 * i.ws by omega]; exact hlt) (by omega)]
        simp only [Nat.zero_add, Option.bind_some]
        have h1 := fun o ho => hap o (List.mem_append_left _ ho)
        have h2 := fun o ho => hap o (List.mem_append_right _ ho)
        rw [ih (p + i.ws) f (base + (8 * i.ws - 1) * i.ws) _ _ (tailrows _ h1) ?_ (by omega) (by omega) (tailap _ h2), runOps_append]
        rw [uadd_eq, haddr]; unfold umax
        rw [Nat.mod_add_mod, Nat.mul_comm i.ws 8]

/-! ## key-value lists -/

/-- `lastVal` with a default. -/
def lastOr (d k : Nat) (l : List (Nat × Nat)) : Nat := ((l.filter fun x => x.1 = k).getLast?.map Prod.snd).getD d

theorem lastOr_cons (d k : Nat) (x : Nat × Nat) (l : List (Nat × Nat)) :
    lastOr d k (x :: l) = lastOr (if x.1 = k then x.2 else d) k l := by
  unfold lastOr
  rw [List.filter_cons]
  by_cases h : x.1 = k
  · simp only [h, decide_true, if_true, List.getLast?_cons]
    cases (l.filter fun y => decide (y.1 = k)).getLast? <;> simp
  · simp [h]

theorem auxLoop_ok {i : Image} {m : Mem} : ∀ (l : List (Nat × Nat)) (p fuel : Nat) (a : Aux), AuxAt i m p l → l.length < fuel →
    auxLoop i m fuel p a = some ⟨lastOr a.base AT_BASE (l.map fun x => (x.1 % 2 ^ 32, x.2)),
      lastOr a.page AT_PAGESZ (l.map fun x => (x.1 % 2 ^ 32, x.2)), lastOr a.entry AT_ENTRY (l.map fun x => (x.1 % 2 ^ 32, x.2))⟩ := by
  intro l
  induction l with
  | nil =>
    intro p fuel a h hf
    cases fuel with
    | zero => cases hf
    | succ f =>
      have h0 : i.ld m p = 0 := h.2.1
      simp [auxLoop, h0, AT_BASE, AT_PAGESZ, AT_ENTRY, AT_NULL, lastOr]
  | cons x l ih =>
    intro p fuel a h hf
    obtain ⟨hn, e1, e2, hrest⟩ := h
    cases fuel with
    | zero => cases hf
    | succ f =>
      have hrest : Rows i m (p + 2 * i.ws) (l.map (fun x => [x.1, x.2]) ++ [[AT_NULL]]) := by
        rw [show p + i.ws + i.ws = p + 2 * i.ws by omega] at hrest; exact hrest
      have ih := fun a => ih (p + 2 * i.ws) f a ⟨fun y hy => hn y (List.mem_cons_of_mem _ hy), hrest⟩ (by simpa using hf)
      have hx : ¬ x.1 % 2 ^ 32 = AT_NULL := hn x List.mem_cons_self
      rw [auxLoop]
      simp only [e1, e2, List.map_cons, lastOr_cons]
      by_cases h1 : x.1 % 2 ^ 32 = AT_BASE
      · rw [if_pos h1, ih]; simp [h1, AT_BASE, AT_PAGESZ, AT_ENTRY]
      rw [if_neg h1]
      by_cases h2 : x.1 % 2 ^ 32 = AT_PAGESZ
      · rw [if_pos h2, ih]; simp [h2, AT_BASE, AT_PAGESZ, AT_ENTRY]
      rw [if_neg h2]
      by_cases h3 : x.1 % 2 ^ 32 = AT_ENTRY
      · rw [if_pos h3, ih]; simp [h3, AT_BASE, AT_PAGESZ, AT_ENTRY]
      rw [if_neg h3, if_neg hx, ih]; simp only [if_neg h1, if_neg h2, if_neg h3]

theorem dynLoop_ok {i : Image} {m : Mem} {b : Nat} : ∀ (l : List (Nat × Nat)) (p fuel : Nat) (t : Tabs), DynAt i m p l → l.length < fuel →
    ∃ t', dynLoop i m b fuel p t = some t' ∧
      t'.relaSz = lastOr t.relaSz DT_RELASZ l ∧ t'.relSz = lastOr t.relSz DT_RELSZ l ∧ t'.relrSz = lastOr t.relrSz DT_RELRSZ l ∧
      t'.rela = lastOr t.rela DT_RELA (l.map fun x => (x.1, uadd i.ws b x.2)) ∧
      t'.rel = lastOr t.rel DT_REL (l.map fun x => (x.1, uadd i.ws b x.2)) ∧
      t'.relr = lastOr t.relr DT_RELR (l.map fun x => (x.1, uadd i.ws b x.2)) := by
  intro l
  induction l with
  | nil =>
    intro p fuel a h hf
    cases fuel with
    | zero => cases hf
    | succ f =>
      have h0 : i.ld m p = 0 := h.2.1
      refine ⟨a, ?_, by simp [lastOr]⟩
      simp [dynLoop, h0, DT_RELA, DT_RELASZ, DT_REL, DT_RELSZ, DT_RELR, DT_RELRSZ, DT_NULL]
  | cons x l ih =>
    intro p fuel a h hf
    obtain ⟨hn, e1, e2, hrest⟩ := h
    cases fuel with
    | zero => cases hf
    | succ f =>
      have hrest : Rows i m (p + 2 * i.ws) (l.map (fun x => [x.1, x.2]) ++ [[DT_NULL]]) := by
        rw [show p + i.ws + i.ws = p + 2 * i.ws by omega] at hrest; exact hrest
      have ih := fun a => ih (p + 2 * i.ws) f a ⟨fun y hy => hn y (List.mem_cons_of_mem _ hy), hrest⟩ (by simpa using hf)
      have hx : ¬ x.1 = DT_NULL := hn x List.mem_cons_self
      rw [dynLoop]
      simp only [e1, e2, List.map_cons, lastOr_cons]
      by_cases h0 : x.1 = DT_RELA
      · rw [if_pos h0]; obtain ⟨t', q⟩ := ih { a with rela := uadd i.ws b x.2 }; exact ⟨t', by simpa [h0, DT_RELA, DT_RELASZ, DT_REL, DT_RELSZ, DT_RELR, DT_RELRSZ] using q⟩
      rw [if_neg h0]
      by_cases h1 : x.1 = DT_RELASZ
      · rw [if_pos h1]; obtain ⟨t', q⟩ := ih { a with relaSz := x.2 }; exact ⟨t', by simpa [h1, DT_RELA, DT_RELASZ, DT_REL, DT_RELSZ, DT_RELR, DT_RELRSZ] using q⟩
      rw [if_neg h1]
      by_cases h2 : x.1 = DT_REL
      · rw [if_pos h2]; obtain ⟨t', q⟩ := ih { a with rel := uadd i.ws b x.2 }; exact ⟨t', by simpa [h2, DT_RELA, DT_RELASZ, DT_REL, DT_RELSZ, DT_RELR, DT_RELRSZ] using q⟩
      rw [if_neg h2]
      by_cases h3 : x.1 = DT_RELSZ
      · rw [if_pos h3]; obtain ⟨t', q⟩ := ih { a with relSz := x.2 }; exact ⟨t', by simpa [h3, DT_RELA, DT_RELASZ, DT_REL, DT_RELSZ, DT_RELR, DT_RELRSZ] using q⟩
      rw [if_neg h3]
      by_cases h4 : x.1 = DT_RELR
      · rw [if_pos h4]; obtain ⟨t', q⟩ := ih { a with relr := uadd i.ws b x.2 }; exact ⟨t', by simpa [h4, DT_RELA, DT_RELASZ, DT_REL, DT_RELSZ, DT_RELR, DT_RELRSZ] using q⟩
      rw [if_neg h4]
      by_cases h5 : x.1 = DT_RELRSZ
      · rw [if_pos h5]; obtain ⟨t', q⟩ := ih { a with relrSz := x.2 }; exact ⟨t', by simpa [h5, DT_RELA, DT_RELASZ, DT_REL, DT_RELSZ, DT_RELR, DT_RELRSZ] using q⟩
      rw [if_neg h5]
      rw [if_neg hx]; obtain ⟨t', q⟩ := ih a
      exact ⟨t', by simpa only [if_neg h0, if_neg h1, if_neg h2, if_neg h3, if_neg h4, if_neg h5] using q⟩

/-- The same with the gABI's numbers. -/
theorem dynLoop_gabi {i : Image} {m : Mem} {b : Nat} (l : List (Nat × Nat)) (p fuel : Nat) (t : Tabs) (h : DynAt i m p l) (hf : l.length < fuel) :
    ∃ t', dynLoop i m b fuel p t = some t' ∧
      t'.relaSz = lastOr t.relaSz Gabi.DT_RELASZ l ∧ t'.relSz = lastOr t.relSz Gabi.DT_RELSZ l ∧ t'.relrSz = lastOr t.relrSz Gabi.DT_RELRSZ l ∧
      t'.rela = lastOr t.rela Gabi.DT_RELA (l.map fun x => (x.1, uadd i.ws b x.2)) ∧
      t'.rel = lastOr t.rel Gabi.DT_REL (l.map fun x => (x.1, uadd i.ws b x.2)) ∧
      t'.relr = lastOr t.relr Gabi.DT_RELR (l.map fun x => (x.1, uadd i.ws b x.2)) := dynLoop_ok l p fuel t h hf

/-- The model decodes the relocation type as the gABI does. -/
theorem relType_eq (ws info : Nat) : relType ws info = Gabi.R_TYPE ws info := by
  unfold relType Gabi.R_TYPE; split <;> rfl

/-- Where the loop finds a table that the dynamic section lists. -/
theorem lastOr_addr (ws b k : Nat) (l : List (Nat × Nat)) :
    lastOr 0 k (l.map fun x => (x.1, uadd ws b x.2)) = dyna ws b (lastVal k l) ∨
      (lastOr 0 k (l.map fun x => (x.1, uadd ws b x.2)) = 0 ∧ ∀ x ∈ l, x.1 ≠ k) := by
  unfold lastOr lastVal
  rw [List.filter_map]
  have : ((fun x : Nat × Nat => decide (x.1 = k)) ∘ fun x : Nat × Nat => (x.1, uadd ws b x.2)) = fun x : Nat × Nat => decide (x.1 = k) := rfl
  rw [this, List.getLast?_map]
  cases h : (l.filter fun x => decide (x.1 = k)).getLast? with
  | none =>
    right
    rw [List.getLast?_eq_none_iff, List.filter_eq_nil_iff] at h
    exact ⟨rfl, fun x hx hk => h x hx (by simp [hk])⟩
  | some x => left; simp [uadd_eq, dyna, umax]

/-! ## program headers -/

theorem readPhdr_congr {i : Image} (hi : i.ws = 4 ∨ i.ws = 8) {m m' : Mem} {a : Nat}
    (h : ∀ x, a ≤ x → x < a + phdrSize i.ws → m' x = m x) : readPhdr i m' a = readPhdr i m a := by
  have key : ∀ n k, k + n ≤ phdrSize i.ws → ldN i.endian n m' (a + k) = ldN i.endian n m (a + k) := by
    intro n k hk
    apply ldN_congr
    intro j hj
    exact h _ (by omega) (by omega)
  have k0 := key 4 0
  unfold readPhdr
  unfold Image.ld
  rcases hi with hi | hi
  · rw [hi] at key k0 ⊢
    simp [phdrSize, Gabi.size, Gabi.phdrFields] at key k0 ⊢
    exact ⟨k0, key 4 8 (by omega), key 4 16 (by omega), key 4 20 (by omega), key 4 28 (by omega)⟩
  · rw [hi] at key k0 ⊢
    simp [phdrSize, Gabi.size, Gabi.phdrFields] at key k0 ⊢
    exact ⟨k0, key 8 16 (by omega), key 8 32 (by omega), key 8 40 (by omega), key 8 48 (by omega)⟩

theorem ePhoff_eq (i : Image) (m : Mem) : ePhoff i m = ehdrField i m .e_phoff := by
  unfold ePhoff ehdrField Gabi.get Image.ld
  congr 1
  · simp [Gabi.offset, Gabi.ehdrFields, Gabi.size]; omega

theorem eEntry_eq (i : Image) (m : Mem) : eEntry i m = ehdrField i m .e_entry := by
  unfold eEntry ehdrField Gabi.get Image.ld
  rfl

theorem ePhentsize_eq (i : Image) (m : Mem) : ePhentsize i m = ehdrField i m .e_phentsize := by
  unfold ePhentsize ehdrField Gabi.get
  congr 1
  · simp [Gabi.offset, Gabi.ehdrFields, Gabi.size]; omega

theorem ePhnum_eq (i : Image) (m : Mem) : ePhnum i m = ehdrField i m .e_phnum := by
  unfold ePhnum ehdrField Gabi.get
  congr 1
  · simp [Gabi.offset, Gabi.ehdrFields, Gabi.size]; omega

/-- The structure's fields are where the model reads them. -/
theorem phdrAt_iff {i : Image} (hi : i.ws = 4 ∨ i.ws = 8) {m : Mem} {a : Nat} {h : Phdr} : PhdrAt i m a h ↔ readPhdr i m a = h := by
  cases h
  constructor
  · rintro ⟨h1, h2, h3, h4, h5⟩
    rcases hi with hi | hi <;> simp only [hi] at h1 h2 h3 h4 h5 <;> unfold readPhdr Image.ld <;> simp only [hi] <;>
      exact congr (congr (congr (congr (congrArg Phdr.mk h1) h2) h3) h4) h5
  · intro e
    rcases hi with hi | hi <;> unfold readPhdr Image.ld at e <;> simp only [hi] at e <;> injection e with h1 h2 h3 h4 h5 <;>
      constructor <;> rw [hi] <;> assumption

theorem PhdrsAt.frame {i : Image} (hi : i.ws = 4 ∨ i.ws = 8) {m m' : Mem} {phent : Nat} (hp : phdrSize i.ws ≤ phent) :
    ∀ {hs : List Phdr} {a : Nat}, PhdrsAt i m phent a hs →
    (∀ x, a ≤ x → x < a + hs.length * phent → m' x = m x) → PhdrsAt i m' phent a hs := by
  intro hs
  induction hs with
  | nil => intro a _ _; trivial
  | cons h hs ih =>
    intro a ⟨h1, h2⟩ hm
    rw [List.length_cons, Nat.add_mul] at hm
    refine ⟨?_, ih h2 (fun x h3 h4 => hm x (by omega) (by omega))⟩
    rw [phdrAt_iff hi] at h1 ⊢
    rw [← h1]
    exact readPhdr_congr hi (fun x h3 h4 => hm x h3 (by omega))

theorem relroLoop_ok {i : Image} (hi : i.ws = 4 ∨ i.ws = 8) {m : Mem} {phent : Nat} (hp : 0 < phent) : ∀ (hs : List Phdr) (p fuel : Nat) (r : Nat × Nat),
    PhdrsAt i m phent p hs → p + hs.length * phent < umax i.ws → hs.length < fuel →
    relroLoop i m phent (p + hs.length * phent) fuel p r =
      some (((hs.filter fun h => h.type = PT_GNU_RELRO).getLast?.map fun h => (h.vaddr, h.memsz)).getD r) := by
  intro hs
  induction hs with
  | nil =>
    intro p fuel r _ _ hf
    cases fuel with
    | zero => cases hf
    | succ f => simp [relroLoop]
  | cons h hs ih =>
    intro p fuel r hrows hlt hf
    obtain ⟨e1, hrest⟩ := hrows
    rw [phdrAt_iff hi] at e1
    cases fuel with
    | zero => cases hf
    | succ f =>
      have hmul : (h :: hs).length * phent = phent + hs.length * phent := by rw [List.length_cons, Nat.add_mul]; omega
      rw [hmul] at hlt ⊢
      rw [relroLoop, if_neg (by omega), e1, uadd_of_lt (by omega), ← Nat.add_assoc, ih _ f _ hrest (by omega) (by simpa using hf)]
      rw [List.filter_cons]
      by_cases ht : h.type = PT_GNU_RELRO
      · simp only [ht, decide_true, if_true, List.getLast?_cons]
        cases (hs.filter fun y => decide (y.type = PT_GNU_RELRO)).getLast? <;> simp
      · simp [ht]

theorem phdrLoop_ok {i : Image} (hi : i.ws = 4 ∨ i.ws = 8) {m : Mem} {first phent : Nat} (hp : 0 < phent) : ∀ (hs : List Phdr) (p fuel : Nat) (x : Scan),
    PhdrsAt i m phent p hs → p + hs.length * phent < umax i.ws → hs.length < fuel →
    phdrLoop i m first phent (p + hs.length * phent) fuel p x = some (hs.foldl (scanPhdr i.ws first i.dyn) x) := by
  intro hs
  induction hs with
  | nil =>
    intro p fuel r _ _ hf
    cases fuel with
    | zero => cases hf
    | succ f => simp [phdrLoop]
  | cons h hs ih =>
    intro p fuel r hrows hlt hf
    obtain ⟨e1, hrest⟩ := hrows
    rw [phdrAt_iff hi] at e1
    cases fuel with
    | zero => cases hf
    | succ f =>
      have hmul : (h :: hs).length * phent = phent + hs.length * phent := by rw [List.length_cons, Nat.add_mul]; omega
      rw [hmul] at hlt ⊢
      rw [phdrLoop, if_neg (by omega), e1, uadd_of_lt (by omega), ← Nat.add_assoc, ih _ f _ hrest (by omega) (by simpa using hf)]
      rfl

end Origin.Elf
