import Verif.Model.RelocateDebug
import Verif.Proof.Relocate3
/-! # The debug build of `relocate` refines the release build, and does not panic -/

namespace Origin.Elf

/-- A checked computation `d` panics, or does what the unchecked one, `r`, does. -/
def Ref {α : Type} (d : Option (Dbg α)) (r : Option α) : Prop := d = some .panic ∨ d = r.map .ok

theorem Ref.none {α : Type} : Ref (α := α) none none := Or.inr rfl
theorem Ref.ok {α : Type} (a : α) : Ref (some (.ok a)) (some a) := Or.inr rfl

theorem Ref.assert {α : Type} {b : Bool} {d : Option (Dbg α)} {r : Option α} (h : Ref d r) : Ref (assertD b d) r := by
  unfold assertD
  cases b with
  | false => exact Or.inl rfl
  | true => exact h

theorem Ref.cadd {α : Type} {ws x y : Nat} {f : Nat → Option (Dbg α)} {r : Option α} (h : Ref (f (uadd ws x y)) r) : Ref (caddD ws x y f) r := by
  unfold caddD
  by_cases c : x + y < umax ws
  · rw [if_pos c, ← uadd_of_lt c]; exact h
  · rw [if_neg c]; exact Or.inl rfl

theorem Ref.bind {α β : Type} {d : Option (Dbg α)} {r : Option α} {f : α → Option (Dbg β)} {g : α → Option β} (h : Ref d r) (hf : ∀ a, Ref (f a) (g a)) :
    Ref (andD d f) (r >>= g) := by
  rcases h with rfl | rfl
  · exact Or.inl rfl
  · cases r with
    | none => exact Or.inr rfl
    | some a => exact hf a

theorem Ref.ite {α : Type} {c : Prop} [Decidable c] {d d' : Option (Dbg α)} {r r' : Option α} (h1 : c → Ref d r) (h2 : ¬ c → Ref d' r') :
    Ref (if c then d else d') (if c then r else r') := by
  by_cases hc : c
  · rw [if_pos hc, if_pos hc]; exact h1 hc
  · rw [if_neg hc, if_neg hc]; exact h2 hc

theorem dynLoopD_ref {i : Image} {m : Mem} {base : Nat} : ∀ (fuel p : Nat) (t : Tabs), Ref (dynLoopD i m base fuel p t) (dynLoop i m base fuel p t) := by
  intro fuel
  induction fuel with
  | zero => intro p t; exact Ref.none
  | succ f ih =>
    intro p t
    rw [dynLoopD, dynLoop]
    have n1 : ∀ x, x = DT_RELAENT ∨ x = DT_RELENT ∨ x = DT_RELRENT →
        x ≠ DT_RELA ∧ x ≠ DT_RELASZ ∧ x ≠ DT_REL ∧ x ≠ DT_RELSZ ∧ x ≠ DT_RELR ∧ x ≠ DT_RELRSZ ∧ x ≠ DT_NULL := by
      rintro x (rfl | rfl | rfl) <;> decide
    generalize i.ld m p = tag
    generalize i.ld m (p + i.ws) = val
    by_cases c3 : tag = DT_RELAENT
    · obtain ⟨h1, h2, -⟩ := n1 tag (Or.inl c3)
      rw [if_neg h1, if_neg h2, if_pos c3]
      rw [if_neg h1, if_neg h2, if_neg (n1 tag (Or.inl c3)).2.2.1, if_neg (n1 tag (Or.inl c3)).2.2.2.1, if_neg (n1 tag (Or.inl c3)).2.2.2.2.1,
        if_neg (n1 tag (Or.inl c3)).2.2.2.2.2.1, if_neg (n1 tag (Or.inl c3)).2.2.2.2.2.2]
      exact Ref.assert (ih _ _)
    by_cases c6 : tag = DT_RELENT
    · obtain ⟨h1, h2, h3, h4, h5, h6, h7⟩ := n1 tag (Or.inr (Or.inl c6))
      rw [if_neg h1, if_neg h2, if_neg c3, if_neg h3, if_neg h4, if_pos c6]
      rw [if_neg h1, if_neg h2, if_neg h3, if_neg h4, if_neg h5, if_neg h6, if_neg h7]
      exact Ref.assert (ih _ _)
    by_cases c9 : tag = DT_RELRENT
    · obtain ⟨h1, h2, h3, h4, h5, h6, h7⟩ := n1 tag (Or.inr (Or.inr c9))
      rw [if_neg h1, if_neg h2, if_neg c3, if_neg h3, if_neg h4, if_neg c6, if_neg h5, if_neg h6, if_pos c9]
      rw [if_neg h1, if_neg h2, if_neg h3, if_neg h4, if_neg h5, if_neg h6, if_neg h7]
      exact Ref.assert (ih _ _)
    rw [if_neg c3, if_neg c6, if_neg c9]
    exact Ref.ite (fun _ => ih _ _) fun _ => Ref.ite (fun _ => ih _ _) fun _ => Ref.ite (fun _ => ih _ _) fun _ => Ref.ite (fun _ => ih _ _) fun _ =>
      Ref.ite (fun _ => ih _ _) fun _ => Ref.ite (fun _ => ih _ _) fun _ => Ref.ite (fun _ => Ref.ok _) fun _ => ih _ _

theorem relrBitsD_ref {i : Image} {b addr : Nat} : ∀ (fuel k e : Nat) (s : State), Ref (relrBitsD i b addr fuel k e s) (relrBits i b addr fuel k e s) := by
  intro fuel
  induction fuel with
  | zero => intro k e s; exact Ref.none
  | succ f ih =>
    intro k e s
    rw [relrBitsD, relrBits]
    refine Ref.ite (fun _ => Ref.ok _) fun _ => ?_
    dsimp only
    by_cases c : e >>> 1 &&& 1 ≠ 0
    · rw [if_pos c, if_pos c]; exact Ref.cadd (ih _ _ _)
    · rw [if_neg c, if_neg c]; exact ih _ _ _

theorem relrLoopD_ref {i : Image} {b stop : Nat} : ∀ (fuel p addr : Nat) (s : State), Ref (relrLoopD i b stop fuel p addr s) (relrLoop i b stop fuel p addr s) := by
  intro fuel
  induction fuel with
  | zero => intro p addr s; exact Ref.none
  | succ f ih =>
    intro p addr s
    rw [relrLoopD, relrLoop]
    refine Ref.ite (fun _ => Ref.ok _) fun _ => Ref.ite (fun _ => Ref.cadd (Ref.cadd (ih _ _ _))) fun _ =>
      Ref.bind (relrBitsD_ref _ _ _ _) fun a => Ref.cadd (ih _ _ _)

theorem relroLoopD_ref {i : Image} {m : Mem} {b phent stop : Nat} : ∀ (fuel p : Nat) (r : Nat × Nat),
    Ref (relroLoopD i m b phent stop fuel p r) (relroLoop i m phent stop fuel p r) := by
  intro fuel
  induction fuel with
  | zero => intro p r; exact Ref.none
  | succ f ih =>
    intro p r
    rw [relroLoopD, relroLoop]
    refine Ref.ite (fun _ => Ref.ok _) fun _ => ?_
    dsimp only
    by_cases c2 : (readPhdr i m p).type = PT_DYNAMIC
    · rw [if_pos c2, if_neg (c := _ = PT_GNU_RELRO) (by rw [c2]; decide)]
      exact Ref.assert (ih _ _)
    · rw [if_neg c2]; exact ih _ _

theorem Ref.trap {o : Option Out} {f : State → Option (Dbg Out)} {g : State → Option Out} (h : ∀ s, Ref (f s) (g s)) :
    Ref (trapD o f) (o >>= fun x => x.andThen g) := by
  cases o with
  | none => exact Ref.none
  | some x =>
    cases x with
    | trap s => exact Ref.ok _
    | done s => exact h s

theorem relocateWithD_ref (i : Image) (ok : Nat → Nat → Bool) (fuel : Nat) (a : Aux) (b : Nat) (s : State) :
    Ref (relocateWithD i ok fuel a b s) (relocateWith i ok fuel a b s) := by
  unfold relocateWithD relocateWith
  refine Ref.bind (dynLoopD_ref _ _ _) fun t => Ref.trap fun s => Ref.trap fun s => Ref.bind (relrLoopD_ref _ _ _ _) fun s =>
    Ref.assert (Ref.assert (Ref.assert (Ref.bind (relroLoopD_ref _ _ _) fun r => Ref.ok _)))

theorem relocateD_ref (i : Image) (ok : Nat → Nat → Bool) (fuel : Nat) (m : Mem) (envp : Nat) :
    Ref (relocateD i ok fuel m envp) (relocate i ok fuel m envp) := by
  unfold relocateD relocate
  cases h1 : Boot.computeAuxp i.ws (fun a => wordAt i.endian i.ws m a) fuel envp with
  | none => exact Ref.none
  | some p =>
    simp only [Option.bind_eq_bind, Option.bind_some]
    cases h2 : auxLoop i m fuel p { base := 0, page := 0, entry := 0 } with
    | none => exact Ref.none
    | some a =>
      simp only [Option.bind_some]
      cases h3 : decision i m a with
      | none => exact Ref.ok _
      | some b => exact relocateWithD_ref _ _ _ _ _ _

theorem Ref.of_ok {α : Type} {d : Option (Dbg α)} {r : Option α} {a : α} (h : Ref d r) (hd : d = some (.ok a)) : r = some a := by
  rcases h with rfl | rfl
  · cases hd
  · cases r with
    | none => cases hd
    | some b => cases hd; rfl

/-! ## no panic -/

theorem ite_np {α : Type} {c : Prop} [Decidable c] {x y : Option (Dbg α)} (h1 : c → x ≠ some .panic) (h2 : ¬ c → y ≠ some .panic) :
    (if c then x else y) ≠ some .panic := by
  by_cases hc : c
  · rw [if_pos hc]; exact h1 hc
  · rw [if_neg hc]; exact h2 hc

theorem assertD_np {α : Type} {b : Bool} {x : Option (Dbg α)} (h1 : b = true) (h2 : x ≠ some .panic) : assertD b x ≠ some .panic := by
  unfold assertD; rw [if_pos h1]; exact h2

theorem caddD_np {α : Type} {ws x y : Nat} {f : Nat → Option (Dbg α)} (h1 : x + y < 2 ^ (8 * ws)) (h2 : f (x + y) ≠ some .panic) :
    caddD ws x y f ≠ some .panic := by
  have h1 : x + y < umax ws := h1
  unfold caddD; rw [if_pos h1]; exact h2

theorem andD_np {α β : Type} {x : Option (Dbg α)} {f : α → Option (Dbg β)} (h1 : x ≠ some .panic)
    (h2 : ∀ a, x = some (.ok a) → f a ≠ some .panic) : andD x f ≠ some .panic := by
  cases x with
  | none => intro h; cases h
  | some x =>
    cases x with
    | panic => exact absurd rfl h1
    | ok a => exact h2 a rfl

theorem trapD_np {o : Option Out} {f : State → Option (Dbg Out)} (h : ∀ s, o = some (.done s) → f s ≠ some .panic) :
    trapD o f ≠ some .panic := by
  cases o with
  | none => intro h; cases h
  | some x =>
    cases x with
    | trap s => intro h; cases h
    | done s => exact h s rfl

theorem dynLoopD_run {i : Image} {m : Mem} {b : Nat} : ∀ (l : List (Nat × Nat)) (p fuel : Nat) (t : Tabs), DynAt i m p l →
    (∀ x ∈ l, x.1 = DT_RELAENT → x.2 = 3 * i.ws) → (∀ x ∈ l, x.1 = DT_RELENT → x.2 = 2 * i.ws) →
    (∀ x ∈ l, x.1 = DT_RELRENT → x.2 = i.ws) → dynLoopD i m b fuel p t ≠ some .panic := by
  intro l
  induction l with
  | nil =>
    intro p fuel t h _ _ _
    cases fuel with
    | zero => intro h; cases h
    | succ f =>
      have h0 : i.ld m p = 0 := h.2.1
      simp [dynLoopD, h0, DT_RELA, DT_RELASZ, DT_REL, DT_RELSZ, DT_RELR, DT_RELRSZ, DT_NULL, DT_RELAENT, DT_RELENT, DT_RELRENT]
  | cons x l ih =>
    intro p fuel t h k1 k2 k3
    obtain ⟨hn, e1, e2, hrest⟩ := h
    cases fuel with
    | zero => intro h; cases h
    | succ f =>
      have hrest : Rows i m (p + 2 * i.ws) (l.map (fun x => [x.1, x.2]) ++ [[DT_NULL]]) := by
        rw [show p + i.ws + i.ws = p + 2 * i.ws by omega] at hrest; exact hrest
      have ih := fun t => ih (p + 2 * i.ws) f t ⟨fun y hy => hn y (List.mem_cons_of_mem _ hy), hrest⟩
        (fun y hy => k1 y (List.mem_cons_of_mem _ hy)) (fun y hy => k2 y (List.mem_cons_of_mem _ hy)) (fun y hy => k3 y (List.mem_cons_of_mem _ hy))
      have k1 := k1 x List.mem_cons_self
      have k2 := k2 x List.mem_cons_self
      have k3 := k3 x List.mem_cons_self
      rw [dynLoopD, e1, e2]
      refine ite_np (fun _ => ih _) fun _ => ite_np (fun _ => ih _) fun _ => ite_np (fun c => assertD_np (decide_eq_true (k1 c)) (ih _)) fun _ =>
        ite_np (fun _ => ih _) fun _ => ite_np (fun _ => ih _) fun _ => ite_np (fun c => assertD_np (decide_eq_true (k2 c)) (ih _)) fun _ =>
        ite_np (fun _ => ih _) fun _ => ite_np (fun _ => ih _) fun _ => ite_np (fun c => assertD_np (decide_eq_true (k3 c)) (ih _)) fun _ =>
        ite_np (fun _ h => by cases h) fun _ => ih _

theorem relrBitsD_run {i : Image} (b addr n : Nat) (ha : addr + n * i.ws < 2 ^ (8 * i.ws)) :
    ∀ (fuel k e : Nat) (s : State), k ≤ n → e < 2 ^ (n - k + 1) → relrBitsD i b addr fuel k e s ≠ some .panic := by
  intro fuel
  induction fuel with
  | zero => intro k e s _ _ h; cases h
  | succ f ih =>
    intro k e s hk he
    rw [relrBitsD]
    try simp only
    split
    · intro h; cases h
    · rename_i c
      have hkn : k < n := by
        apply Nat.lt_of_not_le
        intro hc
        rw [show n - k + 1 = 1 by omega] at he
        apply c
        rw [Nat.shiftRight_eq_div_pow]; omega
      have he' : e >>> 1 < 2 ^ (n - (k + 1) + 1) := by
        rw [Nat.shiftRight_eq_div_pow, Nat.div_lt_iff_lt_mul (by decide)]
        have : 2 ^ (n - k + 1) = 2 ^ (n - (k + 1) + 1) * 2 := by rw [← Nat.pow_succ]; congr 1; omega
        omega
      have hm : k * i.ws ≤ n * i.ws := Nat.mul_le_mul_right _ hk
      split
      · unfold caddD
        have : umul i.ws k i.ws = k * i.ws := by rw [umul_eq, Nat.mod_eq_of_lt (by unfold umax; omega)]
        rw [this, if_pos (by unfold umax; omega)]
        exact ih _ _ _ (by omega) he'
      · exact ih _ _ _ (by omega) he'

theorem relrLoopD_run {i : Image} (hws : 0 < i.ws) (b : Nat) : ∀ (l : List Nat) (p fuel base : Nat) (s : State),
    RelrAt i s.mem p l → RelrInRange i.ws b base l →
    (∀ o ∈ (relrWords i.ws b base l).map (wordOp i.ws b), Apart o.addr i.ws p (l.length * i.ws)) → l.length + 8 * i.ws < fuel →
    base < 2 ^ (8 * i.ws) →
    relrLoopD i b (p + l.length * i.ws) fuel p base s ≠ some .panic := by
  intro l
  induction l with
  | nil =>
    intro p fuel base s _ _ _ _ _
    cases fuel with
    | zero => intro h; cases h
    | succ f => simp [relrLoopD]
  | cons e es ih =>
    intro p fuel base s hrows hr hap hf hbase
    obtain ⟨e1, hrest⟩ := hrows
    have hrest : Rows i s.mem (p + i.ws) (es.map fun r => [r]) := hrest
    cases fuel with
    | zero => intro h; cases h
    | succ f =>
      simp only [List.length_cons] at hf hap ⊢
      have hmul : (es.length + 1) * i.ws = i.ws + es.length * i.ws := by rw [Nat.add_mul]; omega
      rw [hmul] at hap ⊢
      have hne : p ≠ p + (i.ws + es.length * i.ws) := by omega
      have hlt : e < 2 ^ (8 * i.ws) := by rw [← e1]; exact ld_lt i s.mem p
      rw [relrLoopD, if_neg hne]
      simp only [e1]
      rw [← Nat.add_assoc p]
      have tailrows : ∀ os : List Op, (∀ o ∈ os, Apart o.addr i.ws p (i.ws + es.length * i.ws)) →
          RelrAt i (runOps i s os).mem (p + i.ws) es := by
        intro os hos
        refine Rows.frame hrest (fun x h1 h2 => runOps_range hos x (by omega) ?_)
        rw [rowsLen_map _ 1 (by simp), Nat.mul_one] at h2; omega
      have tailap : ∀ os : List Op, (∀ o ∈ os, Apart o.addr i.ws p (i.ws + es.length * i.ws)) →
          ∀ o ∈ os, Apart o.addr i.ws (p + i.ws) (es.length * i.ws) := by
        intro os hos o ho
        have := hos o ho
        unfold Apart at this ⊢; omega
      rw [RelrInRange] at hr
      by_cases hev : e % 2 = 0
      · rw [if_pos hev] at hr
        rw [if_pos (by rw [Nat.and_one_is_mod]; exact hev)]
        have hw : relrWords i.ws b base (e :: es) = (b + e) :: relrWords i.ws b (b + e + i.ws) es := by
          rw [relrWords, if_pos hev]
        rw [hw] at hap
        refine caddD_np (by omega) (caddD_np hr.1 ?_)
        rw [runOp_word (a := b + e) (by rw [Nat.mod_eq_of_lt (by omega)])]
        rw [List.map_cons] at hap
        have h1 := hap _ List.mem_cons_self
        have h2 := fun o ho => hap o (List.mem_cons_of_mem _ ho)
        exact ih (p + i.ws) f (b + e + i.ws) (runOp i s (wordOp i.ws b (b + e)))
          (tailrows [wordOp i.ws b (b + e)] (by simpa using h1)) hr.2 (tailap _ h2) (by omega) hr.1
      · rw [if_neg hev] at hr
        rw [if_neg (by rw [Nat.and_one_is_mod]; exact hev)]
        have hw : relrWords i.ws b base (e :: es) =
            ((List.range (8 * i.ws - 1)).filter fun k => e.testBit (k + 1)).map (fun k => base + k * i.ws)
            ++ relrWords i.ws b (base + (8 * i.ws - 1) * i.ws) es := by
          rw [relrWords, if_neg hev]
        rw [hw] at hap
        rw [List.map_append] at hap
        have h1 := fun o ho => hap o (List.mem_append_left _ ho)
        have h2 := fun o ho => hap o (List.mem_append_right _ ho)
        have hnp := relrBitsD_run (i := i) b base (8 * i.ws - 1) hr.1 (f + 1) 0 e s (by omega)
          (by rw [show 8 * i.ws - 1 - 0 + 1 = 8 * i.ws by omega]; exact hlt)
        cases hb : relrBitsD i b base (f + 1) 0 e s with
        | none => intro h; cases h
        | some x =>
          cases x with
          | panic => exact absurd hb hnp
          | ok s1 =>
            have hs1 := (relrBitsD_ref _ _ _ _).of_ok hb
            rw [relrBits_ok b base base (Nat.mod_eq_of_lt hbase).symm (8 * i.ws - 1) 0 e (f + 1) s
              (by rw [show 8 * i.ws - 1 + 1 = 8 * i.ws by omega]; exact hlt) (by omega)] at hs1
            simp only [Nat.zero_add] at hs1
            cases hs1
            rw [Nat.mul_comm i.ws 8]
            unfold andD
            dsimp only
            refine caddD_np hr.1 ?_
            exact ih (p + i.ws) f (base + (8 * i.ws - 1) * i.ws) _ (tailrows _ h1) hr.2 (tailap _ h2) (by omega) hr.1

theorem relroLoopD_run {i : Image} (hi : i.ws = 4 ∨ i.ws = 8) {m : Mem} {b phent : Nat} (hp : 0 < phent) : ∀ (hs : List Phdr) (p fuel : Nat) (r : Nat × Nat),
    PhdrsAt i m phent p hs → p + hs.length * phent < umax i.ws → (∀ h ∈ hs, h.type = PT_DYNAMIC → i.dyn = dyna i.ws b h.vaddr) →
    relroLoopD i m b phent (p + hs.length * phent) fuel p r ≠ some .panic := by
  intro hs
  induction hs with
  | nil =>
    intro p fuel r _ _ _
    cases fuel with
    | zero => intro h; cases h
    | succ f => simp [relroLoopD]
  | cons h hs ih =>
    intro p fuel r hrows hlt hd
    obtain ⟨e1, hrest⟩ := hrows
    rw [phdrAt_iff hi] at e1
    cases fuel with
    | zero => intro h; cases h
    | succ f =>
      have hmul : (h :: hs).length * phent = phent + hs.length * phent := by rw [List.length_cons, Nat.add_mul]; omega
      rw [hmul] at hlt ⊢
      rw [relroLoopD, if_neg (by omega), e1, uadd_of_lt (by omega), ← Nat.add_assoc]
      have ih := fun r => ih (p + phent) f r hrest (by omega) (fun g hg => hd g (List.mem_cons_of_mem _ hg))
      simp only
      split
      · rename_i c
        unfold assertD
        rw [if_pos (by rw [uadd_eq]; exact decide_eq_true (hd h List.mem_cons_self c))]
        exact ih _
      · exact ih _

theorem uand_low {ws x k : Nat} (hk : k < 8 * ws) : uand ws x (2 ^ k - 1) = x % 2 ^ k := by
  have h1 := Nat.two_pow_pos k
  have h0 : 2 ^ k < 2 ^ (8 * ws) := Nat.pow_lt_pow_right (by decide) hk
  unfold uand
  rw [BitVec.toNat_and, BitVec.toNat_ofNat, BitVec.toNat_ofNat, Nat.mod_eq_of_lt (a := 2 ^ k - 1) (by omega), Nat.and_two_pow_sub_one_eq_mod,
    Nat.mod_mod_of_dvd _ (Nat.pow_dvd_pow 2 (by omega))]

theorem isPow2_pow {ws k : Nat} (hk : k < 8 * ws) : isPow2 ws (2 ^ k) = true := by
  unfold isPow2
  rw [uand_low hk, Nat.mod_self]
  simp

/-- `relocate` from the decision on, debug build. -/
theorem relocateWithD_np {i : Image} (hi : i.ws = 4 ∨ i.ws = 8) {ok : Nat → Nat → Bool} {a : Aux} {b phoff phent fuel k : Nat} {s : State}
    {d : List (Nat × Nat)} {t : Tables} {hs : List Phdr}
    (hd : DynAt i s.mem i.dyn d) (ht : TablesAt i s.mem b d t) (hty : t.AllRelative i)
    (hh : HeadersAt i s.mem b (t.ops i.ws b) phoff phent hs)
    (k1 : ∀ x ∈ d, x.1 = DT_RELAENT → x.2 = 3 * i.ws) (k2 : ∀ x ∈ d, x.1 = DT_RELENT → x.2 = 2 * i.ws)
    (k3 : ∀ x ∈ d, x.1 = DT_RELRENT → x.2 = i.ws) (hk : k < 8 * i.ws) (hpg : a.page = 2 ^ k) (hdv : 2 ^ k ∣ b)
    (hdyn : ∀ h ∈ hs, h.type = PT_DYNAMIC → i.dyn = dyna i.ws b h.vaddr) (hrelr : RelrInRange i.ws b 0 t.relr)
    (hst : a.base ≠ 0 ∨ loadStaticStart i (runOps i s (t.ops i.ws b)).mem = a.entry)
    (hf : d.length + t.rela.length + t.rel.length + t.relr.length + 8 * i.ws + hs.length < fuel) :
    relocateWithD i ok fuel a b s ≠ some .panic := by
  have hws : 0 < i.ws := by omega
  obtain ⟨t', e0, e1, e2, e3, e4, e5, e6⟩ := dynLoop_gabi (b := b) d i.dyn fuel ⟨0, 0, 0, 0, 0, 0⟩ hd (by omega)
  obtain ⟨p1, f1, g1, q1⟩ := dyn_table ht.rela
  obtain ⟨p2, f2, g2, q2⟩ := dyn_table ht.rel
  obtain ⟨p3, f3, g3, q3⟩ := dyn_table ht.relr
  have mem1 : ∀ o ∈ t.rela.map (relaOp i.ws b), o ∈ t.ops i.ws b := fun o ho => by
    rw [Tables.ops_eq]; exact List.mem_append_left _ (List.mem_append_left _ ho)
  have mem2 : ∀ o ∈ t.rel.map (relOp i.ws b), o ∈ t.ops i.ws b := fun o ho => by
    rw [Tables.ops_eq]; exact List.mem_append_left _ (List.mem_append_right _ ho)
  have mem3 : ∀ o ∈ (relrWords i.ws b 0 t.relr).map (wordOp i.ws b), o ∈ t.ops i.ws b := fun o ho => by
    rw [Tables.ops_eq]; exact List.mem_append_right _ ho
  unfold relocateWithD
  refine andD_np (dynLoopD_run d _ _ _ hd k1 k2 k3) fun t1 ht1 => ?_
  have ht1 := (dynLoopD_ref _ _ _).of_ok ht1
  rw [e0] at ht1
  cases ht1
  rw [e1, e2, e3, e4, e5, e6, f1, f2, f3, g1, g2, g3]
  refine trapD_np fun s1 h1 => ?_
  rw [rela_done hws (fun hn => ⟨(q1 hn).1, apart_sub mem1 (q1 hn).2.2⟩) (fun r hr => (relType_eq _ _).trans (hty.1 r hr)) (by omega)] at h1
  cases h1
  refine trapD_np fun s2 h2 => ?_
  rw [rel_done hws (fun hn => ⟨?_, apart_sub mem2 (q2 hn).2.2⟩) (fun r hr => (relType_eq _ _).trans (hty.2 r hr)) (by omega)] at h2
  rotate_left
  · refine Rows.frame (q2 hn).1 (fun x h1 h2 => runOps_range (apart_sub mem1 (q2 hn).2.2) x h1 ?_)
    rw [rowsLen_map _ 2 (by simp), Nat.mul_assoc] at h2; exact h2
  rw [← runOps_append] at h2
  cases h2
  have mem12 : ∀ o ∈ t.rela.map (relaOp i.ws b) ++ t.rel.map (relOp i.ws b), o ∈ t.ops i.ws b := fun o ho => by
    rw [Tables.ops_eq]; exact List.mem_append_left _ ho
  have hrows : t.relr.length ≠ 0 → RelrAt i (runOps i s (t.rela.map (relaOp i.ws b) ++ t.rel.map (relOp i.ws b))).mem p3 t.relr := by
    intro hn
    refine Rows.frame (q3 hn).1 (fun x h1 h2 => runOps_range (apart_sub mem12 (q3 hn).2.2) x h1 ?_)
    rw [rowsLen_map _ 1 (by simp), Nat.mul_one] at h2; exact h2
  refine andD_np ?_ fun s3 h3 => ?_
  · by_cases hn : t.relr.length = 0
    · have : t.relr = [] := List.eq_nil_of_length_eq_zero hn
      obtain ⟨g, rfl⟩ : ∃ g, fuel = g + 1 := ⟨fuel - 1, by omega⟩
      rw [hn, relrLoopD, Nat.zero_mul, Nat.add_zero, if_pos rfl]
      intro h; cases h
    · exact relrLoopD_run hws b t.relr p3 fuel 0 _ (hrows hn) hrelr (apart_sub mem3 (q3 hn).2.2) (by omega) (Nat.two_pow_pos _)
  have h3 := (relrLoopD_ref _ _ _ _).of_ok h3
  rw [relr_done hws (fun hn => ⟨hrows hn, apart_sub mem3 (q3 hn).2.2⟩) (by omega)] at h3
  rw [← runOps_append, ← Tables.ops_eq] at h3
  cases h3
  refine assertD_np (by rw [hpg]; exact isPow2_pow hk) (assertD_np ?_ (assertD_np (decide_eq_true hst) ?_))
  · rw [hpg, uand_low hk, Nat.mod_eq_zero_of_dvd hdv]; rfl
  have hz : ehdrSize i.ws ≥ 24 + 3 * i.ws + 10 := by
    rcases hi with hi | hi <;> rw [hi] <;> decide
  have hm := runOps_range (s := s) hh.safeEhdr.2
  have hphoff : ePhoff i (runOps i s (t.ops i.ws b)).mem = phoff := by
    rw [← hh.hphoff, ← ePhoff_eq]; apply ldN_congr; intro k hk; exact hm _ (by omega) (by omega)
  have hphent : ePhentsize i (runOps i s (t.ops i.ws b)).mem = phent := by
    rw [← hh.hphent, ← ePhentsize_eq]; apply ldN_congr; intro k hk; exact hm _ (by omega) (by omega)
  have hphnum : ePhnum i (runOps i s (t.ops i.ws b)).mem = hs.length := by
    rw [← hh.hphnum, ← ePhnum_eq]; apply ldN_congr; intro k hk; exact hm _ (by omega) (by omega)
  dsimp only
  rw [hphoff, hphent, hphnum]
  have hlt : dyna i.ws b phoff + hs.length * phent < umax i.ws := hh.safePhdrs.1
  have hpos : 0 < phent := by
    have := hh.size
    have : 0 < phdrSize i.ws := by rcases hi with hi | hi <;> rw [hi] <;> decide
    omega
  have hstop : uadd i.ws (uadd i.ws b phoff) (umul i.ws hs.length phent) = dyna i.ws b phoff + hs.length * phent := by
    rw [umul_eq, Nat.mod_eq_of_lt (by omega), show uadd i.ws b phoff = dyna i.ws b phoff by rw [uadd_eq]; rfl, uadd_of_lt hlt]
  rw [hstop, show uadd i.ws b phoff = dyna i.ws b phoff by rw [uadd_eq]; rfl]
  refine andD_np (relroLoopD_run hi hpos hs _ fuel (0, 0) (PhdrsAt.frame hi hh.size hh.phdrs (runOps_range hh.safePhdrs.2)) hlt hdyn) ?_
  intro r _ h; cases h

end Origin.Elf
