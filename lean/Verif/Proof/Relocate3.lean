import Verif.Proof.Relocate2
import Verif.Proof.Usize
/-! # `relocate` as a whole -/

namespace Origin.Elf

theorem WordsAt.append {i : Image} {m : Mem} {l l' : List Nat} : ∀ {a : Nat}, WordsAt i m a (l ++ l') →
    WordsAt i m a l ∧ WordsAt i m (a + l.length * i.ws) l' := by
  induction l with
  | nil => intro a h; exact ⟨trivial, by simpa using h⟩
  | cons x l ih =>
    intro a ⟨h1, h2⟩
    obtain ⟨h3, h4⟩ := ih h2
    refine ⟨⟨h1, h3⟩, ?_⟩
    rw [List.length_cons, Nat.add_mul]
    rw [show a + (l.length * i.ws + 1 * i.ws) = a + i.ws + l.length * i.ws by omega]; exact h4

theorem auxpLoop_ok {i : Image} {m : Mem} {env : List Nat} : ∀ {p fuel : Nat}, (∀ x ∈ env, x ≠ 0) → WordsAt i m p (env ++ [0]) →
    env.length < fuel →
    Boot.auxpLoop i.ws (fun a => wordAt i.endian i.ws m a) fuel p = some (p + (env.length + 1) * i.ws) := by
  induction env with
  | nil =>
    intro p fuel _ h hf
    cases fuel with
    | zero => cases hf
    | succ f =>
      have h0 : i.ld m p = 0 := h.1
      have : wordAt i.endian i.ws m p = 0#(8 * i.ws) := BitVec.eq_of_toNat_eq (by rw [BitVec.toNat_zero]; exact h0)
      simp [Boot.auxpLoop, this]
  | cons x env ih =>
    intro p fuel hn h hf
    cases fuel with
    | zero => cases hf
    | succ f =>
      obtain ⟨h1, h2⟩ := h
      have h0 : i.ld m p = x := h1
      have : wordAt i.endian i.ws m p ≠ 0#(8 * i.ws) := by
        intro e
        apply hn x List.mem_cons_self
        rw [← h0]
        show (wordAt i.endian i.ws m p).toNat = 0
        rw [e]; simp
      rw [Boot.auxpLoop, if_neg this, Nat.one_mul, ih (fun y hy => hn y (List.mem_cons_of_mem _ hy)) h2 (by simpa using hf)]
      rw [List.length_cons]
      congr 1
      rw [Nat.add_mul (env.length + 1)]; omega

/-- `relocate` up to the decision. -/
theorem relocate_start {i : Image} {ok : Nat → Nat → Bool} {m : Mem} {envp : Nat} {env : List Nat} {aux : List (Nat × Nat)}
    (h : EnvAt i m envp env aux) {fuel : Nat} (hf : env.length + aux.length < fuel) :
    relocate i ok fuel m envp = (match decision i m (auxOf aux) with
      | none => some (.done ⟨m, [], []⟩)
      | some b => relocateWith i ok fuel (auxOf aux) b ⟨m, [], []⟩) := by
  unfold relocate Boot.computeAuxp
  rw [auxpLoop_ok h.nonnull h.words (by omega)]
  rw [show ∀ f : Nat → Option Out, (some (envp + (env.length + 1) * i.ws) >>= f) = f (envp + (env.length + 1) * i.ws) from fun _ => rfl]
  rw [auxLoop_ok aux _ _ _ h.aux (by omega)]
  rfl

theorem dyn_table {i : Image} {b : Nat} {ops : List Op} {d : List (Nat × Nat)} {tag szTag size n : Nat} {content : Nat → Prop}
    (h : TableAt i.ws b ops d tag szTag size n content) :
    ∃ p, lastOr 0 tag (d.map fun x => (x.1, uadd i.ws b x.2)) = p ∧ uadd i.ws p (lastOr 0 szTag d) = p + n * size ∧
      (n ≠ 0 → content p ∧ Safe i.ws ops p (n * size)) := by
  obtain ⟨h1, h2⟩ := h
  have hsz : lastOr 0 szTag d = n * size := h1
  refine ⟨_, rfl, ?_, ?_⟩
  · rw [hsz]
    rcases lastOr_addr i.ws b tag d with e | ⟨e, hno⟩
    · rw [e]
      by_cases hn : n = 0
      · subst hn
        rw [Nat.zero_mul, uadd_of_lt]
        exact Nat.mod_lt _ (umax_pos i.ws)
      · exact uadd_of_lt (h2 hn).2.2.1
    · by_cases hn : n = 0
      · subst hn
        rw [Nat.zero_mul, e, uadd_of_lt]
        exact umax_pos i.ws
      · obtain ⟨⟨x, hx, hk⟩, -⟩ := h2 hn
        exact absurd hk (hno x hx)
  · intro hn
    obtain ⟨⟨x, hx, hk⟩, h3, h4⟩ := h2 hn
    rcases lastOr_addr i.ws b tag d with e | ⟨e, hno⟩
    · rw [e]; exact ⟨h3, h4⟩
    · exact absurd hk (hno x hx)

/-- The RELA loop over a good table. -/
theorem rela_done {i : Image} (hws : 0 < i.ws) {b p fuel : Nat} {l : List Rela} {s : State}
    (h : l.length ≠ 0 → RelaAt i s.mem p l ∧ ∀ o ∈ l.map (relaOp i.ws b), Apart o.addr i.ws p (l.length * (3 * i.ws)))
    (hty : ∀ r ∈ l, relType i.ws r.info = i.rRelative) (hf : l.length < fuel) :
    relaLoop i b (p + l.length * (3 * i.ws)) fuel p s = some (.done (runOps i s (l.map (relaOp i.ws b)))) := by
  obtain ⟨k, rfl⟩ : ∃ k, fuel = (k + 1) + l.length := ⟨fuel - l.length - 1, by omega⟩
  by_cases hl : l = []
  · subst hl; simp [relaLoop, runOps]
  · obtain ⟨h1, h2⟩ := h (by simpa using hl)
    have := relaLoop_ok hws b [] l p (k + 1) s (by simpa using h1) hty (by simpa using h2)
    simp only [List.length_nil, Nat.add_zero] at this
    rw [this, relaLoop, if_pos rfl]

/-- The RELA loop over a table with an entry of another type. -/
theorem rela_trap {i : Image} (hws : 0 < i.ws) {b p fuel : Nat} {l post : List Rela} {bad : Rela} {s : State}
    (h : RelaAt i s.mem p (l ++ bad :: post)) (hap : ∀ o ∈ l.map (relaOp i.ws b), Apart o.addr i.ws p ((l ++ bad :: post).length * (3 * i.ws)))
    (hty : ∀ r ∈ l, relType i.ws r.info = i.rRelative) (hbad : relType i.ws bad.info ≠ i.rRelative) (hf : l.length < fuel) :
    relaLoop i b (p + (l ++ bad :: post).length * (3 * i.ws)) fuel p s = some (.trap (runOps i s (l.map (relaOp i.ws b)))) := by
  obtain ⟨k, rfl⟩ : ∃ k, fuel = (k + 1) + l.length := ⟨fuel - l.length - 1, by omega⟩
  have hlen : (l ++ bad :: post).length = l.length + (bad :: post).length := List.length_append
  rw [hlen] at hap ⊢
  have := relaLoop_ok hws b (bad :: post) l p (k + 1) s h hty hap
  rw [this]
  have hrows : Rows i s.mem (p + l.length * (3 * i.ws)) ((bad :: post).map fun r => [r.offset, r.info, r.addend]) := by
    unfold RelaAt Rows at h
    rw [List.map_append, List.flatten_append] at h
    have := h.append.2
    have hl := rowsLen_map (fun r : Rela => [r.offset, r.info, r.addend]) 3 (by simp) l
    unfold rowsLen at hl
    rw [hl, Nat.mul_assoc] at this
    exact this
  have hmul : (l.length + (bad :: post).length) * (3 * i.ws) = l.length * (3 * i.ws) + (3 * i.ws + post.length * (3 * i.ws)) := by
    simp only [List.length_cons, Nat.add_mul]; omega
  have hrows' : Rows i (runOps i s (l.map (relaOp i.ws b))).mem (p + l.length * (3 * i.ws)) ((bad :: post).map fun r => [r.offset, r.info, r.addend]) := by
    refine hrows.frame (fun x h1 h2 => runOps_range hap x (by omega) ?_)
    rw [rowsLen_map _ 3 (by simp), Nat.mul_assoc, List.length_cons, Nat.add_mul] at h2
    omega
  obtain ⟨e1, e2, e3, -⟩ := hrows'
  rw [relaLoop, if_neg (by omega)]
  simp only [e2]
  rw [if_neg hbad]

theorem rel_done {i : Image} (hws : 0 < i.ws) {b p fuel : Nat} {l : List Rel} {s : State}
    (h : l.length ≠ 0 → RelAt i s.mem p l ∧ ∀ o ∈ l.map (relOp i.ws b), Apart o.addr i.ws p (l.length * (2 * i.ws)))
    (hty : ∀ r ∈ l, relType i.ws r.info = i.rRelative) (hf : l.length < fuel) :
    relLoop i b (p + l.length * (2 * i.ws)) fuel p s = some (.done (runOps i s (l.map (relOp i.ws b)))) := by
  obtain ⟨k, rfl⟩ : ∃ k, fuel = (k + 1) + l.length := ⟨fuel - l.length - 1, by omega⟩
  by_cases hl : l = []
  · subst hl; simp [relLoop, runOps]
  · obtain ⟨h1, h2⟩ := h (by simpa using hl)
    have := relLoop_ok hws b [] l p (k + 1) s (by simpa using h1) hty (by simpa using h2)
    simp only [List.length_nil, Nat.add_zero] at this
    rw [this, relLoop, if_pos rfl]

theorem rel_trap {i : Image} (hws : 0 < i.ws) {b p fuel : Nat} {l post : List Rel} {bad : Rel} {s : State}
    (h : RelAt i s.mem p (l ++ bad :: post)) (hap : ∀ o ∈ l.map (relOp i.ws b), Apart o.addr i.ws p ((l ++ bad :: post).length * (2 * i.ws)))
    (hty : ∀ r ∈ l, relType i.ws r.info = i.rRelative) (hbad : relType i.ws bad.info ≠ i.rRelative) (hf : l.length < fuel) :
    relLoop i b (p + (l ++ bad :: post).length * (2 * i.ws)) fuel p s = some (.trap (runOps i s (l.map (relOp i.ws b)))) := by
  obtain ⟨k, rfl⟩ : ∃ k, fuel = (k + 1) + l.length := ⟨fuel - l.length - 1, by omega⟩
  have hlen : (l ++ bad :: post).length = l.length + (bad :: post).length := List.length_append
  rw [hlen] at hap ⊢
  have := relLoop_ok hws b (bad :: post) l p (k + 1) s h hty hap
  rw [this]
  have hrows : Rows i s.mem (p + l.length * (2 * i.ws)) ((bad :: post).map fun r => [r.offset, r.info]) := by
    unfold RelAt Rows at h
    rw [List.map_append, List.flatten_append] at h
    have := h.append.2
    have hl := rowsLen_map (fun r : Rel => [r.offset, r.info]) 2 (by simp) l
    unfold rowsLen at hl
    rw [hl, Nat.mul_assoc] at this
    exact this
  have hmul : (l.length + (bad :: post).length) * (2 * i.ws) = l.length * (2 * i.ws) + (2 * i.ws + post.length * (2 * i.ws)) := by
    simp only [List.length_cons, Nat.add_mul]; omega
  have hrows' : Rows i (runOps i s (l.map (relOp i.ws b))).mem (p + l.length * (2 * i.ws)) ((bad :: post).map fun r => [r.offset, r.info]) := by
    refine hrows.frame (fun x h1 h2 => runOps_range hap x (by omega) ?_)
    rw [rowsLen_map _ 2 (by simp), Nat.mul_assoc, List.length_cons, Nat.add_mul] at h2
    omega
  obtain ⟨e1, e2, -⟩ := hrows'
  rw [relLoop, if_neg (by omega)]
  simp only [e2]
  rw [if_neg hbad]

theorem relr_done {i : Image} (hws : 0 < i.ws) {b p fuel : Nat} {l : List Nat} {s : State}
    (h : l.length ≠ 0 → RelrAt i s.mem p l ∧ ∀ o ∈ (relrWords i.ws b 0 l).map (wordOp i.ws b), Apart o.addr i.ws p (l.length * i.ws))
    (hf : l.length + 8 * i.ws < fuel) :
    relrLoop i b (p + l.length * i.ws) fuel p 0 s = some (runOps i s ((relrWords i.ws b 0 l).map (wordOp i.ws b))) := by
  by_cases hl : l = []
  · subst hl
    obtain ⟨k, rfl⟩ : ∃ k, fuel = k + 1 := ⟨fuel - 1, by omega⟩
    simp [relrLoop, runOps, relrWords]
  · obtain ⟨h1, h2⟩ := h (by simpa using hl)
    exact relrLoop_ok hws b l p fuel 0 0 s h1 (by simp) (by omega) (by omega) h2

theorem applied_runOps {i : Image} {m : Mem} {os : List Op} {s : State} (hm : s.mem = m) (hs : s.stores = []) (hsep : Separate i.ws os)
    (hv : ∀ o ∈ os, ∀ v, o.value v < 2 ^ (8 * i.ws)) : Applied i m os (runOps i s os) := by
  subst hm
  obtain ⟨h1, h2⟩ := runOps_content hsep hv s
  refine ⟨h1, fun x hx => runOps_frame hx, ?_⟩
  rw [h2, hs]; simp

theorem apart_sub {ops os : List Op} (h : ∀ o ∈ os, o ∈ ops) {ws a n : Nat} (hs : ∀ o ∈ ops, Apart o.addr ws a n) :
    ∀ o ∈ os, Apart o.addr ws a n := fun o ho => hs o (h o ho)

/-- `relocate` from the decision on, for supported relocation types. -/
theorem relocateWith_ok {i : Image} (hi : i.ws = 4 ∨ i.ws = 8) {ok : Nat → Nat → Bool} {a : Aux} {b phoff phent fuel : Nat} {s : State}
    {d : List (Nat × Nat)} {t : Tables} {hs : List Phdr}
    (hd : DynAt i s.mem i.dyn d) (ht : TablesAt i s.mem b d t) (hty : t.AllRelative i)
    (hh : HeadersAt i s.mem b (t.ops i.ws b) phoff phent hs)
    (hf : d.length + t.rela.length + t.rel.length + t.relr.length + 8 * i.ws + hs.length < fuel) :
    relocateWith i ok fuel a b s = some (protect i ok b a.page (((lastPhdr Gabi.PT_GNU_RELRO hs).map fun h => (h.vaddr, h.memsz)).getD (0, 0))
      (runOps i s (t.ops i.ws b))) := by
  have hws : 0 < i.ws := by omega
  obtain ⟨t', e0, e1, e2, e3, e4, e5, e6⟩ := dynLoop_gabi (b := b) d i.dyn fuel ⟨0, 0, 0, 0, 0, 0⟩ hd (by omega)
  obtain ⟨p1, f1, g1, k1⟩ := dyn_table ht.rela
  obtain ⟨p2, f2, g2, k2⟩ := dyn_table ht.rel
  obtain ⟨p3, f3, g3, k3⟩ := dyn_table ht.relr
  have mem1 : ∀ o ∈ t.rela.map (relaOp i.ws b), o ∈ t.ops i.ws b := fun o ho => by
    rw [Tables.ops_eq]; exact List.mem_append_left _ (List.mem_append_left _ ho)
  have mem2 : ∀ o ∈ t.rel.map (relOp i.ws b), o ∈ t.ops i.ws b := fun o ho => by
    rw [Tables.ops_eq]; exact List.mem_append_left _ (List.mem_append_right _ ho)
  have mem3 : ∀ o ∈ (relrWords i.ws b 0 t.relr).map (wordOp i.ws b), o ∈ t.ops i.ws b := fun o ho => by
    rw [Tables.ops_eq]; exact List.mem_append_right _ ho
  unfold relocateWith
  rw [e0]
  simp only [Option.bind_eq_bind, Option.bind_some]
  rw [e1, e2, e3, e4, e5, e6, f1, f2, f3, g1, g2, g3]
  rw [rela_done hws (fun hn => ⟨(k1 hn).1, apart_sub mem1 (k1 hn).2.2⟩) (fun r hr => (relType_eq _ _).trans (hty.1 r hr)) (by omega)]
  simp only [Option.bind_some, Out.andThen]
  rw [rel_done hws (fun hn => ⟨?_, apart_sub mem2 (k2 hn).2.2⟩) (fun r hr => (relType_eq _ _).trans (hty.2 r hr)) (by omega)]
  rotate_left
  · refine Rows.frame (k2 hn).1 (fun x h1 h2 => runOps_range (apart_sub mem1 (k2 hn).2.2) x h1 ?_)
    rw [rowsLen_map _ 2 (by simp), Nat.mul_assoc] at h2; exact h2
  simp only [Option.bind_some]
  rw [← runOps_append]
  have mem12 : ∀ o ∈ t.rela.map (relaOp i.ws b) ++ t.rel.map (relOp i.ws b), o ∈ t.ops i.ws b := fun o ho => by
    rw [Tables.ops_eq]; exact List.mem_append_left _ ho
  rw [relr_done hws (fun hn => ⟨?_, apart_sub mem3 (k3 hn).2.2⟩) (by omega)]
  rotate_left
  · refine Rows.frame (k3 hn).1 (fun x h1 h2 => runOps_range (apart_sub mem12 (k3 hn).2.2) x h1 ?_)
    rw [rowsLen_map _ 1 (by simp), Nat.mul_one] at h2; exact h2
  simp only [Option.bind_some]
  rw [← runOps_append, ← Tables.ops_eq]
  have hz : ehdrSize i.ws ≥ 24 + 3 * i.ws + 10 := by
    rcases hi with hi | hi <;> rw [hi] <;> decide
  have hm := runOps_range (s := s) hh.safeEhdr.2
  have hphoff : ePhoff i (runOps i s (t.ops i.ws b)).mem = phoff := by
    rw [← hh.hphoff, ← ePhoff_eq]; apply ldN_congr; intro k hk; exact hm _ (by omega) (by omega)
  have hphent : ePhentsize i (runOps i s (t.ops i.ws b)).mem = phent := by
    rw [← hh.hphent, ← ePhentsize_eq]; apply ldN_congr; intro k hk; exact hm _ (by omega) (by omega)
  have hphnum : ePhnum i (runOps i s (t.ops i.ws b)).mem = hs.length := by
    rw [← hh.hphnum, ← ePhnum_eq]; apply ldN_congr; intro k hk; exact hm _ (by omega) (by omega)
  rw [hphoff, hphent, hphnum]
  have hlt : dyna i.ws b phoff + hs.length * phent < umax i.ws := hh.safePhdrs.1
  have hpos : 0 < phent := by
    have := hh.size
    have : 0 < phdrSize i.ws := by rcases hi with hi | hi <;> rw [hi] <;> decide
    omega
  have hstop : uadd i.ws (uadd i.ws b phoff) (umul i.ws hs.length phent) = dyna i.ws b phoff + hs.length * phent := by
    rw [umul_eq, Nat.mod_eq_of_lt (by omega), show uadd i.ws b phoff = dyna i.ws b phoff by rw [uadd_eq]; rfl, uadd_of_lt hlt]
  rw [hstop, show uadd i.ws b phoff = dyna i.ws b phoff by rw [uadd_eq]; rfl]
  rw [relroLoop_ok hi hpos hs _ fuel (0, 0) (PhdrsAt.frame hi hh.size hh.phdrs (runOps_range hh.safePhdrs.2)) hlt (by omega)]
  rfl

theorem rela_trapWith {i : Image} (hi : i.ws = 4 ∨ i.ws = 8) {ok : Nat → Nat → Bool} {a : Aux} {b fuel : Nat} {s : State}
    {d : List (Nat × Nat)} {l post : List Rela} {bad : Rela}
    (hd : DynAt i s.mem i.dyn d) (ht : RelaTableAt i s.mem b (l.map (relaOp i.ws b)) d (l ++ bad :: post))
    (hty : ∀ r ∈ l, Gabi.R_TYPE i.ws r.info = i.rRelative) (hbad : Gabi.R_TYPE i.ws bad.info ≠ i.rRelative)
    (hf : d.length + l.length < fuel) :
    relocateWith i ok fuel a b s = some (.trap (runOps i s (l.map (relaOp i.ws b)))) := by
  have hws : 0 < i.ws := by omega
  obtain ⟨t', e0, e1, e2, e3, e4, e5, e6⟩ := dynLoop_gabi (b := b) d i.dyn fuel ⟨0, 0, 0, 0, 0, 0⟩ hd (by omega)
  obtain ⟨p1, f1, g1, k1⟩ := dyn_table ht
  obtain ⟨k2, k3⟩ := k1 (by simp)
  unfold relocateWith
  rw [e0]
  simp only [Option.bind_eq_bind, Option.bind_some]
  rw [e1, e4, f1, g1, rela_trap hws k2 k3.2 (fun r hr => (relType_eq _ _).trans (hty r hr)) (by rw [relType_eq]; exact hbad) (by omega)]
  rfl

theorem rel_trapWith {i : Image} (hi : i.ws = 4 ∨ i.ws = 8) {ok : Nat → Nat → Bool} {a : Aux} {b fuel : Nat} {s : State}
    {d : List (Nat × Nat)} {rela : List Rela} {l post : List Rel} {bad : Rel}
    (hd : DynAt i s.mem i.dyn d)
    (hta : RelaTableAt i s.mem b (rela.map (relaOp i.ws b) ++ l.map (relOp i.ws b)) d rela)
    (ht : RelTableAt i s.mem b (rela.map (relaOp i.ws b) ++ l.map (relOp i.ws b)) d (l ++ bad :: post))
    (htya : ∀ r ∈ rela, Gabi.R_TYPE i.ws r.info = i.rRelative)
    (hty : ∀ r ∈ l, Gabi.R_TYPE i.ws r.info = i.rRelative) (hbad : Gabi.R_TYPE i.ws bad.info ≠ i.rRelative)
    (hf : d.length + rela.length + l.length < fuel) :
    relocateWith i ok fuel a b s = some (.trap (runOps i s (rela.map (relaOp i.ws b) ++ l.map (relOp i.ws b)))) := by
  have hws : 0 < i.ws := by omega
  obtain ⟨t', e0, e1, e2, e3, e4, e5, e6⟩ := dynLoop_gabi (b := b) d i.dyn fuel ⟨0, 0, 0, 0, 0, 0⟩ hd (by omega)
  obtain ⟨p1, f1, g1, k1⟩ := dyn_table hta
  obtain ⟨p2, f2, g2, k2⟩ := dyn_table ht
  obtain ⟨k3, k4⟩ := k2 (by simp)
  unfold relocateWith
  rw [e0]
  simp only [Option.bind_eq_bind, Option.bind_some]
  rw [e1, e2, e4, e5, f1, g1, f2, g2]
  rw [rela_done hws (fun hn => ⟨(k1 hn).1, apart_sub (fun o ho => List.mem_append_left _ ho) (k1 hn).2.2⟩) (fun r hr => (relType_eq _ _).trans (htya r hr)) (by omega)]
  simp only [Option.bind_some, Out.andThen]
  rw [rel_trap hws ?_ (apart_sub (fun o ho => List.mem_append_right _ ho) k4.2) (fun r hr => (relType_eq _ _).trans (hty r hr)) (by rw [relType_eq]; exact hbad) (by omega), runOps_append]
  · rfl
  · refine Rows.frame k3 (fun x h1 h2 => runOps_range (apart_sub (fun o ho => List.mem_append_left _ ho) k4.2) x h1 ?_)
    rw [rowsLen_map _ 2 (by simp), Nat.mul_assoc] at h2; exact h2

end Origin.Elf
