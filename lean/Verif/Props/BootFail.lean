import Verif.Props.Boot
/-!
# C58, the starts that fail: nothing of the program runs
-/

namespace Origin.Elf
open Origin.Spec

/-- **C58 (bad relocation).** A program that has to relocate itself and has an entry of an unsupported type in its RELA table is stopped by a
trap: neither a constructor nor `origin_main` is called, whatever the rest of the program is like. -/
theorem C58_bad_relocation {p : Program} {m : Mem} {sp start b : Nat} {argv envp auxv : List (BitVec (8 * p.img.ws))}
    {env : List Nat} {aux d : List (Nat × Nat)} {pre post : List Rela} {bad : Rela} (hself : p.selfRelocate = true)
    (hi : p.img.ws = 4 ∨ p.img.ws = 8)
    (hst : Boot.InitialStack p.img.ws (fun x => wordAt p.img.endian p.img.ws m x) sp argv envp auxv) (hargc : argv.length < 2 ^ 31)
    (hb : b < 2 ^ (8 * p.img.ws)) (hs : start < 2 ^ (8 * p.img.ws))
    (he : EnvAt p.img m (sp + (argv.length + 2) * p.img.ws) env aux)
    (hl : Launch p.img.ws start b (p.img.ld m p.img.staticStart) (auxOf aux) (ehdrField p.img m .e_entry) true)
    (hco : p.img.ld m p.img.staticStart ≠ lastAux Gabi.AT_ENTRY aux) (hd : DynAt p.img m p.img.dyn d)
    (ht : RelaTableAt p.img m b (Tables.ops p.img.ws b ⟨pre, [], []⟩) d (pre ++ bad :: post))
    (hpre : ∀ r ∈ pre, Gabi.R_TYPE p.img.ws r.info = p.img.rRelative) (hbad : Gabi.R_TYPE p.img.ws bad.info ≠ p.img.rRelative)
    (hsep : Separate p.img.ws (Tables.ops p.img.ws b ⟨pre, [], []⟩)) :
    ∃ N, ∀ fuel > N, entry p fuel m sp = some .trapped := by
  obtain ⟨-, -, a3, -⟩ := Boot.C33_args (by omega) hst hargc
  obtain ⟨N, s, h, -⟩ := C39_rela hi hb hs he hl hco hd ht hpre hbad hsep p.ok
  refine ⟨N, fun fuel hf => ?_⟩
  unfold entry relocateStep
  simp only [a3, hself, if_true, h fuel hf, Option.bind_some]

/-- **C58 (bad relocation, REL).** The same of the REL table. -/
theorem C58_bad_rel {p : Program} {m : Mem} {sp start b : Nat} {argv envp auxv : List (BitVec (8 * p.img.ws))}
    {env : List Nat} {aux d : List (Nat × Nat)} {rela : List Rela} {pre post : List Rel} {bad : Rel} (hself : p.selfRelocate = true)
    (hi : p.img.ws = 4 ∨ p.img.ws = 8)
    (hst : Boot.InitialStack p.img.ws (fun x => wordAt p.img.endian p.img.ws m x) sp argv envp auxv) (hargc : argv.length < 2 ^ 31)
    (hb : b < 2 ^ (8 * p.img.ws)) (hs : start < 2 ^ (8 * p.img.ws))
    (he : EnvAt p.img m (sp + (argv.length + 2) * p.img.ws) env aux)
    (hl : Launch p.img.ws start b (p.img.ld m p.img.staticStart) (auxOf aux) (ehdrField p.img m .e_entry) true)
    (hco : p.img.ld m p.img.staticStart ≠ lastAux Gabi.AT_ENTRY aux) (hd : DynAt p.img m p.img.dyn d)
    (hta : RelaTableAt p.img m b (Tables.ops p.img.ws b ⟨rela, pre, []⟩) d rela)
    (ht : RelTableAt p.img m b (Tables.ops p.img.ws b ⟨rela, pre, []⟩) d (pre ++ bad :: post))
    (hrela : ∀ r ∈ rela, Gabi.R_TYPE p.img.ws r.info = p.img.rRelative)
    (hpre : ∀ r ∈ pre, Gabi.R_TYPE p.img.ws r.info = p.img.rRelative) (hbad : Gabi.R_TYPE p.img.ws bad.info ≠ p.img.rRelative)
    (hsep : Separate p.img.ws (Tables.ops p.img.ws b ⟨rela, pre, []⟩)) :
    ∃ N, ∀ fuel > N, entry p fuel m sp = some .trapped := by
  obtain ⟨-, -, a3, -⟩ := Boot.C33_args (by omega) hst hargc
  obtain ⟨N, s, h, -⟩ := C39_rel hi hb hs he hl hco hd hta ht hrela hpre hbad hsep p.ok
  refine ⟨N, fun fuel hf => ?_⟩
  unfold entry relocateStep
  simp only [a3, hself, if_true, h fuel hf, Option.bind_some]

/-- **C58 (RELRO refused).** If the kernel refuses to protect the RELRO segment of a program that has just relocated itself, the program is
stopped by a trap before anything of it has run. -/
theorem C58_relro_refused {p : Program} {m : Mem} {sp start b phoff phent k : Nat} {argv envp auxv : List (BitVec (8 * p.img.ws))}
    {env : List Nat} {aux d : List (Nat × Nat)} {t : Tables} {hs : List Phdr} (hself : p.selfRelocate = true)
    (hst : Boot.InitialStack p.img.ws (fun x => wordAt p.img.endian p.img.ws m x) sp argv envp auxv) (hargc : argv.length < 2 ^ 31)
    (h : Setup p.img m (sp + (argv.length + 2) * p.img.ws) start b env aux d t phoff phent hs) (hk : k < 8 * p.img.ws)
    (hpage : lastAux Gabi.AT_PAGESZ aux = 2 ^ k) {g : Phdr} (hg : lastPhdr Gabi.PT_GNU_RELRO hs = some g) (hne : g.memsz ≠ 0)
    (hno : p.ok (dyna p.img.ws b g.vaddr / 2 ^ k * 2 ^ k) g.memsz = false) :
    ∃ N, ∀ fuel > N, entry p fuel m sp = some .trapped := by
  have hi := h.ws
  obtain ⟨-, -, a3, -⟩ := Boot.C33_args (by omega) hst hargc
  obtain ⟨N, s, -, -, h2⟩ := C40_call h hk hpage hg hne p.ok
  refine ⟨N, fun fuel hf => ?_⟩
  unfold entry relocateStep
  simp only [a3, hself, if_true, (h2 hno).2 fuel hf, Option.bind_some]

/-- **C58 (unlimited stack).** The same process as in `C58_start`, but started with no limit on its stack (`ulimit -s unlimited`): it panics
before anything of it has run. -/
theorem C58_unlimited {p : Program} {s : Space} {m : Mem} {sp : Nat} {argv envp auxv : List (BitVec (8 * p.img.ws))} {ops : List Op} {b : Nat}
    {hs : List Phdr} {lim n : Nat} (H : Started p s m sp argv envp auxv ops b hs lim n) :
    ∃ N, ∀ fuel > N, entry { p with stackLimit := none } fuel m sp = some .panicked := by
  have hi : p.img.ws = 4 ∨ p.img.ws = 8 := by rw [H.ws]; cases p.arch <;> simp [Arch.ws]
  obtain ⟨-, -, a3, -⟩ := Boot.C33_args (by omega) H.stack H.argc
  obtain ⟨N, s1, hr, ha⟩ := todo_run H.todo H.mprotect
  have hp : 0 < p.phent := by
    have := H.phent
    have : 0 < phdrSize p.img.ws := by rcases hi with h | h <;> rw [h] <;> decide
    omega
  have hat : PhdrsAt p.img s1.mem p.phent p.phdr hs := by
    refine PhdrsAt.frame hi H.phent H.headers fun x h1 h2 => ha.others x fun o ho => ?_
    have := H.safeHeaders.2 o ho
    unfold Apart at this
    omega
  have hinfo := startup_eq hi H.bias hp hat H.safeHeaders.1 H.loaded
  refine ⟨N + hs.length, fun fuel hf => ?_⟩
  have hr' : relocateStep { p with stackLimit := none } fuel m (sp + (argv.length + 2) * p.img.ws) = some (.done s1) :=
    hr fuel (by omega)
  have hrt : initRuntime { p with stackLimit := none } fuel s1.mem sp = some none := by
    unfold initRuntime
    rw [H.phnum, hinfo fuel (by omega), Option.map_some]
    exact congrArg some (C10_unlimited_panics _ _ _ _ rfl)
  unfold entry
  simp only [a3, hr', Option.bind_some, hrt]

/-! ### non-vacuity -/

/-- `exBootMem` with a relocation of type 9 for the `.init_array` slot. -/
def exBadBootMem : Mem := fun a =>
  BitVec.ofNat 8 ((((if a / 8 = 8276 then some 9 else exBootWords.lookup (a / 8))).getD 0) >>> (8 * (a % 8)))

example : ∃ N, ∀ fuel > N, entry exProgram fuel exBadBootMem 0x7f000 = some .trapped :=
  C58_bad_relocation (p := exProgram) (start := 0x1000) (b := 0x10000) (argv := [0x7fff00]) (envp := [0x7ff800])
    (auxv := [6, 4096, 9, 0x11000, 0]) (env := [0x7ff800]) (aux := [(6, 4096), (9, 0x11000)])
    (d := [(7, 0x280), (8, 72), (9, 24)]) (pre := [⟨0x300, 8, 0x308⟩]) (bad := ⟨0x310, 9, 0x1100⟩) (post := [⟨0x320, 8, 0x1000⟩]) rfl (.inr rfl)
    (by
      intro i hi
      have : i < 10 := hi
      have h : ∀ i : Fin 10, wordAt .little 8 exBadBootMem (0x7f000 + i.1 * 8) =
        ([1, 0x7fff00, 0, 0x7ff800, 0, 6, 4096, 9, 0x11000, 0] : List (BitVec 64))[i.1] := by decide
      exact h ⟨i, this⟩)
    (by decide) (by decide) (by decide) ⟨by decide, by decide, by decide, (by decide : WordsAt _ _ _ _)⟩
    (.staticPie (by decide) (by decide) (by decide) (by decide)) (by decide) ⟨by decide, (by decide : WordsAt _ _ _ _)⟩
    ⟨by decide, fun _ => ⟨by decide, (by decide : WordsAt _ _ _ _), by decide⟩⟩ (by decide) (by decide) (by decide)

example : ∃ N, ∀ fuel > N, entry { exProgram with stackLimit := none } fuel exBootMem 0x7f000 = some .panicked := C58_unlimited exStarted

/-- `exBootMem` with other words at some places. -/
def exPatched (l : List (Nat × Nat)) : Mem := fun a =>
  BitVec.ofNat 8 (((((l ++ exBootWords).lookup (a / 8))).getD 0) >>> (8 * (a % 8)))

/-- The program also has a REL table, of two entries, at `0x400`: the second is of type 9. -/
def exBadRelMem : Mem :=
  exPatched [(8262, 17), (8263, 0x400), (8264, 18), (8265, 32), (8266, 0), (8267, 0), (8320, 0x330), (8321, 8), (8322, 0x338), (8323, 9)]

example : ∃ N, ∀ fuel > N, entry exProgram fuel exBadRelMem 0x7f000 = some .trapped :=
  C58_bad_rel (p := exProgram) (start := 0x1000) (b := 0x10000) (argv := [0x7fff00]) (envp := [0x7ff800])
    (auxv := [6, 4096, 9, 0x11000, 0]) (env := [0x7ff800]) (aux := [(6, 4096), (9, 0x11000)])
    (d := [(7, 0x280), (8, 72), (9, 24), (17, 0x400), (18, 32)]) (rela := exBootTables.rela) (pre := [⟨0x330, 8⟩]) (bad := ⟨0x338, 9⟩)
    (post := []) rfl (.inr rfl)
    (by
      intro i hi
      have : i < 10 := hi
      have h : ∀ i : Fin 10, wordAt .little 8 exBadRelMem (0x7f000 + i.1 * 8) =
        ([1, 0x7fff00, 0, 0x7ff800, 0, 6, 4096, 9, 0x11000, 0] : List (BitVec 64))[i.1] := by decide
      exact h ⟨i, this⟩)
    (by decide) (by decide) (by decide) ⟨by decide, by decide, by decide, (by decide : WordsAt _ _ _ _)⟩
    (.staticPie (by decide) (by decide) (by decide) (by decide)) (by decide) ⟨by decide, (by decide : WordsAt _ _ _ _)⟩
    ⟨by decide, fun _ => ⟨by decide, (by decide : WordsAt _ _ _ _), by decide⟩⟩
    ⟨by decide, fun _ => ⟨by decide, (by decide : WordsAt _ _ _ _), by decide⟩⟩ (by decide) (by decide) (by decide) (by decide)

/-- The program has a RELRO segment, and the kernel refuses every `mprotect`. -/
def exRelroMem : Mem :=
  exPatched [(8199, 3), (8214, 0x46474e552), (8215, 0x300), (8216, 0x300), (8217, 0x300), (8218, 16), (8219, 16), (8220, 1)]

theorem exRelroSetup : Setup exProgram.img exRelroMem 0x7f018 0x1000 0x10000 [0x7ff800] [(6, 4096), (9, 0x11000)] [(7, 0x280), (8, 72), (9, 24)]
    exBootTables 0x40 56 (exBootHeaders ++ [⟨Gabi.PT_GNU_RELRO, 0x300, 16, 16, 1⟩]) where
  ws := Or.inr rfl
  hb := by decide
  hstart := by decide
  env := ⟨by decide, by decide, by decide, (by decide : WordsAt _ _ _ _)⟩
  launch := .staticPie (by decide) (by decide) (by decide) (by decide)
  distinct := by decide
  dyn := ⟨by decide, (by decide : WordsAt _ _ _ _)⟩
  tables := ⟨⟨by decide, fun _ => ⟨by decide, (by decide : WordsAt _ _ _ _), by decide⟩⟩,
    ⟨by decide, fun h => absurd rfl h⟩, ⟨by decide, fun h => absurd rfl h⟩⟩
  types := ⟨by decide, by decide⟩
  headers := ⟨by decide, by decide, by decide, by decide, by decide, by decide, by decide⟩
  separate := by decide

example : ∃ N, ∀ fuel > N, entry { exProgram with ok := fun _ _ => false } fuel exRelroMem 0x7f000 = some .trapped :=
  C58_relro_refused (p := { exProgram with ok := fun _ _ => false }) (argv := [0x7fff00]) (envp := [0x7ff800])
    (auxv := [6, 4096, 9, 0x11000, 0]) rfl
    (by
      intro i hi
      have : i < 10 := hi
      have h : ∀ i : Fin 10, wordAt .little 8 exRelroMem (0x7f000 + i.1 * 8) =
        ([1, 0x7fff00, 0, 0x7ff800, 0, 6, 4096, 9, 0x11000, 0] : List (BitVec 64))[i.1] := by decide
      exact h ⟨i, this⟩)
    (by decide) exRelroSetup (k := 12) (by decide) (by decide) (g := ⟨Gabi.PT_GNU_RELRO, 0x300, 16, 16, 1⟩) (by decide) (by decide) rfl

end Origin.Elf
