import Verif.Spec.Boot
import Verif.Props.Relocate
import Verif.Props.Startup
import Verif.Props.Bridge
/-!
# C58: program start as a whole
-/

namespace Origin.Elf
open Origin.Spec

theorem todo_run {p : Program} {m : Mem} {envp : Nat} {ops : List Op} (h : Todo p m envp ops) (hok : ∀ a l, p.ok a l = true) :
    ∃ N s, (∀ fuel > N, relocateStep p fuel m envp = some (.done s)) ∧ Applied p.img m ops s := by
  have nil : Applied p.img m [] ⟨m, [], []⟩ := ⟨by simp, by simp, rfl⟩
  cases h with
  | no h => exact ⟨0, _, fun fuel _ => by rw [relocateStep, h]; rfl, nil⟩
  | @done start b env aux h he hl =>
    refine ⟨env.length + aux.length, ⟨m, [], []⟩, fun fuel hf => ?_, nil⟩
    rw [relocateStep, h, if_pos rfl, C36_not_needed p.ok he hl fuel hf]
  | self h hs =>
    obtain ⟨N, out, s, h1, h2, h3⟩ := C37_applied hs p.ok
    rcases h3 with rfl | ⟨-, a, l, h3⟩
    · exact ⟨N, s, fun fuel hf => by rw [relocateStep, h, if_pos rfl, h1 fuel hf], h2⟩
    · rw [hok] at h3; cases h3

theorem startup_eq {i : Image} {m : Mem} {b first phent : Nat} {hs : List Phdr} (hi : i.ws = 4 ∨ i.ws = 8) (hb : b < 2 ^ (8 * i.ws)) (hp : 0 < phent)
    (hat : PhdrsAt i m phent first hs) (hend : first + hs.length * phent < 2 ^ (8 * i.ws)) (hl : Loaded i b first hs) :
    ∀ fuel > hs.length, initializeStartupInfo i m fuel first phent hs.length = some ⟨tlsOf i.ws b hs, stackOf hs⟩ := by
  obtain ⟨h1, h2, h3⟩ := hl
  have hscan := scan_inv hb hs ⟨none, 0, 0⟩ (PhdrsAt.vaddr_lt hi hat) h1 h2 (by rcases h3 with h | h; exact Or.inl h; exact Or.inr h.symm)
  have hstop : uadd i.ws first (umul i.ws hs.length phent) = first + hs.length * phent := by
    rw [umul_eq, Nat.mod_eq_of_lt (by unfold umax; omega), uadd_of_lt (by unfold umax; exact hend)]
  intro fuel hf
  unfold initializeStartupInfo
  rw [hstop, phdrLoop_ok hi hp hs first fuel _ hat (by unfold umax; exact hend) hf, hscan]
  simp only [Option.map_some, startupInfo, tlsOf, stackOf, Option.or_none]
  cases lastPhdr Gabi.PT_TLS hs with
  | none => rfl
  | some h => simp only [uadd_eq, dyna, umax]

theorem initLoop_eq {p : Program} {a : Boot.Args} {n : Nat}
    (hc : ∀ f a m x, p.initStart ≤ x → x < p.initStart + n * p.img.ws → p.ctor f a m x = m x) (he : p.initEnd = p.initStart + n * p.img.ws) (hw : 0 < p.img.ws)
    {m0 : Mem} : ∀ (k j fuel : Nat) (m : Mem), j + k = n → (∀ x, p.initStart ≤ x → x < p.initStart + n * p.img.ws → m x = m0 x) → k < fuel →
    initLoop p a fuel (p.initStart + j * p.img.ws) m =
      some (((List.range' j k).map fun j => (p.img.ld m0 (p.initStart + j * p.img.ws), a)),
        ((List.range' j k).map fun j => p.img.ld m0 (p.initStart + j * p.img.ws)).foldl (fun m f => p.ctor f a m) m) := by
  intro k
  induction k with
  | zero =>
    intro j fuel m hj hm hf
    obtain ⟨fuel, rfl⟩ : ∃ f, fuel = f + 1 := ⟨fuel - 1, by omega⟩
    unfold initLoop
    rw [if_pos (by rw [he]; congr 2)]
    rfl
  | succ k ih =>
    intro j fuel m hj hm hf
    obtain ⟨fuel, rfl⟩ : ∃ f, fuel = f + 1 := ⟨fuel - 1, by omega⟩
    have hlt : j * p.img.ws + p.img.ws ≤ n * p.img.ws := by
      rw [← Nat.succ_mul]; exact Nat.mul_le_mul_right _ (by omega)
    unfold initLoop
    rw [if_neg (by rw [he]; omega)]
    have hld : p.img.ld m (p.initStart + j * p.img.ws) = p.img.ld m0 (p.initStart + j * p.img.ws) :=
      ldN_congr fun x hx => hm _ (by omega) (by omega)
    simp only [hld]
    rw [show p.initStart + j * p.img.ws + p.img.ws = p.initStart + (j + 1) * p.img.ws by rw [Nat.succ_mul]; omega]
    rw [ih (j + 1) fuel _ (by omega) (fun x h1 h2 => by rw [hc _ _ _ _ h1 h2, hm x h1 h2]) (by omega)]
    rfl

/-- **C58.** However the program is started (static, position-independent and relocating itself, relocated before, or as a dynamic linker), and for all its
relocations, headers, arguments and constructors: `entry` reaches `origin_main`.  There is a memory `m1` that has all the relocations, and differs
from the initial memory in nothing else, such that
* the functions the slots of `.init_array` point to in `m1`, so after relocation, have been called, once each, in order, before `origin_main`, and with the
  same arguments as it: the argument count, and the addresses of the argument and environment pointers on the initial stack;
* before the first of them, all memory of the program is as in `m1`, and the main thread's TLS block holds the relocated TLS image, followed by
  zeros; and memory at the call of `origin_main` is what the constructors made of that;
* the thread pointer is one at which `current()` is the main thread, with the id of the process, and the canary is the kernel's random word. -/
theorem C58_start {p : Program} {s : Space} {m : Mem} {sp : Nat} {argv envp auxv : List (BitVec (8 * p.img.ws))} {ops : List Op} {b : Nat}
    {hs : List Phdr} {lim n : Nat} (H : Started p s m sp argv envp auxv ops b hs lim n) :
    ∃ N r s1, (∀ fuel > N, entry p fuel m sp = some (.main r)) ∧ Applied p.img m ops s1 ∧
      r.args.argc.toNat = argv.length ∧ r.args.argv = sp + p.img.ws ∧ r.args.envp = sp + (argv.length + 2) * p.img.ws ∧
      (p.initArray = true → r.ctors = (slots p n).map fun x => (p.img.ld s1.mem x, r.args)) ∧
      (p.initArray = false → r.ctors = []) ∧
      (∀ x, s x ≠ .unmapped → r.before x = s1.mem x) ∧
      (∀ j, j < (tlsOf p.img.ws b hs).memSize → r.before ((mainTlsBlock (p.cfg b hs) p.map).lo + j) =
        if j < (tlsOf p.img.ws b hs).fileSize then s1.mem ((tlsOf p.img.ws b hs).addr + j) else 0) ∧
      r.mem = r.ctors.foldl (fun m f => p.ctor f.1 f.2 m) r.before ∧
      currentId (p.cfg b hs) r.before r.tp = p.tid ∧ r.canary = p.img.ld m p.randomPtr := by
  have hi : p.img.ws = 4 ∨ p.img.ws = 8 := by rw [H.ws]; cases p.arch <;> simp [Arch.ws]
  have h32 : 32 ≤ 8 * p.img.ws := by omega
  obtain ⟨a1, a2, a3, -, -, -, -⟩ := Boot.C33_args h32 H.stack H.argc
  obtain ⟨N, s1, hr, ha⟩ := todo_run H.todo H.mprotect
  have hp : 0 < p.phent := by
    have := H.phent
    have : 0 < phdrSize p.img.ws := by rcases hi with h | h <;> rw [h] <;> decide
    omega
  have hat : PhdrsAt p.img s1.mem p.phent p.phdr hs := by
    refine PhdrsAt.frame hi H.phent H.headers fun x h1 h2 => ha.others x fun o ho => ?_
    have := H.safeHeaders.2 o ho
    unfold Apart at this
    omega
  have hinfo := startup_eq hi H.bias hp hat H.safeHeaders.1 H.loaded
  have hrand : p.img.ld s1.mem p.randomPtr = p.img.ld m p.randomPtr := by
    refine ldN_congr fun x hx => ha.others _ fun o ho => ?_
    have := H.safeRandom.2 o ho
    unfold Apart at this
    omega
  obtain ⟨out, ho, hO⟩ := H.main.ok s1.mem p.junk
  have h12 := C12_main_tls H.main ho
  have h19 := C19_main_id H.main ho
  have hrt : ∀ fuel > hs.length, initRuntime p fuel s1.mem sp = some (some out) := by
    intro fuel hf
    unfold initRuntime
    rw [H.phnum, hinfo fuel hf, Option.map_some, hrand]
    exact congrArg some ho
  have hw : 0 < p.img.ws := by omega
  have hbefore : ∀ x, s x ≠ .unmapped → out.mem x = s1.mem x := h12.2
  obtain ⟨a, hadef⟩ : ∃ a, Boot.computeArgs p.img.ws (fun x => wordAt p.img.endian p.img.ws m x) sp = a := ⟨_, rfl⟩
  rw [hadef] at a1 a2 a3
  have hloop : ∃ l m', (∀ fuel > n, initStep p a fuel out.mem = some (l, m')) ∧
      (p.initArray = true → l = (slots p n).map fun x => (p.img.ld s1.mem x, a)) ∧ (p.initArray = false → l = []) ∧
      m' = l.foldl (fun m f => p.ctor f.1 f.2 m) out.mem := by
    cases hI : p.initArray with
    | false => exact ⟨[], out.mem, fun fuel _ => by simp [initStep, hI], by simp, by simp, rfl⟩
    | true =>
      have he := H.slots hI
      have e0 := initLoop_eq (a := a) (m0 := s1.mem) H.ctors he hw n 0
      rw [Nat.zero_mul, Nat.add_zero] at e0
      refine ⟨_, _, fun fuel hf => (if_pos hI).trans (e0 fuel out.mem (by omega) (fun x h1 h2 => hbefore x (H.mapped x h1 h2)) hf), fun _ => ?_,
        fun h => (by cases h), ?_⟩
      · simp [slots, List.range_eq_range', Function.comp_def]
      · rw [List.foldl_map, List.foldl_map]
  obtain ⟨l, m', hl1, hl2, hl3, hl4⟩ := hloop
  refine ⟨N + hs.length + n, ⟨l, a, out.mem, m', out.tp, out.guardVar⟩, s1, ?_, ha, a1, a2, a3, hl2, hl3, hbefore, h12.1, hl4, h19.1, hO.guardVar⟩
  intro fuel hf
  have hr' := hr fuel (by omega)
  rw [← a3] at hr'
  unfold entry
  simp only [hadef, hr', Option.bind_some, hrt fuel (show fuel > hs.length by omega), hl1 fuel (show fuel > n by omega)]

/-! ## Non-vacuity: a static position-independent executable with a TLS variable that points to another one, and a constructor

Loaded at `0x10000`: ELF header, headers `PT_DYNAMIC` and `PT_TLS`, dynamic section at `0x10200`, RELA table at `0x10280` with relocations for the TLS
image's word, the `.init_array` slot at `0x10310` and `STATIC_START` at `0x10320`; initial stack at `0x7f000`. -/

/-- Words of memory, by address / 8. -/
def exBootWords : List (Nat × Nat) :=
  [(8195, 4096), (8196, 64), (8197, 0), (8198, 15762873573703680), (8199, 2), (8200, 2), (8201, 512), (8202, 512), (8203, 512), (8204, 64), (8205, 64), (8206, 8), (8207, 7), (8208, 768), (8209, 768), (8210, 768), (8211, 8), (8212, 16), (8213, 8), (8256, 7), (8257, 640), (8258, 8), (8259, 72), (8260, 9), (8261, 24), (8262, 0), (8263, 0), (8272, 768), (8273, 8), (8274, 776), (8275, 784), (8276, 8), (8277, 4352), (8278, 800), (8279, 8), (8280, 4096), (8288, 776), (8289, 0), (8290, 4352), (8291, 0), (8292, 4096), (65024, 1), (65025, 8388352), (65026, 0), (65027, 8386560), (65028, 0), (65029, 6), (65030, 4096), (65031, 9), (65032, 69632), (65033, 0), (65034, 0), (65472, 1234605616436508416)]

def exBootMem : Mem := fun a => BitVec.ofNat 8 (((exBootWords.lookup (a / 8)).getD 0) >>> (8 * (a % 8)))

def exBootSpace : Space := fun x => if x < 0x80000 then .readWrite else .unmapped

def exProgram : Program :=
  { arch := .x86_64, tl := exCfg.tl, img := { ws := 8, endian := .little, rRelative := 8, staticStart := 0x10320, ehdr := 0x10000, dyn := 0x10200 },
    selfRelocate := true, ok := fun _ _ => true, phdr := 0x10040, phent := 56, phnum := 2, page := 4096, execfnEnd := 0x7fff8, randomPtr := 0x7fe00,
    stackLimit := some 0x8000, map := 0x7fff00000000, tid := 1000, junk := fun _ => 0, initArray := true, initStart := 0x10310, initEnd := 0x10318,
    ctor := fun f _ m x => if x = 0x18000 then BitVec.ofNat 8 f else m x }

def exBootTables : Tables := { rela := [⟨0x300, 8, 0x308⟩, ⟨0x310, 8, 0x1100⟩, ⟨0x320, 8, 0x1000⟩], rel := [], relr := [] }

def exBootHeaders : List Phdr := [⟨2, 0x200, 64, 64, 8⟩, ⟨7, 0x300, 8, 16, 8⟩]

theorem exStarted : Started exProgram exBootSpace exBootMem 0x7f000 [0x7fff00] [0x7ff800] [6, 4096, 9, 0x11000, 0]
    (exBootTables.ops 8 0x10000) 0x10000 exBootHeaders 0x8000 1 where
  ws := rfl
  stack := by
    intro i hi
    have : i < 10 := hi
    have h : ∀ i : Fin 10, wordAt .little 8 exBootMem (0x7f000 + i.1 * 8) =
      ([1, 0x7fff00, 0, 0x7ff800, 0, 6, 4096, 9, 0x11000, 0] : List (BitVec 64))[i.1] := by decide
    exact h ⟨i, this⟩
  argc := by decide
  todo := .self (start := 0x1000) (b := 0x10000) (phoff := 0x40) (phent := 56) (env := [0x7ff800]) (aux := [(6, 4096), (9, 0x11000)])
    (d := [(7, 0x280), (8, 72), (9, 24)]) (t := exBootTables) (hs := exBootHeaders) rfl
    { ws := Or.inr rfl
      hb := by decide
      hstart := by decide
      env := ⟨by decide, by decide, by decide, (by decide : WordsAt _ _ _ _)⟩
      launch := .staticPie (by decide) (by decide) (by decide) (by decide)
      distinct := by decide
      dyn := ⟨by decide, (by decide : WordsAt _ _ _ _)⟩
      tables := ⟨⟨by decide, fun _ => ⟨by decide, (by decide : WordsAt _ _ _ _), by decide⟩⟩,
        ⟨by decide, fun h => absurd rfl h⟩, ⟨by decide, fun h => absurd rfl h⟩⟩
      types := ⟨by decide, by decide⟩
      headers := ⟨by decide, by decide, by decide, by decide, by decide, by decide, by decide⟩
      separate := by decide }
  mprotect _ _ := rfl
  bias := by decide
  phent := by decide
  phnum := rfl
  headers := by decide
  safeHeaders := by decide
  loaded := ⟨by decide, by decide, Or.inl ⟨_, List.mem_cons_self, Or.inr rfl⟩⟩
  safeRandom := by decide
  main :=
    { cfg :=
        { layout := ⟨by decide, by decide, by decide, by decide⟩
          pagePow := ⟨12, rfl⟩
          pageMin := by decide
          pageMax := by decide
          tlsPow := ⟨3, rfl⟩
          tlsAlignLe := by decide
          tlsSizes := by decide }
      limitIs := rfl
      topFits := by decide
      limitLe := by decide
      spLow := by decide
      spHigh := by decide
      kernel :=
        { aligned := by decide, nonnull := by decide, nonempty := by decide, fits := by decide,
          fresh := by
            intro x h1 _
            have : 0x7fff00000000 ≤ x := h1
            unfold exBootSpace
            rw [if_neg (by omega)] }
      randomLt := by decide
      tidPos := by decide
      tidLt := by decide
      image := by
        intro j hj
        have : j < 8 := hj
        unfold exBootSpace
        rw [if_pos (by show 0x10300 + j < 0x80000; omega)]
        decide }
  slots _ := rfl
  mapped x _ h := by
    have : x < 0x10318 := h
    unfold exBootSpace
    rw [if_pos (by omega)]
    decide
  ctors f a m x h1 h2 := by
    have : x < 0x10318 := h2
    show (if x = 0x18000 then _ else m x) = m x
    rw [if_neg (by omega)]

/-- The constructor at static address `0x1100` is called at `0x11100`, and `origin_main` gets argc 1. -/
example : ∃ N r, (∀ fuel > N, entry exProgram fuel exBootMem 0x7f000 = some (.main r)) ∧
    r.ctors.map (·.1) = [0x11100] ∧ r.args.argc.toNat = 1 := by
  obtain ⟨N, r, s1, h1, h2, h3, -, -, h6, -⟩ := C58_start exStarted
  refine ⟨N, r, h1, ?_, h3⟩
  rw [h6 rfl]
  have hw : exProgram.img.ld s1.mem 0x10310 = 0x11100 :=
    h2.words (exBootTables.ops 8 0x10000)[1] (List.getElem_mem _)
  simp [slots, hw, exProgram]
  exact hw

end Origin.Elf
