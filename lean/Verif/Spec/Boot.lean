import Verif.Model.Boot
import Verif.Spec.Relocate
import Verif.Spec.Startup
import Verif.Spec.Layout
/-!
# Vocabulary for program start as a whole
-/

namespace Origin.Elf
open Origin.Spec

/-- The TLS segment the program headers `hs` describe, with load bias `b` (no segment: nothing, with alignment 1). -/
def tlsOf (ws b : Nat) (hs : List Phdr) : TlsInfo :=
  match lastPhdr Gabi.PT_TLS hs with
  | some h => { addr := dyna ws b h.vaddr, memSize := h.memsz, fileSize := h.filesz, align := h.align }
  | none => { addr := 1, memSize := 0, fileSize := 0, align := 1 }

/-- The stack size they ask for. -/
def stackOf (hs : List Phdr) : Nat := ((lastPhdr Gabi.PT_GNU_STACK hs).map Phdr.memsz).getD 0

/-- The configuration of the process. -/
def Program.cfg (p : Program) (b : Nat) (hs : List Phdr) : Cfg :=
  { arch := p.arch, endian := p.img.endian, page := p.page, tls := tlsOf p.img.ws b hs, startupStackSize := stackOf hs, tl := p.tl }

/-- The relocations there are to do, for a program with initial stack at `envp`: none, if it does not relocate itself at all or finds that it is
where it was linked to be, or has been relocated; else those of its tables. -/
inductive Todo (p : Program) (m : Mem) (envp : Nat) : List Op → Prop
  | no : p.selfRelocate = false → Todo p m envp []
  | done {start b : Nat} {env : List Nat} {aux : List (Nat × Nat)} : p.selfRelocate = true → EnvAt p.img m envp env aux →
      Launch p.img.ws start b (p.img.ld m p.img.staticStart) (auxOf aux) (ehdrField p.img m .e_entry) false → Todo p m envp []
  | self {start b phoff phent : Nat} {env : List Nat} {aux d : List (Nat × Nat)} {t : Tables} {hs : List Phdr} : p.selfRelocate = true →
      Setup p.img m envp start b env aux d t phoff phent hs → Todo p m envp (t.ops p.img.ws b)

/-- The addresses of the `.init_array` slots. -/
def slots (p : Program) (n : Nat) : List Nat := (List.range n).map fun j => p.initStart + j * p.img.ws

/-- A process as the kernel starts it, in address space `s`: `m` is its memory, `argv`, `envp`, `auxv` the words of the initial stack at `sp`; `hs` are
its program headers and `b` its load bias; `ops` are the relocations to do, none of which touches program headers or `AT_RANDOM`'s bytes; its
`.init_array` has `n` slots, and no constructor changes them. -/
structure Started (p : Program) (s : Space) (m : Mem) (sp : Nat) (argv envp auxv : List (BitVec (8 * p.img.ws))) (ops : List Op) (b : Nat) (hs : List Phdr)
    (lim n : Nat) : Prop where
  ws : p.img.ws = p.arch.ws
  stack : Boot.InitialStack p.img.ws (fun x => wordAt p.img.endian p.img.ws m x) sp argv envp auxv
  argc : argv.length < 2 ^ 31
  todo : Todo p m (sp + (argv.length + 2) * p.img.ws) ops
  mprotect : ∀ a l, p.ok a l = true
  bias : b < 2 ^ (8 * p.img.ws)
  phent : phdrSize p.img.ws ≤ p.phent
  phnum : p.phnum = hs.length
  headers : PhdrsAt p.img m p.phent p.phdr hs
  safeHeaders : Safe p.img.ws ops p.phdr (hs.length * p.phent)
  loaded : Loaded p.img b p.phdr hs
  safeRandom : Safe p.img.ws ops p.randomPtr p.img.ws
  main : MainStart (p.cfg b hs) s
    { sp := sp, execfnEnd := p.execfnEnd, stackLimit := p.stackLimit, random := p.img.ld m p.randomPtr, map := p.map, tid := p.tid } lim
  slots : p.initArray = true → p.initEnd = p.initStart + n * p.img.ws
  mapped : ∀ x, p.initStart ≤ x → x < p.initStart + n * p.img.ws → s x ≠ .unmapped
  ctors : ∀ f a m x, p.initStart ≤ x → x < p.initStart + n * p.img.ws → p.ctor f a m x = m x

end Origin.Elf
