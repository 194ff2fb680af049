import Verif.Model.Layout
/-!
# The libc backend: `create`, `join`, `detach`, `at_exit`

src/thread/libc.rs and src/program/libc.rs (builds without `take-charge`), over a model of the libc functions that they call: the
heap (`malloc`, `free`), threads (`pthread_create`, `pthread_join`, `pthread_detach`), exit handlers (`__cxa_thread_atexit_impl`,
`__cxa_atexit`).  Histories interleave any number of threads, other users of the heap, and other memory traffic.

Simplifications: memory accesses are atomic per `create` / per start of a thread (nobody else may touch a block that is owned by
origin, so finer interleaving shows no more); `pthread_attr_t` is the two numbers stored in it.  `stack`, `default_*_size`
and `sigaction` are in `Model/Libc2.lean`.  Not modelled: `current_id`, `errno_location`, `current_tls_addr`, `yield_current`, which pass libc's
answers on.
-/

namespace Origin.Libc

/-- A block of the heap.  `mine`: allocated by `create` (bookkeeping only).  (src/thread/libc.rs:127, 155.) -/
structure Block where
  addr : Nat
  size : Nat
  mine : Bool
deriving DecidableEq, Repr

/-- What happens in a thread that `create` made, for the thread with index `i`.  (src/thread/libc.rs:124, 127, 130, 202-209.) -/
inductive Ev where
  /-- the user's function is called with these arguments -/
  | called (i fn : Nat) (args : List Nat)
  /-- it returns -/
  | returned (i : Nat) (rv : Option Nat)
  /-- `free` of this address -/
  | freed (i p : Nat)
  /-- `join` returns this value -/
  | joined (i : Nat) (rv : Option Nat)
deriving DecidableEq, Repr

/-- State of a thread made by `pthread_create` (src/thread/libc.rs:168): not started, in `start` (lines 110-135), returned from it, joined (line 206).
-/
inductive TState where
  | new | running
  /-- `start` returned this pointer -/
  | done (raw : Nat)
  | joined
deriving DecidableEq, Repr

/-- A thread made by `pthread_create`: its `pthread_t`, the argument for `start`, stack and guard size of the attributes.  `fn`, `args`,
`detached`: bookkeeping of what the caller of `create` asked for and did.  (src/thread/libc.rs:138-168.) -/
structure Thread where
  handle : Nat
  ptr : Nat
  stack : Nat
  guard : Nat
  fn : Nat
  args : List Nat
  detached : Bool
  st : TState
deriving DecidableEq, Repr

/-- The process.  `bad`: there was a `free` of an address that is not an allocated block.  Not in /repo: what libc keeps, between the calls at
src/thread/libc.rs:127, 155, 168, 190, 206. -/
structure World where
  mem : Mem
  live : List Block
  threads : List Thread
  ev : List Ev
  bad : Bool

/-- What libc answers during one `create`: 0 or an error number, an address or null, a handle or an error number.  src/thread/libc.rs:139, 143, 147,
155, 168. -/
structure Answers where
  attrInit : Nat
  setStack : Nat
  setGuard : Nat
  malloc : Nat
  create : Except Nat Nat

/-- `ENOMEM`.  src/thread/libc.rs:157. -/
def ENOMEM : Nat := 12

/-- `create`: src/thread/libc.rs:137-174. -/
def create (e : Endian) (ws : Nat) (w : World) (a : Answers) (fn : Nat) (args : List Nat) (stack guard : Nat) :
    World × Except Nat Nat :=
  if a.attrInit ≠ 0 then (w, .error a.attrInit)
  else if a.setStack ≠ 0 then (w, .error a.setStack)
  else if a.setGuard ≠ 0 then (w, .error a.setGuard)
  else if a.malloc = 0 then (w, .error ENOMEM)
  else
    let w := { w with live := ⟨a.malloc, umul ws (uadd ws args.length 2) ws, true⟩ :: w.live
                      mem := stWords e ws w.mem a.malloc (args.length :: fn :: args) }
    match a.create with
    | .error err => (w, .error err)
    | .ok h => ({ w with threads := w.threads ++ [⟨h, a.malloc, stack, guard, fn, args, false, .new⟩] }, .ok h)

/-- `libc::free`.  (libc's; called at src/thread/libc.rs:127.) -/
def free (w : World) (p : Nat) : World :=
  if w.live.any (·.addr = p) then { w with live := w.live.eraseP (·.addr = p) } else { w with bad := true }

/-- Bookkeeping: the thread with index `i` becomes `t` (libc's side of src/thread/libc.rs:168, 190, 206). -/
def setT (w : World) (i : Nat) (t : Thread) : World := { w with threads := w.threads.set i t }

/-- `start` up to the call of the user's function: src/thread/libc.rs:110-124. -/
def begin (e : Endian) (ws : Nat) (w : World) (i : Nat) (t : Thread) : World :=
  let n := ldN e ws w.mem t.ptr
  let fn := ldN e ws w.mem (t.ptr + ws)
  let args := (List.range n).map fun j => ldN e ws w.mem (t.ptr + ws * (2 + j))
  { setT w i { t with st := .running } with ev := .called i fn args :: w.ev }

/-- `Option<NonNull<c_void>>` to pointer: src/thread/libc.rs:130-133. -/
def toRaw : Option Nat → Nat
  | some p => p
  | none => 0

/-- `NonNull::new`.  src/thread/libc.rs:208. -/
def nonNull (p : Nat) : Option Nat := if p = 0 then none else some p

/-- The rest of `start`, when the function has returned `rv`: src/thread/libc.rs:124-134. -/
def finish (w : World) (i : Nat) (t : Thread) (rv : Option Nat) : World :=
  let w := free w t.ptr
  { setT w i { t with st := .done (toRaw rv) } with ev := .freed i t.ptr :: .returned i rv :: w.ev }

/-- `join`, when the thread is done: src/thread/libc.rs:202-209 (`pthread_join` stores `start`'s result). -/
def join (w : World) (i : Nat) (t : Thread) (raw : Nat) : World :=
  { setT w i { t with st := .joined } with ev := .joined i (nonNull raw) :: w.ev }

/-- `detach`: src/thread/libc.rs:187-191. -/
def detach (w : World) (i : Nat) (t : Thread) : World := setT w i { t with detached := true }

/-- Two blocks do not overlap (what `malloc` guarantees, src/thread/libc.rs:155). -/
def Block.Disj (b c : Block) : Prop := b.addr + b.size ≤ c.addr ∨ c.addr + c.size ≤ b.addr

/-- libc and the rest of the program, one step at a time.  src/thread/libc.rs:102-209. -/
inductive Step (e : Endian) (ws : Nat) : World → World → Prop where
  /-- A call of `create`.  The arguments are words (`args` is a slice in memory, so its size is well below the address space); a block that
  `malloc` returns is as large as demanded and apart from all others. -/
  | create {w : World} {a : Answers} {fn : Nat} {args : List Nat} {stack guard : Nat}
      (hlen : (args.length + 2) * ws < umax ws) (hfn : fn < umax ws) (hargs : ∀ v ∈ args, v < umax ws)
      (hm : a.malloc ≠ 0 → a.malloc + (args.length + 2) * ws ≤ umax ws ∧
        ∀ b ∈ w.live, b.Disj ⟨a.malloc, (args.length + 2) * ws, true⟩) :
      Step e ws w (create e ws w a fn args stack guard).1
  | begin {w : World} {i : Nat} {t : Thread} (hi : w.threads[i]? = some t) (ht : t.st = .new) : Step e ws w (begin e ws w i t)
  /-- The function returns a valid `Option<NonNull<_>>`. -/
  | finish {w : World} {i : Nat} {t : Thread} {rv : Option Nat} (hi : w.threads[i]? = some t) (ht : t.st = .running) (hr : rv ≠ some 0) :
      Step e ws w (finish w i t rv)
  /-- `join` waits for the thread to be done; it may not be used after `detach` or `join`. -/
  | join {w : World} {i : Nat} {t : Thread} {raw : Nat} (hi : w.threads[i]? = some t) (ht : t.st = .done raw) (hd : t.detached = false) :
      Step e ws w (join w i t raw)
  | detach {w : World} {i : Nat} {t : Thread} (hi : w.threads[i]? = some t) (hd : t.detached = false) (ht : t.st ≠ .joined) :
      Step e ws w (detach w i t)
  /-- Anybody else allocates. -/
  | alloc {w : World} {b : Block} (hb : b.mine = false) (h0 : 0 < b.size) (hd : ∀ c ∈ w.live, c.Disj b) :
      Step e ws w { w with live := b :: w.live }
  /-- Anybody else frees one of their blocks. -/
  | dealloc {w : World} {b : Block} (hb : b ∈ w.live) (hm : b.mine = false) : Step e ws w { w with live := w.live.erase b }
  /-- Memory changes: not in `create`'s blocks, other than by a running thread in its own. -/
  | write {w : World} {m : Mem}
      (h : ∀ b ∈ w.live, b.mine = true → (∀ t ∈ w.threads, t.st = .running → t.ptr ≠ b.addr) →
        ∀ x, b.addr ≤ x → x < b.addr + b.size → m x = w.mem x) :
      Step e ws w { w with mem := m }

/-- Histories.  (Of the calls of src/thread/libc.rs:102-209.) -/
inductive Reach (e : Endian) (ws : Nat) : World → Prop where
  | init (m : Mem) : Reach e ws ⟨m, [], [], [], false⟩
  | step {w w' : World} (h : Reach e ws w) (s : Step e ws w w') : Reach e ws w'

/-! ### exit handlers -/

/-- `Box::new` puts the closure (a number) at an address; libc keeps a list of the addresses registered.  src/thread/libc.rs:223-225,
src/program/libc.rs:39-60. -/
structure Handlers where
  boxes : List (Nat × Nat)
  registered : List Nat
  /-- closures run, newest first -/
  ran : List Nat
  bad : Bool

/-- `at_exit`: src/thread/libc.rs:213-227 and src/program/libc.rs:39-60.  `p`: the address of the new box. -/
def atExit (h : Handlers) (p f : Nat) : Handlers := { h with boxes := (p, f) :: h.boxes, registered := p :: h.registered }

/-- `call` / `at_exit_func`: take the closure out of its box, freeing the box, and run it: src/thread/libc.rs:214-220,
src/program/libc.rs:53-55. -/
def callBox (h : Handlers) (p : Nat) : Handlers :=
  match h.boxes.find? (·.1 = p) with
  | some (_, f) => { h with boxes := h.boxes.eraseP (·.1 = p), ran := f :: h.ran }
  | none => { h with bad := true }

/-- Registrations (each box is at an address where there is no other), and libc calling its newest registered handler, in any order (a handler
can register more).  `stack`: the closures registered and not yet run, newest first; `ran`: those that are to have run, newest first.
src/thread/libc.rs:213-227, src/program/libc.rs:39-60. -/
inductive HReach : Handlers → List Nat → List Nat → Prop where
  | init : HReach ⟨[], [], [], false⟩ [] []
  | reg {h : Handlers} {stack ran : List Nat} {p f : Nat} (r : HReach h stack ran) (hp : ∀ b ∈ h.boxes, b.1 ≠ p) :
      HReach (atExit h p f) (f :: stack) ran
  | call {h : Handlers} {f : Nat} {stack ran : List Nat} {p : Nat} {ps : List Nat} (r : HReach h (f :: stack) ran)
      (hr : h.registered = p :: ps) : HReach (callBox { h with registered := ps } p) stack (f :: ran)

end Origin.Libc
