import Verif.Proof.RelocateDebug
import Verif.Props.Relocate
import Verif.Props.Lifecycle
/-!
# C57: debug builds

origin's debug assertions and the overflow checks of debug builds do not fire in a correct program, and a debug build that does not panic does
exactly what a release build does.
-/

namespace Origin.Elf

/-- **C57 (`relocate`, same).** Whatever is in memory, tables of any shape included: if the debug build of `relocate` gets through, the release
build does the same thing: the same stores, the same `mprotect` calls, or the same trap. -/
theorem C57_relocate_same {i : Image} {m : Mem} {envp fuel : Nat} {ok : Nat → Nat → Bool} {o : Out} (h : relocateD i ok fuel m envp = some (.ok o)) :
    relocate i ok fuel m envp = some o := (relocateD_ref i ok fuel m envp).of_ok h

/-- **C57 (`relocate`, no panic).** A well linked program relocates itself in a debug build without a panic, and as in a release build. -/
theorem C57_relocate_no_panic {i : Image} {m : Mem} {envp start b phoff phent : Nat} {env : List Nat} {aux d : List (Nat × Nat)} {t : Tables}
    {hs : List Phdr} (h : Setup i m envp start b env aux d t phoff phent hs) (w : WellLinked i m b start aux d t hs) (ok : Nat → Nat → Bool) :
    ∃ N o, ∀ fuel > N, relocateD i ok fuel m envp = some (.ok o) ∧ relocate i ok fuel m envp = some o := by
  obtain ⟨N, hN⟩ := h.run ok
  refine ⟨N + (env.length + aux.length + (d.length + t.rela.length + t.rel.length + t.relr.length + 8 * i.ws + hs.length)), protect i ok b (lastAux Gabi.AT_PAGESZ aux)
      (((lastPhdr Gabi.PT_GNU_RELRO hs).map fun h => (h.vaddr, h.memsz)).getD (0, 0)) (runOps i ⟨m, [], []⟩ (t.ops i.ws b)), fun fuel hf => ?_⟩
  have hrun := hN fuel (by omega)
  refine ⟨?_, hrun⟩
  rcases relocateD_ref i ok fuel m envp with e | e
  · exfalso
    obtain ⟨k, hk, hpg, hdv⟩ := w.page
    have happ : Applied i m (t.ops i.ws b) (runOps i ⟨m, [], []⟩ (t.ops i.ws b)) := applied_runOps rfl rfl h.separate ops_lt
    have hst : (auxOf aux).base ≠ 0 ∨ loadStaticStart i (runOps i ⟨m, [], []⟩ (t.ops i.ws b)).mem = (auxOf aux).entry := by
      by_cases hb : (auxOf aux).base = 0
      · right
        rw [C36_after happ (w.start hb)]
        cases h.launch with
        | staticPie h1 h2 h3 h4 => exact h2.symm
        | linker h1 h2 h3 => exact absurd (h1.symm.trans hb) h2
      · exact Or.inl hb
    refine relocateWithD_np (ok := ok) (a := auxOf aux) (s := ⟨m, [], []⟩) (fuel := fuel) h.ws h.dyn h.tables h.types h.headers w.relaEnt w.relEnt w.relrEnt
      hk hpg hdv w.dynamic w.relr hst (by omega) ?_
    rw [← e]
    unfold relocateD Boot.computeAuxp
    rw [auxpLoop_ok h.env.nonnull h.env.words (by omega)]
    rw [show ∀ f : Nat → Option (Dbg Out), (some (envp + (env.length + 1) * i.ws) >>= f) = f (envp + (env.length + 1) * i.ws) from fun _ => rfl]
    rw [auxLoop_ok aux _ _ _ h.env.aux (by omega)]
    rw [show ∀ (x : Aux) (f : Aux → Option (Dbg Out)), (some x >>= f) = f x from fun _ _ => rfl]
    have := decision_needed h.hb h.hstart h.launch h.distinct
    dsimp only
    exact (congrArg (fun x => match x with
      | none => some (Dbg.ok (Out.done ⟨m, [], []⟩))
      | some offset => relocateWithD i ok fuel (auxOf aux) offset ⟨m, [], []⟩) this).symm
  · rw [e, hrun]; rfl

/-- **C57 (`relocate`, nothing to do).** A static executable at its static address, and a program relocated by a dynamic linker, start in a debug
build as in a release build: nothing is checked, nothing done. -/
theorem C57_relocate_not_needed {i : Image} {m : Mem} {envp start b : Nat} {env : List Nat} {aux : List (Nat × Nat)} (ok : Nat → Nat → Bool)
    (he : EnvAt i m envp env aux) (h : Launch i.ws start b (i.ld m i.staticStart) (auxOf aux) (ehdrField i m .e_entry) false) :
    ∀ fuel > env.length + aux.length, relocateD i ok fuel m envp = some (.ok (.done ⟨m, [], []⟩)) := by
  intro fuel hf
  have hd : decision i m (auxOf aux) = none := by
    unfold decision loadStaticStart
    cases h with
    | static h1 h2 h3 h4 => rw [if_pos (by rw [h2, h4])]
    | dynamic h1 h2 => rw [if_pos (by rw [h1, h2])]
  unfold relocateD Boot.computeAuxp
  rw [auxpLoop_ok he.nonnull he.words (by omega)]
  rw [show ∀ f : Nat → Option (Dbg Out), (some (envp + (env.length + 1) * i.ws) >>= f) = f (envp + (env.length + 1) * i.ws) from fun _ => rfl]
  rw [auxLoop_ok aux _ _ _ he.aux (by omega)]
  exact (congrArg (fun x => match x with
    | none => some (Dbg.ok (Out.done ⟨m, [], []⟩))
    | some offset => relocateWithD i ok fuel (auxOf aux) offset ⟨m, [], []⟩) hd)

/-- A program with all three kinds of tables and a RELRO segment is well linked. -/
theorem demo_linked : WellLinked demoImage demoMem 0x100 0x40 [(6, 256), (33, 5), (9, 0x140)]
    [(7, 0x130), (8, 48), (9, 24), (17, 0x160), (18, 32), (36, 0x180), (35, 16)] demoTables demoHeaders where
  relaEnt := by decide
  relEnt := by decide
  relrEnt := by decide
  page := ⟨8, by decide, by decide, ⟨1, by decide⟩⟩
  dynamic := by decide
  relr := by simp [RelrInRange, demoTables, demoImage]
  start _ := ⟨_, List.mem_cons_self, by decide, by decide⟩

/-- The program above with `DT_RELAENT` = 16. -/
def demoEntMem : Mem := fun a => BitVec.ofNat 8 ((demoWords.set 59 16).getD (a / 8) 0 >>> (8 * (a % 8)))

example (ok : Nat → Nat → Bool) : ∃ N o, ∀ fuel > N, relocateD demoImage ok fuel demoMem 0 = some (.ok o) ∧ relocate demoImage ok fuel demoMem 0 = some o :=
  C57_relocate_no_panic demo_setup demo_linked ok

/-- The checks are there: with a wrong `DT_RELAENT`, a debug build panics where a release build goes on. -/
example : ∃ s, relocateD demoImage (fun _ _ => true) 100 demoEntMem 0 = some .panic ∧ relocate demoImage (fun _ _ => true) 100 demoEntMem 0 = some (.done s) :=
  ⟨_, rfl, rfl⟩

end Origin.Elf

namespace Origin.Life

/-- **C57 (`join`, for a thread `h` none of whose waiters gets a stray wake-up).** When `join(h)` has finished waiting, `h`'s state is `ABANDONED`, as the
debug assertion at src/thread/linux_raw.rs:851 says. -/
theorem C57_join_assert_partial {sig : Bool} {s : State} {h j : Inst} {a : Nat} (R : Reach sig (OrderlyFor h sig) s)
    (hc : s.call j = some (.loadRet a h)) : ∃ r, s.recs a = some r ∧ r.owner = h ∧ r.detached = .abandoned := by
  have I := R.inv
  have K := I.callOk j _ hc
  obtain ⟨H, h1, h2, -⟩ := K.target
  simp only [Call.target, Call.addr] at h1 h2
  have hcons := K.cons
  simp only [Call.target, Call.kind, Call.phase] at hcons
  have G := (I.ok h H h1).good
  rw [hcons, h2, only_self] at G
  have : ∃ r, s.view a h = some r ∧ r.detached = .abandoned := by
    unfold Good at G
    cases hs : H.stage <;> rw [hs] at G <;> simp [Live, Stuck, Aband, Lost, Over, Det, DetGone, Released, Pending] at G <;> grind
  obtain ⟨r, hr, hd⟩ := this
  exact ⟨r, (view_some hr).1, (view_some hr).2, hd⟩

/-- **C57 (`join`) is false** without the restriction: after a stray wake-up, a debug build of `join` finds the state `INITIAL`, and panics. -/
theorem C57_join_assert_false : ∃ s j h a r, Reach true (fun _ _ => True) s ∧ s.call j = some (.loadRet a h) ∧ s.recs a = some r ∧ r.owner = h ∧
    r.detached = .initial := by
  have h : ((run true (init 100 1) (strayRun.take 20)).map fun s => (s.call 0, s.recs 200)) =
      some (some (.loadRet 200 2), some ⟨2, 3, .initial, 0, true⟩) := by decide
  rw [Option.map_eq_some_iff] at h
  obtain ⟨s, h1, h2⟩ := h
  injection h2 with h2 h3
  exact ⟨s, 0, 2, 200, _, reach_run _ (.init 100 1 (by decide)) h1, h2, h3, rfl, rfl⟩

/-- **C57 (thread exit).** In every history: when the compare-exchange of an exiting thread fails, its state is `DETACHED`, as the debug assertion at
src/thread/linux_raw.rs:719 says. -/
theorem C57_exit_assert {sig : Bool} {s : State} (R : Reach sig Any s) {t : Inst} {T : Thr} {v : Nat} {r : Rec} (hT : s.thr t = some T)
    (hs : T.stage = .cas v) (hr : s.recs T.addr = some r) (ho : r.owner = t) (hf : r.detached ≠ .initial) : r.detached = .detached := by
  have G := (R.any.ok t T hT).good
  rw [view_of hr ho] at G
  unfold Good at G
  rw [hs] at G
  simp [Live, Lost] at G
  grind

/-- **C57 (`current_id`).** In every history: the debug assertion in `current_id`, and the one at the start of every thread (src/thread/linux_raw.rs:971, 671),
that the id in the thread's record is the id the kernel knows the thread by, holds whenever a thread whose memory is mapped runs user code. -/
theorem C57_current_id_assert {sig : Bool} {s : State} (R : Reach sig Any s) {t : Inst} {T : Thr} (hT : s.thr t = some T)
    (hu : s.inUser t T = true) (hm : Mapped s t) : ∃ r, s.recs T.addr = some r ∧ r.owner = t ∧ r.tid = T.tid ∧ T.tid ≠ 0 := by
  have I := R.any
  obtain ⟨-, hus⟩ := inUser_iff hu
  have O := I.ok t T hT
  obtain ⟨r, hr, htid⟩ := (O.good.user_rec hus).resolve_left fun h => (mapped_iff I hT).mp hm h.2
  exact ⟨r, (view_some hr).1, (view_some hr).2, htid, O.tid⟩

/-- A join that has finished waiting is reached. -/
example : ∃ s j h a, Reach true (OrderlyFor h true) s ∧ s.call j = some (.loadRet a h) := by
  have h : ((run true (init 100 1) (strayRun.take 10)).map fun s => s.call 0) = some (some (.loadRet 200 1)) := by decide
  rw [Option.map_eq_some_iff] at h
  obtain ⟨s, h1, h2⟩ := h
  refine ⟨s, 0, 1, 200, ?_, h2⟩
  have key : ∀ (xs : List Action) {s s' : State}, (∀ x ∈ xs, ∀ s, OrderlyFor 1 true s x) → Reach true (OrderlyFor 1 true) s →
      run true s xs = some s' → Reach true (OrderlyFor 1 true) s' := by
    intro xs
    induction xs with
    | nil => intro s s' _ R h; simp [run] at h; subst h; exact R
    | cons x xs ih =>
      intro s s' hx R h
      simp only [run, Option.bind_eq_some_iff] at h
      obtain ⟨s1, h1, h2⟩ := h
      exact ih (fun y hy => hx y (List.mem_cons_of_mem _ hy)) (.step R (hx x List.mem_cons_self s) h1) h2
  refine key _ ?_ (.init 100 1 (by decide)) h1
  intro x hx s
  simp [strayRun] at hx
  refine ⟨?_, .inl rfl⟩
  rcases hx with rfl | rfl | rfl | rfl | rfl | rfl | rfl <;> simp [StrayFor]

end Origin.Life
