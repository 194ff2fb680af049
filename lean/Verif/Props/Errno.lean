import Verif.Model.Errno
import Verif.Props.Main
/-!
# C64: `errno` is a thread-local variable
-/

namespace Origin
open Spec

theorem errno_mem_extents {a : Arch} {t : ThreadLayout} {o : Nat} (h : t.errno = some o) :
    (o, 4) ∈ t.extents a := by
  unfold ThreadLayout.extents ThreadLayout.errnoExtent
  rw [h]; simp

theorem errno_mem_threadVals {a : Arch} {t : ThreadLayout} {o : Nat} (h : t.errno = some o) (p q r s : Nat) :
    (⟨o, 4, 0⟩ : FieldVal) ∈ threadVals a t p q r s := by
  unfold threadVals errnoVals
  rw [h]; simp

/-- `errno_val` does not overlap the id word. -/
theorem errno_tid_disj {a : Arch} {t : ThreadLayout} (hv : t.Valid a) {o : Nat} (h : t.errno = some o) :
    t.tid + 4 ≤ o ∨ o + 4 ≤ t.tid := by
  have hd := hv.disjoint
  unfold ThreadLayout.extents ThreadLayout.errnoExtent at hd
  rw [h] at hd
  have := (List.pairwise_append.mp hd).2.2 (t.tid, 4) (by simp) (o, 4) (by simp)
  exact this

/-- Where `errno_location()` points, on the thread with the record `md`. -/
def errnoSlot (c : Cfg) (md o : Nat) : Nat := md + metaOff c.arch c.tl .thread + o

theorem errnoLocation_eq {c : Cfg} (hc : CfgOk c) {md o : Nat} (hfit : md + metaSize c.arch c.tl < umax c.ws)
    (he : c.tl.errno = some o) : errnoLocation c (pointeeAddr c md) = some (errnoSlot c md o) := by
  obtain ⟨p1, p2, -⟩ := meta_parts c.arch c.tl hc.layout
  have hp : abiOff c.arch .pointee ≤ abiSize c.arch := by
    rw [abiOff_pointee, abiSize_eq]; cases c.arch <;> decide
  have hin : o + 4 ≤ c.tl.size := hc.layout.inside (o, 4) (errno_mem_extents he)
  have e1 : currentMetadata c (pointeeAddr c md) = md := by
    unfold currentMetadata pointeeAddr
    rw [uadd_of_lt (by omega), uwsub_of_le (by omega) (by omega)]
    omega
  unfold errnoLocation threadAddr errnoSlot
  rw [he, e1, Option.map_some, uadd_of_lt (show md + metaOff c.arch c.tl .thread < umax c.ws by omega),
    uadd_of_lt (by omega)]

/-- Invariant of `ErrnoHist`. -/
structure ErrnoInv (c : Cfg) (g : Nat) (m : Mem) (s : Space) (ts : List ErrnoThread) : Prop where
  hist : Hist c g m s (ts.map (·.live))
  tp : ∀ t ∈ ts, t.tp = pointeeAddr c t.live.md
  val : ∀ t ∈ ts, ∀ o, c.tl.errno = some o → ldN c.endian 4 m (errnoSlot c t.live.md o) = t.errno

theorem ErrnoInv.inside {c : Cfg} {g : Nat} {m : Mem} {s : Space} {ts : List ErrnoThread} (I : ErrnoInv c g m s ts)
    {t : ErrnoThread} (ht : t ∈ ts) : t.live.map ≤ t.live.md ∧
      t.live.md + metaSize c.arch c.tl ≤ t.live.map + t.live.len ∧ t.live.len ≤ natRoundUp t.live.len c.page ∧
      t.live.map + natRoundUp t.live.len c.page < umax c.ws := by
  have H := hist_inv I.hist
  obtain ⟨a, b, d⟩ := H.inside t.live (List.mem_map_of_mem ht)
  have q4 := le_natRoundUp (x := t.live.len) (b := c.page) (by have := H.cfg.pageMin; omega)
  exact ⟨a, b, q4, d⟩

theorem ErrnoInv.slot {c : Cfg} {g : Nat} {m : Mem} {s : Space} {ts : List ErrnoThread} (I : ErrnoInv c g m s ts)
    {t : ErrnoThread} (ht : t ∈ ts) {o : Nat} (he : c.tl.errno = some o) :
    errnoLocation c t.tp = some (errnoSlot c t.live.md o) := by
  obtain ⟨a, b, q, d⟩ := I.inside ht
  rw [I.tp t ht]
  exact errnoLocation_eq (hist_inv I.hist).cfg (by omega) he

theorem slot_in {c : Cfg} (hc : CfgOk c) {md o : Nat} (he : c.tl.errno = some o) :
    md ≤ errnoSlot c md o ∧ errnoSlot c md o + 4 ≤ md + metaSize c.arch c.tl ∧
    (errnoSlot c md o + 4 ≤ canaryAddr c md ∨ canaryAddr c md + c.ws ≤ errnoSlot c md o) := by
  obtain ⟨p1, p2, p3⟩ := meta_parts c.arch c.tl hc.layout
  have hin : o + 4 ≤ c.tl.size := hc.layout.inside (o, 4) (errno_mem_extents he)
  have hcan := canary_in c.arch
  have hws : c.ws = c.arch.ws := rfl
  unfold errnoSlot canaryAddr
  omega

theorem errno_inv {c : Cfg} {g : Nat} {m : Mem} {s : Space} {ts : List ErrnoThread} (h : ErrnoHist c g m s ts) :
    ErrnoInv c g m s ts := by
  induction h with
  | @start m s junk i limit out H ho hg =>
    obtain ⟨out', h1, O⟩ := H.ok m junk
    rw [ho] at h1
    injection h1 with h1
    subst h1
    have hd : Hist c g out.mem (spaceAfter c.page s out.calls)
        [⟨(mainRecord c i.map).lo, i.map, (mainAreas c).stop⟩] := Hist.start H ho hg
    have S := H.spot
    have hfit := S.fit
    have hb := (S.ok.bounds H.cfg).header_in
    have eu := H.record_eq
    obtain ⟨p1, -, -⟩ := meta_parts c.arch c.tl H.cfg.layout
    have hp : abiOff c.arch .pointee ≤ abiSize c.arch := by
      rw [abiOff_pointee, abiSize_eq]; cases c.arch <;> decide
    refine ⟨hd, ?_, ?_⟩
    · intro t ht
      rw [List.mem_singleton] at ht
      subst ht
      simp only [eu, O.tp, spotTp, pointeeAddr]
      rw [uadd_of_lt (by have := H.cfg.layout; omega)]
    · intro t ht o he
      rw [List.mem_singleton] at ht
      subst ht
      have hne := errno_tid_disj H.cfg.layout he
      have := O.fields ⟨metaOff c.arch c.tl .thread + o, 4, 0⟩
        (by
          unfold metaVals
          apply List.mem_append_right
          exact List.mem_map.mpr ⟨_, errno_mem_threadVals he _ _ _ _, rfl⟩) (by simp only; omega)
      simp only at this
      simp only [errnoSlot, eu]
      rw [Nat.add_assoc, this]
  | @create m s ts junk k fn args ss gs map tid parent ntp _ hpar H hn ih =>
    have C := H.created m junk parent.tp fn
    have P := H.placed
    have hb2 := P.bounds.m_le_header; have hb4 := P.bounds.header_in
    simp only at hb2 hb4
    have er := H.record_eq
    have hrl := H.record_lt
    obtain ⟨p1, -, -⟩ := meta_parts c.arch c.tl H.cfg.layout
    have hp : abiOff c.arch .pointee ≤ abiSize c.arch := by
      rw [abiOff_pointee, abiSize_eq]; cases c.arch <;> decide
    rw [newThreadPointer_created H m junk parent.tp fn] at hn
    injection hn with hn
    have hd : Hist c g (create c m junk k parent.tp fn args ss gs).mem
        (spaceAfter c.page s (create c m junk k parent.tp fn args ss gs).calls)
        (⟨(record c ss gs map).lo, map, (areas c ss gs).stop⟩ :: ts.map (·.live)) := by
      rw [ih.tp parent hpar]
      exact Hist.create ih.hist (List.mem_map_of_mem hpar) H
    have HI := hist_inv hd
    refine ⟨hd, ?_, ?_⟩
    · intro t ht
      rcases List.mem_cons.mp ht with rfl | ht
      · simp only [er, pointeeAddr]
        rw [uadd_of_lt (by omega), ← hn]; rfl
      · exact ih.tp t ht
    · intro t ht o he
      rcases List.mem_cons.mp ht with rfl | ht
      · have hne := errno_tid_disj H.cfg.layout he
        have := H.thread_field m junk parent.tp fn (f := ⟨o, 4, 0⟩) (errno_mem_threadVals he _ _ _ _)
          (by simp only; omega) (by simp only; decide)
        simp only [errnoSlot, er]
        exact this
      · rw [← ih.val t ht o he]
        obtain ⟨q1, q2, q3, q4⟩ := ih.inside ht
        obtain ⟨w1, w2, -⟩ := slot_in H.cfg (md := t.live.md) he
        have hdj := (List.pairwise_cons.mp HI.disj).1 t.live (List.mem_map_of_mem ht)
        have el : (areas c ss gs).stop = (createLayout c ss gs).mapSize := by rw [H.layout]
        simp only [el] at hdj
        have hms := le_natRoundUp (x := (createLayout c ss gs).mapSize) (b := c.page) (by have := H.cfg.pageMin; omega)
        have s1 := H.spLow; have s2 := C.spHigh
        have hb1 := P.bounds.m_le_tls; have hb3 := P.bounds.tls_in
        simp only at hb1 hb3
        apply ldN_congr
        intro j hj
        apply C.frame <;> omega
  | @store m s ts₁ t ts₂ loc v _ hloc hv ih =>
    have ht : t ∈ ts₁ ++ t :: ts₂ := List.mem_append_right _ List.mem_cons_self
    obtain ⟨o, he⟩ : ∃ o, c.tl.errno = some o := by
      unfold errnoLocation at hloc
      cases h : c.tl.errno with
      | none => rw [h] at hloc; exact absurd hloc (by simp)
      | some o => exact ⟨o, rfl⟩
    have hs := ih.slot ht he
    rw [hloc] at hs
    injection hs with hs
    subst hs
    have HI := hist_inv ih.hist
    obtain ⟨q1, q2, q3, q4⟩ := ih.inside ht
    obtain ⟨w1, w2, w3⟩ := slot_in HI.cfg (md := t.live.md) he
    have hlive : (ts₁ ++ { t with errno := v } :: ts₂).map (·.live) = (ts₁ ++ t :: ts₂).map (·.live) := by simp
    -- the other threads' regions are elsewhere
    have hdj : ∀ u, u ∈ ts₁ ∨ u ∈ ts₂ → t.live.map + natRoundUp t.live.len c.page ≤ u.live.map ∨
        u.live.map + natRoundUp u.live.len c.page ≤ t.live.map := by
      have hd := HI.disj
      rw [List.map_append, List.map_cons, List.pairwise_append, List.pairwise_cons] at hd
      obtain ⟨-, ⟨d2, -⟩, d4⟩ := hd
      intro u hu
      rcases hu with hu | hu
      · have := d4 u.live (List.mem_map_of_mem hu) t.live List.mem_cons_self; omega
      · exact d2 u.live (List.mem_map_of_mem hu)
    have hmem : ∀ u, u ∈ ts₁ ∨ u ∈ ts₂ → u ∈ ts₁ ++ t :: ts₂ := by
      intro u hu
      rcases hu with hu | hu
      · exact List.mem_append_left _ hu
      · exact List.mem_append_right _ (List.mem_cons_of_mem _ hu)
    have hcan := canary_in c.arch
    have hws : c.ws = c.arch.ws := rfl
    obtain ⟨p1, -, -⟩ := meta_parts c.arch c.tl HI.cfg.layout
    refine ⟨?_, ?_, ?_⟩
    · rw [hlive]
      refine Hist.other ih.hist ?_ HI.mapped
      intro u hu i hi
      obtain ⟨u', hu', rfl⟩ := List.mem_map.mp hu
      apply stN_frame
      rcases List.mem_append.mp hu' with h | h
      · obtain ⟨r1, r2, r3, r4⟩ := ih.inside hu'
        have := hdj u' (.inl h)
        unfold canaryAddr; omega
      · rcases List.mem_cons.mp h with rfl | h
        · omega
        · obtain ⟨r1, r2, r3, r4⟩ := ih.inside hu'
          have := hdj u' (.inr h)
          unfold canaryAddr; omega
    · intro u hu
      rcases List.mem_append.mp hu with h | h
      · exact ih.tp u (hmem u (.inl h))
      · rcases List.mem_cons.mp h with rfl | h
        · exact ih.tp t ht
        · exact ih.tp u (hmem u (.inr h))
    · intro u hu o' he'
      have ho : o' = o := by rw [he] at he'; injection he' with h; exact h.symm
      subst ho
      have key : ∀ w, w ∈ ts₁ ∨ w ∈ ts₂ →
          ldN c.endian 4 (stN c.endian 4 m (errnoSlot c t.live.md o') v) (errnoSlot c w.live.md o') = w.errno := by
        intro w hw
        rw [← ih.val w (hmem w hw) o' he]
        obtain ⟨r1, r2, r3, r4⟩ := ih.inside (hmem w hw)
        obtain ⟨x1, x2, -⟩ := slot_in HI.cfg (md := w.live.md) he
        have := hdj w hw
        exact ldN_stN_disj (by omega)
      rcases List.mem_append.mp hu with h | h
      · exact key u (.inl h)
      · rcases List.mem_cons.mp h with rfl | h
        · exact ldN_stN_of_lt hv
        · exact key u (.inr h)
  | @other m s ts m' s' _ hm he hs ih =>
    refine ⟨Hist.other ih.hist ?_ ?_, ih.tp, ?_⟩
    · intro u hu
      obtain ⟨u', hu', rfl⟩ := List.mem_map.mp hu
      exact hm u' hu'
    · intro u hu
      obtain ⟨u', hu', rfl⟩ := List.mem_map.mp hu
      exact hs u' hu'
    · intro t ht o ho
      rw [← ih.val t ht o ho]
      exact ldN_congr fun j hj => he t ht _ (ih.slot ht ho) j hj
  | @free m s ts₁ t ts₂ _ ih =>
    have sub : ∀ u ∈ ts₁ ++ ts₂, u ∈ ts₁ ++ t :: ts₂ := by
      intro u hu
      rcases List.mem_append.mp hu with h | h
      · exact List.mem_append_left _ h
      · exact List.mem_append_right _ (List.mem_cons_of_mem _ h)
    refine ⟨?_, fun u hu => ih.tp u (sub u hu), fun u hu => ih.val u (sub u hu)⟩
    rw [List.map_append]
    have := ih.hist
    rw [List.map_append, List.map_cons] at this
    exact Hist.free this

/-- **C64 (value).** With `unstable-errno`, in every reachable state — any number of creations, exits and
stores by any threads in any order, and anything else that leaves the threads' `errno` slots and canaries
alone — `errno_location()` called on a live thread is a non-null address holding the value that thread last
stored there, or 0 if it has stored none: no other thread's store and no thread's creation or end changes it. -/
theorem C64_errno_value {c : Cfg} {g : Nat} {m : Mem} {s : Space} {ts : List ErrnoThread}
    (hf : c.tl.errno ≠ none) (h : ErrnoHist c g m s ts) (t : ErrnoThread) (ht : t ∈ ts) :
    ∃ loc, errnoLocation c t.tp = some loc ∧ ldN c.endian 4 m loc = t.errno := by
  have I := errno_inv h
  cases he : c.tl.errno with
  | none => exact absurd he hf
  | some o => exact ⟨_, I.slot ht he, I.val t ht o he⟩

/-- **C64 (place).** The four bytes lie in the calling thread's own record, apart from the canary and the
id word the kernel clears at exit, are mapped, and are outside the region of every other live thread. -/
theorem C64_errno_place {c : Cfg} {g : Nat} {m : Mem} {s : Space} {ts₁ ts₂ : List ErrnoThread} {t : ErrnoThread}
    (h : ErrnoHist c g m s (ts₁ ++ t :: ts₂)) {loc : Nat} (hl : errnoLocation c t.tp = some loc) :
    (t.live.md ≤ loc ∧ loc + 4 ≤ t.live.md + metaSize c.arch c.tl) ∧
    (∀ x, loc ≤ x → x < loc + 4 → s x ≠ .unmapped) ∧
    (loc + 4 ≤ canaryAddr c t.live.md ∨ canaryAddr c t.live.md + c.ws ≤ loc) ∧
    (loc + 4 ≤ current c t.tp + c.tl.tid ∨ current c t.tp + c.tl.tid + 4 ≤ loc) ∧
    ∀ u, u ∈ ts₁ ∨ u ∈ ts₂ → loc + 4 ≤ u.live.map ∨ u.live.map + natRoundUp u.live.len c.page ≤ loc := by
  have I := errno_inv h
  have HI := hist_inv I.hist
  have ht : t ∈ ts₁ ++ t :: ts₂ := List.mem_append_right _ List.mem_cons_self
  obtain ⟨o, he⟩ : ∃ o, c.tl.errno = some o := by
    unfold errnoLocation at hl
    cases h : c.tl.errno with
    | none => rw [h] at hl; exact absurd hl (by simp)
    | some o => exact ⟨o, rfl⟩
  have hs := I.slot ht he
  rw [hl] at hs
  injection hs with hs
  subst hs
  obtain ⟨q1, q2, q3, q4⟩ := I.inside ht
  obtain ⟨w1, w2, w3⟩ := slot_in HI.cfg (md := t.live.md) he
  obtain ⟨p1, p2, -⟩ := meta_parts c.arch c.tl HI.cfg.layout
  have hp : abiOff c.arch .pointee ≤ abiSize c.arch := by
    rw [abiOff_pointee, abiSize_eq]; cases c.arch <;> decide
  have hin : o + 4 ≤ c.tl.size := HI.cfg.layout.inside (o, 4) (errno_mem_extents he)
  have hcur : current c t.tp = t.live.md + metaOff c.arch c.tl .thread := by
    rw [I.tp t ht]
    have e1 : currentMetadata c (pointeeAddr c t.live.md) = t.live.md := by
      unfold currentMetadata pointeeAddr
      rw [uadd_of_lt (by omega), uwsub_of_le (by omega) (by omega)]
      omega
    unfold current threadAddr
    rw [e1, uadd_of_lt (by omega)]
  refine ⟨⟨w1, w2⟩, ?_, w3, ?_, ?_⟩
  · intro x h1 h2
    exact HI.mapped t.live (List.mem_map_of_mem ht) x (by omega) (by omega)
  · have := errno_tid_disj HI.cfg.layout he
    rw [hcur]; unfold errnoSlot; omega
  · have hd := HI.disj
    rw [List.map_append, List.map_cons, List.pairwise_append, List.pairwise_cons] at hd
    obtain ⟨-, ⟨d2, -⟩, d4⟩ := hd
    intro u hu
    have : t.live.map + natRoundUp t.live.len c.page ≤ u.live.map ∨
        u.live.map + natRoundUp u.live.len c.page ≤ t.live.map := by
      rcases hu with hu | hu
      · have := d4 u.live (List.mem_map_of_mem hu) t.live List.mem_cons_self; omega
      · exact d2 u.live (List.mem_map_of_mem hu)
    omega

/-- **C64 (distinct).** Two different live threads' `errno` slots do not overlap. -/
theorem C64_errno_distinct {c : Cfg} {g : Nat} {m : Mem} {s : Space} {ts : List ErrnoThread}
    (h : ErrnoHist c g m s ts) :
    ts.Pairwise fun t u => ∀ a b, errnoLocation c t.tp = some a → errnoLocation c u.tp = some b →
      a + 4 ≤ b ∨ b + 4 ≤ a := by
  have I := errno_inv h
  have HI := hist_inv I.hist
  have hd := HI.disj
  rw [List.pairwise_map] at hd
  refine List.Pairwise.imp_of_mem ?_ hd
  intro t u ht hu htu a b ha hb
  cases he : c.tl.errno with
  | none => unfold errnoLocation at ha; rw [he] at ha; exact absurd ha (by simp)
  | some o =>
    have h1 := I.slot ht he; have h2 := I.slot hu he
    rw [ha] at h1; rw [hb] at h2
    injection h1 with h1; injection h2 with h2
    obtain ⟨q1, q2, q3, q4⟩ := I.inside ht
    obtain ⟨r1, r2, r3, r4⟩ := I.inside hu
    obtain ⟨w1, w2, -⟩ := slot_in HI.cfg (md := t.live.md) he
    obtain ⟨x1, x2, -⟩ := slot_in HI.cfg (md := u.live.md) he
    omega

/-- **C11 (errno), exact condition.** On a created thread `errno_location()` is aligned for an `i32` iff the
target keeps TLS data above the record or the rounded TLS size is a multiple of 4: like the record's own
alignment (`C11_record_aligned_iff`), false on x86/x86-64 with byte- or 2-aligned TLS data. -/
theorem C11_errno_aligned_iff {c : Cfg} {s : Space} {k : Answers} {args : List Nat} {ss gs map tid : Nat}
    (H : Creation c s k args ss gs map tid) (m : Mem) (junk : Nat → Byte) (tp fn : Nat) (hf : c.tl.errno ≠ none) :
    ∃ ntp loc, newThreadPointer (create c m junk k tp fn args ss gs).calls = some ntp ∧
      errnoLocation c ntp = some loc ∧
      (4 ∣ loc ↔ (c.arch.variantI = true ∨ 4 ∣ natRoundUp c.tls.memSize c.tls.align)) := by
  obtain ⟨o, he⟩ : ∃ o, c.tl.errno = some o := by
    cases h : c.tl.errno with
    | none => exact absurd h hf
    | some o => exact ⟨o, rfl⟩
  have S := H.spot
  have hrl := H.record_lt
  obtain ⟨p1, -, -⟩ := meta_parts c.arch c.tl H.cfg.layout
  have hp : abiOff c.arch .pointee ≤ abiSize c.arch := by
    rw [abiOff_pointee, abiSize_eq]; cases c.arch <;> decide
  have htp : newTp c ss gs map = pointeeAddr c (map + (createLayout c ss gs).header) := by
    unfold newTp pointeeAddr; rw [uadd_of_lt (by omega)]
  refine ⟨_, errnoSlot c (map + (createLayout c ss gs).header) o, newThreadPointer_created H m junk tp fn, ?_, ?_⟩
  · rw [htp]; exact errnoLocation_eq H.cfg hrl he
  have h4w : 4 ∣ c.arch.ws := by cases c.arch <;> decide
  have h4m : 4 ∣ metaAlign c.arch := by rw [metaAlign_eq]; cases c.arch <;> decide
  have h4md := Nat.dvd_trans h4m (metaAlign_dvd_md H.cfg)
  have h4p : 4 ∣ map := Nat.dvd_trans (Nat.dvd_trans h4md (md_dvd_page H.cfg)) S.page
  have h4o : 4 ∣ o := H.cfg.layout.aligned (o, 4) (errno_mem_extents he)
  obtain ⟨l1, l2⟩ := meta_layout c.arch c.tl H.cfg.layout
  have h4t : 4 ∣ metaOff c.arch c.tl .thread := by
    cases hv : c.arch.variantI with
    | true => rw [(l1 hv).1]; exact Nat.dvd_zero _
    | false => rw [(l2 hv).2.1]; cases c.arch <;> decide
  have e : errnoSlot c (map + (createLayout c ss gs).header) o =
      (createLayout c ss gs).header + (map + metaOff c.arch c.tl .thread + o) := by unfold errnoSlot; omega
  rw [e, Nat.dvd_add_left (Nat.dvd_add (Nat.dvd_add h4p h4t) h4o)]
  cases hv : c.arch.variantI with
  | true =>
    exact ⟨fun _ => .inl rfl, fun _ => Nat.dvd_trans h4md ((S.ok.bounds H.cfg).headerAligned hv)⟩
  | false =>
    obtain ⟨q1, q2, -⟩ := S.ok.varII hv
    simp only at q1 q2
    have : 4 ∣ (createLayout c ss gs).tlsBottom := Nat.dvd_trans h4md (q1 ▸ dvd_natRoundUp _ _)
    rw [q2, Nat.dvd_add_right this]
    simp

/-! ### non-vacuity -/

/-- `exCfg` with the feature on: `errno_val` after `detached`, 4-aligned. -/
def exCfgErrno : Cfg := { exCfg with tl := { exCfg.tl with errno := some 48 } }

theorem exCfgErrno_ok : CfgOk exCfgErrno where
  layout := ⟨by decide, by decide, by decide, by decide⟩
  pagePow := ⟨12, rfl⟩
  pageMin := by decide
  tlsPow := ⟨4, rfl⟩
  tlsAlignLe := by decide
  tlsSizes := by decide
  pageMax := by decide

theorem exMainErrno : MainStart exCfgErrno exSpace exMain 0x800000 where
  cfg := exCfgErrno_ok
  limitIs := rfl
  topFits := by decide
  limitLe := by decide
  spLow := by decide
  spHigh := by decide
  kernel :=
    { aligned := by decide, nonnull := by decide, nonempty := by decide, fits := by decide,
      fresh := by
        intro x h1 _
        have : 0x7fff00000000 ≤ x := h1
        unfold exSpace
        rw [if_neg (by omega)] }
  randomLt := by decide
  tidPos := by decide
  tidLt := by decide
  image := exCreation.image

/-- A history with two live threads, one of which has stored 11 (`EAGAIN`) in its `errno`. -/
theorem exErrnoHist : ∃ m s a b, ErrnoHist exCfgErrno exMain.random m s [a, b] ∧ a.errno = 11 ∧ b.errno = 0 := by
  obtain ⟨out, h1, O⟩ := exMainErrno.ok (fun _ => 0) (fun _ => 0)
  have h0 := ErrnoHist.start exMainErrno h1 O.guardVar
  have hk : Creation exCfgErrno (spaceAfter exCfgErrno.page exSpace out.calls)
      { mmap := .ok 0x7f0000000000, mprotect := .ok (), clone := 1234 } [1, 0, 0xdeadbeef] 0x20000 0x4000
      0x7f0000000000 1234 := by
    refine { cfg := exCfgErrno_ok, fits := exCreation.fits, mmapOk := rfl, mprotectOk := rfl, cloneOk := rfl,
             tidPos := by decide, tidLt := by decide, argsFit := exCreation.argsFit,
             argsWords := exCreation.argsWords, kernel := ?_, image := ?_ }
    · refine { aligned := by decide, nonnull := by decide, nonempty := by decide, fits := by decide, fresh := ?_ }
      intro x q1 q2
      have hx : x < 0x7fff00000000 := Nat.lt_trans q2 (by decide)
      rw [O.calls]
      simp only [spaceAfter, List.foldl, applySys, setPerm]
      rw [if_neg (by intro h; have := h.1; simp only [exMain] at this; omega)]
      exact exCreation.kernel.fresh x q1 q2
    · intro j hj
      rw [O.calls]
      simp only [spaceAfter, List.foldl, applySys, setPerm]
      split
      · decide
      · exact exCreation.image j hj
  have h2 := ErrnoHist.create (junk := fun _ => 0) (fn := 7) h0 (List.mem_singleton.mpr rfl) hk
    (newThreadPointer_created hk _ _ _ _)
  obtain ⟨loc, hl, -⟩ := C64_errno_value (by decide) h2 _ List.mem_cons_self
  have h3 := ErrnoHist.store (ts₁ := []) (v := 11) h2 hl (by decide)
  exact ⟨_, _, _, _, h3, rfl, rfl⟩

example : exCfgErrno.tl.errno ≠ none := by decide

/-- `C64_errno_place` and `C64_errno_distinct` apply to that history. -/
example : ∃ m s a b, ErrnoHist exCfgErrno exMain.random m s ([a] ++ b :: []) ∧
    (∃ loc, errnoLocation exCfgErrno b.tp = some loc) ∧
    ([a, b].Pairwise fun t u => ∀ x y, errnoLocation exCfgErrno t.tp = some x →
      errnoLocation exCfgErrno u.tp = some y → x + 4 ≤ y ∨ y + 4 ≤ x) := by
  obtain ⟨m, s, a, b, h, -, -⟩ := exErrnoHist
  obtain ⟨loc, hl, -⟩ := C64_errno_value (by decide) h b (by simp)
  exact ⟨m, s, a, b, h, ⟨loc, hl⟩, C64_errno_distinct h⟩

end Origin
