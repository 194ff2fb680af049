import Verif.Model.TlsVars
import Verif.Props.Main
/-!
# C76: thread-local variables
-/

namespace Origin
open Spec

/-- Both ways lead to the block at a spot. -/
theorem spot_varAddr {c : Cfg} {map m0 : Nat} {t : TlsSize} (H : Spot c map m0 t) {r : Route} (hr : RouteOk c r)
    {off : Nat} (ho : off < c.tls.memSize) :
    varAddr c r (spotTp c map t) off = some (map + t.tlsBottom + off) := by
  have B := H.ok.bounds H.cfg
  have hfit := H.fit; have hb := B.tls_in
  cases r with
  | compiled =>
    unfold varAddr
    simp only [Option.some.injEq, Nat.add_right_cancel_iff]
    refine ((spot_abi_location_iff H).mpr ?_).symm
    have key : c.arch.variantI = true → c.tls.align ∣ metaOff c.arch c.tl .abi + abiOff c.arch .pointee →
        c.tls.align ∣ spotTp c map t := by
      intro hv h
      have h1 : c.tls.align ∣ map := Nat.dvd_trans (pow_dvd_of_le H.cfg.tlsPow H.cfg.pagePow H.cfg.tlsAlignLe) H.page
      have h2 : c.tls.align ∣ t.header := by
        refine Nat.dvd_trans ?_ (B.headerAligned hv)
        exact pow_dvd_of_le H.cfg.tlsPow (max_pow H.cfg.tlsPow (metaAlign_pow c.arch)) (Nat.le_max_left _ _)
      exact Nat.dvd_add (Nat.dvd_add h1 h2) h
    unfold RouteOk at hr
    cases ha : c.arch <;> simp only [ha] at hr key ⊢
    · exact Nat.dvd_add (key rfl hr) (dvd_natRoundUp _ _)
    · exact key rfl hr
  | dynamic =>
    have hu : abiDtvOffset c.arch ≤ umax c.ws := by
      have := H.cfg.pageMax; have := H.cfg.pageMin
      have : abiDtvOffset c.arch ≤ 0x800 := by cases c.arch <;> decide
      omega
    have hpos : 0 < umax c.ws := by omega
    unfold varAddr
    simp only
    rw [((spot_tls_addr_iff' H).mpr hr) (dtvOffset c off), Option.some.injEq, ← tlsOffset_abi]
    unfold dtvOffset
    rw [Nat.add_mod_mod]
    have e : map + t.tlsBottom + abiDtvOffset c.arch + (off + umax c.ws - abiDtvOffset c.arch) =
        map + t.tlsBottom + off + umax c.ws := by omega
    rw [e, Nat.add_mod_right]
    exact Nat.mod_eq_of_lt (by omega)

/-- Where a thread's block is. -/
structure TlsPlace (c : Cfg) (t : TlsThread) (b : Nat) : Prop where
  lo : t.live.map ≤ b
  hi : b + c.tls.memSize ≤ t.live.map + t.live.len
  apart : b + c.tls.memSize ≤ t.live.md ∨ t.live.md + metaSize c.arch c.tl ≤ b
  routes : ∀ r, RouteOk c r → ∀ off, off < c.tls.memSize → varAddr c r t.tp off = some (b + off)

/-- Invariant of `TlsHist`. -/
structure TlsInv (c : Cfg) (g : Nat) (img : Nat → Byte) (R : Route → Prop) (m : Mem) (s : Space)
    (ts : List TlsThread) : Prop where
  hist : Hist c g m s (ts.map (·.live))
  tp : ∀ t ∈ ts, t.tp = pointeeAddr c t.live.md
  place : ∀ t ∈ ts, ∃ b, TlsPlace c t b ∧ ((∃ r, R r) → ∀ off, off < c.tls.memSize → m (b + off) = t.vals off)
  img : ∀ j, j < c.tls.fileSize → m (c.tls.addr + j) = img j
  apart : ∀ t ∈ ts, ∀ j, j < c.tls.fileSize →
    c.tls.addr + j < t.live.map ∨ t.live.map + natRoundUp t.live.len c.page ≤ c.tls.addr + j

theorem TlsInv.inside {c : Cfg} {g : Nat} {img : Nat → Byte} {R : Route → Prop} {m : Mem} {s : Space}
    {ts : List TlsThread} (I : TlsInv c g img R m s ts) {t : TlsThread} (ht : t ∈ ts) :
    t.live.map ≤ t.live.md ∧ t.live.md + metaSize c.arch c.tl ≤ t.live.map + t.live.len ∧
      t.live.len ≤ natRoundUp t.live.len c.page ∧ t.live.map + natRoundUp t.live.len c.page < umax c.ws := by
  have H := hist_inv I.hist
  obtain ⟨a, b, d⟩ := H.inside t.live (List.mem_map_of_mem ht)
  have q4 := le_natRoundUp (x := t.live.len) (b := c.page) (by have := H.cfg.pageMin; omega)
  exact ⟨a, b, q4, d⟩

theorem tls_inv {c : Cfg} {g : Nat} {img : Nat → Byte} {R : Route → Prop} (hR : ∀ r, R r → RouteOk c r)
    {m : Mem} {s : Space} {ts : List TlsThread} (h : TlsHist c g img R m s ts) : TlsInv c g img R m s ts := by
  induction h with
  | @start m s junk i limit out H ho hg hi =>
    have hd : Hist c g out.mem (spaceAfter c.page s out.calls)
        [⟨(mainRecord c i.map).lo, i.map, (mainAreas c).stop⟩] := Hist.start H ho hg
    obtain ⟨hval, hfr⟩ := C12_main_tls H ho
    obtain ⟨out', h1, O⟩ := H.ok m junk
    rw [ho] at h1
    injection h1 with h1
    subst h1
    have S := H.spot
    have B := S.ok.bounds H.cfg
    have hfit := S.fit
    have hb := B.header_in; have hb2 := B.tls_in; have hb3 := B.disj
    have eu := H.record_eq; have et := H.tls_eq
    have el : (mainAreas c).stop = (calculateTlsSize c 0).mapSize := by rw [H.layout]
    obtain ⟨p1, -, -⟩ := meta_parts c.arch c.tl H.cfg.layout
    have hp : abiOff c.arch .pointee ≤ abiSize c.arch := by
      rw [abiOff_pointee, abiSize_eq]; cases c.arch <;> decide
    refine ⟨hd, ?_, ?_, ?_, ?_⟩
    · intro t ht
      rw [List.mem_singleton] at ht
      subst ht
      simp only [eu, O.tp, spotTp, pointeeAddr]
      rw [uadd_of_lt (by omega)]
    · intro t ht
      rw [List.mem_singleton] at ht
      subst ht
      refine ⟨(mainTlsBlock c i.map).lo, ⟨?_, ?_, ?_, ?_⟩, ?_⟩
      · simp only [et]; omega
      · simp only [et, el]; omega
      · simp only [et, eu]; omega
      · intro r hr off hoff
        simp only [O.tp, et]
        exact spot_varAddr S hr hoff
      · intro _ off hoff
        rw [hval off hoff]
        unfold tlsInitial
        by_cases h : off < c.tls.fileSize
        · simp only [if_pos h]; exact hi off h
        · simp only [if_neg h]
    · intro j hj
      rw [hfr _ (H.image j hj)]; exact hi j hj
    · intro t ht j hj
      rw [List.mem_singleton] at ht
      subst ht
      simp only
      have hm := H.image j hj
      by_cases g1 : c.tls.addr + j < i.map
      · exact .inl g1
      by_cases g2 : i.map + natRoundUp (mainAreas c).stop c.page ≤ c.tls.addr + j
      · exact .inr g2
      exact absurd (H.kernel.fresh _ (by omega) (by omega)) hm
  | @create m s ts junk k fn args ss gs map tid parent ntp _ hpar H hn ih =>
    have C := H.created m junk parent.tp fn
    have P := H.placed
    have S := H.spot
    have B := P.bounds
    have hb2 := B.m_le_header; have hb4 := B.header_in; have hb1 := B.m_le_tls; have hb3 := B.tls_in
    have hb5 := B.disj
    simp only at hb1 hb2 hb3 hb4 hb5
    have er := H.record_eq; have et := H.tlsBlock_eq
    have hrl := H.record_lt
    have el : (areas c ss gs).stop = (createLayout c ss gs).mapSize := by rw [H.layout]
    obtain ⟨p1, -, -⟩ := meta_parts c.arch c.tl H.cfg.layout
    have hp : abiOff c.arch .pointee ≤ abiSize c.arch := by
      rw [abiOff_pointee, abiSize_eq]; cases c.arch <;> decide
    obtain ⟨hval, hfr⟩ := C12_tls_fresh H m junk parent.tp fn
    rw [newThreadPointer_created H m junk parent.tp fn] at hn
    injection hn with hn
    have hd : Hist c g (create c m junk k parent.tp fn args ss gs).mem
        (spaceAfter c.page s (create c m junk k parent.tp fn args ss gs).calls)
        (⟨(record c ss gs map).lo, map, (areas c ss gs).stop⟩ :: ts.map (·.live)) := by
      rw [ih.tp parent hpar]
      exact Hist.create ih.hist (List.mem_map_of_mem hpar) H
    have HI0 := hist_inv ih.hist
    refine ⟨hd, ?_, ?_, ?_, ?_⟩
    · intro t ht
      rcases List.mem_cons.mp ht with rfl | ht
      · simp only [er, pointeeAddr]
        rw [uadd_of_lt (by omega), ← hn]; rfl
      · exact ih.tp t ht
    · intro t ht
      rcases List.mem_cons.mp ht with rfl | ht
      · refine ⟨(tlsBlock c ss gs map).lo, ⟨?_, ?_, ?_, ?_⟩, ?_⟩
        · simp only [et]; omega
        · simp only [et, el]; omega
        · simp only [et, er]; omega
        · intro r hr off hoff
          simp only [← hn, et]
          exact spot_varAddr S hr hoff
        · intro _ off hoff
          rw [hval off hoff]
          unfold tlsInitial
          by_cases h : off < c.tls.fileSize
          · simp only [if_pos h]; exact ih.img off h
          · simp only [if_neg h]
      · obtain ⟨b, hb, hv⟩ := ih.place t ht
        refine ⟨b, hb, ?_⟩
        intro hx off hoff
        rw [← hv hx off hoff]
        obtain ⟨q1, q2, q3, q4⟩ := ih.inside ht
        have h1 := hb.lo; have h2 := hb.hi
        exact hfr _ (HI0.mapped t.live (List.mem_map_of_mem ht) _ (by omega) (by omega))
    · intro j hj
      rw [hfr _ (H.image j hj)]; exact ih.img j hj
    · intro t ht j hj
      rcases List.mem_cons.mp ht with rfl | ht
      · simp only
        by_cases g1 : c.tls.addr + j < map
        · exact .inl g1
        by_cases g2 : map + natRoundUp (areas c ss gs).stop c.page ≤ c.tls.addr + j
        · exact .inr g2
        exact absurd (H.kernel.fresh _ (by omega) (by omega)) (H.image j hj)
      · exact ih.apart t ht j hj
  | @store m s ts₁ t ts₂ r off a v _ hRr hoff ha ih =>
    have ht : t ∈ ts₁ ++ t :: ts₂ := List.mem_append_right _ List.mem_cons_self
    obtain ⟨b, hb, hv⟩ := ih.place t ht
    have hs := hb.routes r (hR r hRr) off hoff
    rw [ha] at hs
    injection hs with hs
    subst hs
    have HI := hist_inv ih.hist
    obtain ⟨q1, q2, q3, q4⟩ := ih.inside ht
    have b1 := hb.lo; have b2 := hb.hi; have b3 := hb.apart
    have hlive : (ts₁ ++ { t with vals := fun j => if j = off then v else t.vals j } :: ts₂).map (·.live) =
        (ts₁ ++ t :: ts₂).map (·.live) := by simp
    have hdj : ∀ u, u ∈ ts₁ ∨ u ∈ ts₂ → t.live.map + natRoundUp t.live.len c.page ≤ u.live.map ∨
        u.live.map + natRoundUp u.live.len c.page ≤ t.live.map := by
      have hd := HI.disj
      rw [List.map_append, List.map_cons, List.pairwise_append, List.pairwise_cons] at hd
      obtain ⟨-, ⟨d2, -⟩, d4⟩ := hd
      intro u hu
      rcases hu with hu | hu
      · have := d4 u.live (List.mem_map_of_mem hu) t.live List.mem_cons_self; omega
      · exact d2 u.live (List.mem_map_of_mem hu)
    have hmem : ∀ u, u ∈ ts₁ ∨ u ∈ ts₂ → u ∈ ts₁ ++ t :: ts₂ := by
      intro u hu
      rcases hu with hu | hu
      · exact List.mem_append_left _ hu
      · exact List.mem_append_right _ (List.mem_cons_of_mem _ hu)
    have hcan := canary_in c.arch
    have hws : c.ws = c.arch.ws := rfl
    obtain ⟨p1, -, -⟩ := meta_parts c.arch c.tl HI.cfg.layout
    refine ⟨?_, ?_, ?_, ?_, ?_⟩
    · rw [hlive]
      refine Hist.other ih.hist ?_ HI.mapped
      intro u hu i hi
      obtain ⟨u', hu', rfl⟩ := List.mem_map.mp hu
      have : canaryAddr c u'.live.md + i ≠ b + off := by
        obtain ⟨r1, r2, r3, r4⟩ := ih.inside hu'
        rcases List.mem_append.mp hu' with h | h
        · have := hdj u' (.inl h)
          unfold canaryAddr; omega
        · rcases List.mem_cons.mp h with rfl | h
          · unfold canaryAddr; omega
          · have := hdj u' (.inr h)
            unfold canaryAddr; omega
      simp only [if_neg this]
    · intro u hu
      rcases List.mem_append.mp hu with h | h
      · exact ih.tp u (hmem u (.inl h))
      · rcases List.mem_cons.mp h with rfl | h
        · exact ih.tp t ht
        · exact ih.tp u (hmem u (.inr h))
    · have key : ∀ w, w ∈ ts₁ ∨ w ∈ ts₂ → ∃ b', TlsPlace c w b' ∧ ((∃ r, R r) → ∀ o, o < c.tls.memSize →
          (fun x => if x = b + off then v else m x) (b' + o) = w.vals o) := by
        intro w hw
        obtain ⟨b', hb', hv'⟩ := ih.place w (hmem w hw)
        refine ⟨b', hb', fun hx o ho => ?_⟩
        obtain ⟨r1, r2, r3, r4⟩ := ih.inside (hmem w hw)
        have c1 := hb'.lo; have c2 := hb'.hi
        have := hdj w hw
        simp only
        rw [if_neg (by omega), hv' hx o ho]
      intro u hu
      rcases List.mem_append.mp hu with h | h
      · exact key u (.inl h)
      · rcases List.mem_cons.mp h with rfl | h
        · refine ⟨b, ⟨hb.lo, hb.hi, hb.apart, hb.routes⟩, fun hx o ho => ?_⟩
          simp only
          by_cases e : o = off
          · rw [if_pos (by omega), if_pos e]
          · rw [if_neg (by omega), if_neg e, hv hx o ho]
        · exact key u (.inr h)
    · intro j hj
      have := ih.apart t ht j hj
      rw [if_neg (by omega)]
      exact ih.img j hj
    · intro u hu
      rcases List.mem_append.mp hu with h | h
      · exact ih.apart u (hmem u (.inl h))
      · rcases List.mem_cons.mp h with rfl | h
        · exact ih.apart t ht
        · exact ih.apart u (hmem u (.inr h))
  | @other m s ts m' s' _ hm hv hi hs ih =>
    refine ⟨Hist.other ih.hist ?_ ?_, ih.tp, ?_, ?_, ih.apart⟩
    · intro u hu
      obtain ⟨u', hu', rfl⟩ := List.mem_map.mp hu
      exact hm u' hu'
    · intro u hu
      obtain ⟨u', hu', rfl⟩ := List.mem_map.mp hu
      exact hs u' hu'
    · intro t ht
      obtain ⟨b, hb, hval⟩ := ih.place t ht
      refine ⟨b, hb, fun hx off hoff => ?_⟩
      rw [← hval hx off hoff]
      obtain ⟨r, hr⟩ := hx
      exact hv t ht r hr off hoff _ (hb.routes r (hR r hr) off hoff)
    · intro j hj
      rw [hi j hj]; exact ih.img j hj
  | @free m s ts₁ t ts₂ _ ih =>
    have sub : ∀ u ∈ ts₁ ++ ts₂, u ∈ ts₁ ++ t :: ts₂ := by
      intro u hu
      rcases List.mem_append.mp hu with h | h
      · exact List.mem_append_left _ h
      · exact List.mem_append_right _ (List.mem_cons_of_mem _ h)
    refine ⟨?_, fun u hu => ih.tp u (sub u hu), fun u hu => ih.place u (sub u hu), ih.img,
      fun u hu => ih.apart u (sub u hu)⟩
    rw [List.map_append]
    have := ih.hist
    rw [List.map_append, List.map_cons] at this
    exact Hist.free this

/-- **C76 (value).** In every reachable state — any number of creations, exits and stores to thread-local
variables by any threads in any order, and anything else that leaves the variables, the initialiser and the
canaries alone — every byte of a live thread's thread-local variables is the byte that thread last stored
there, or the initialiser's if it has stored none: no other thread's store and no thread's creation or end
changes it.  Holds of each of the two ways of finding variables that works for the program (`RouteOk`),
and of a program using both.  Missing: the configurations in which a way leads elsewhere
(`C76_arm_false`; C13, C14). -/
theorem C76_value_partial {c : Cfg} {g : Nat} {img : Nat → Byte} {R : Route → Prop} (hR : ∀ r, R r → RouteOk c r)
    {m : Mem} {s : Space} {ts : List TlsThread} (h : TlsHist c g img R m s ts) {t : TlsThread} (ht : t ∈ ts)
    {r : Route} (hr : R r) {off : Nat} (ho : off < c.tls.memSize) :
    ∃ a, varAddr c r t.tp off = some a ∧ m a = t.vals off := by
  obtain ⟨b, hb, hv⟩ := (tls_inv hR h).place t ht
  exact ⟨_, hb.routes r (hR r hr) off ho, hv ⟨r, hr⟩ off ho⟩

/-- **C76 (one variable).** The two ways find the same byte. -/
theorem C76_same_byte {c : Cfg} {g : Nat} {img : Nat → Byte} {R : Route → Prop} (hR : ∀ r, R r → RouteOk c r)
    {m : Mem} {s : Space} {ts : List TlsThread} (h : TlsHist c g img R m s ts) {t : TlsThread} (ht : t ∈ ts)
    {r r' : Route} (hr : R r) (hr' : R r') {off : Nat} (ho : off < c.tls.memSize) :
    varAddr c r t.tp off = varAddr c r' t.tp off := by
  obtain ⟨b, hb, -⟩ := (tls_inv hR h).place t ht
  rw [hb.routes r (hR r hr) off ho, hb.routes r' (hR r' hr') off ho]

/-- **C76 (place).** Every byte of a live thread's variables is mapped, inside that thread's own region, outside
its record (so no store to a variable touches the thread's id, its `at_exit` list, its `errno` or its
stack canary), outside the initialiser, and outside the region of every other live thread. -/
theorem C76_place {c : Cfg} {g : Nat} {img : Nat → Byte} {R : Route → Prop} (hR : ∀ r, R r → RouteOk c r)
    {m : Mem} {s : Space} {ts₁ ts₂ : List TlsThread} {t : TlsThread} (h : TlsHist c g img R m s (ts₁ ++ t :: ts₂))
    {r : Route} (hr : R r) {off a : Nat} (ho : off < c.tls.memSize) (ha : varAddr c r t.tp off = some a) :
    s a ≠ .unmapped ∧ (t.live.map ≤ a ∧ a < t.live.map + t.live.len) ∧
    (a < t.live.md ∨ t.live.md + metaSize c.arch c.tl ≤ a) ∧
    (∀ j, j < c.tls.fileSize → a ≠ c.tls.addr + j) ∧
    ∀ u, u ∈ ts₁ ∨ u ∈ ts₂ → a < u.live.map ∨ u.live.map + natRoundUp u.live.len c.page ≤ a := by
  have I := tls_inv hR h
  have HI := hist_inv I.hist
  have ht : t ∈ ts₁ ++ t :: ts₂ := List.mem_append_right _ List.mem_cons_self
  obtain ⟨b, hb, -⟩ := I.place t ht
  have e := hb.routes r (hR r hr) off ho
  rw [ha] at e
  injection e with e
  subst e
  obtain ⟨q1, q2, q3, q4⟩ := I.inside ht
  have b1 := hb.lo; have b2 := hb.hi; have b3 := hb.apart
  refine ⟨HI.mapped t.live (List.mem_map_of_mem ht) _ (by omega) (by omega), by omega, by omega, ?_, ?_⟩
  · intro j hj
    have := I.apart t ht j hj
    omega
  · have hd := HI.disj
    rw [List.map_append, List.map_cons, List.pairwise_append, List.pairwise_cons] at hd
    obtain ⟨-, ⟨d2, -⟩, d4⟩ := hd
    intro u hu
    rcases hu with hu | hu
    · have := d4 u.live (List.mem_map_of_mem hu) t.live List.mem_cons_self; omega
    · have := d2 u.live (List.mem_map_of_mem hu); omega

/-- **C76 (distinct).** Different variables are at different places, and so are the variables of
different live threads. -/
theorem C76_distinct {c : Cfg} {g : Nat} {img : Nat → Byte} {R : Route → Prop} (hR : ∀ r, R r → RouteOk c r)
    {m : Mem} {s : Space} {ts : List TlsThread} (h : TlsHist c g img R m s ts) :
    (∀ t ∈ ts, ∀ r r', R r → R r' → ∀ o o', o < c.tls.memSize → o' < c.tls.memSize → o ≠ o' →
      varAddr c r t.tp o ≠ varAddr c r' t.tp o') ∧
    ts.Pairwise fun t u => ∀ r r', R r → R r' → ∀ o o', o < c.tls.memSize → o' < c.tls.memSize →
      varAddr c r t.tp o ≠ varAddr c r' u.tp o' := by
  have I := tls_inv hR h
  have HI := hist_inv I.hist
  constructor
  · intro t ht r r' hr hr' o o' ho ho' hne
    obtain ⟨b, hb, -⟩ := I.place t ht
    rw [hb.routes r (hR r hr) o ho, hb.routes r' (hR r' hr') o' ho']
    intro e
    injection e with e
    omega
  · have hd := HI.disj
    rw [List.pairwise_map] at hd
    refine List.Pairwise.imp_of_mem ?_ hd
    intro t u ht hu htu r r' hr hr' o o' ho ho'
    obtain ⟨b, hb, -⟩ := I.place t ht
    obtain ⟨b', hb', -⟩ := I.place u hu
    rw [hb.routes r (hR r hr) o ho, hb'.routes r' (hR r' hr') o' ho']
    intro e
    injection e with e
    obtain ⟨q1, q2, q3, q4⟩ := I.inside ht
    obtain ⟨r1, r2, r3, r4⟩ := I.inside hu
    have := hb.lo; have := hb.hi; have := hb'.lo; have := hb'.hi
    omega

/-- **C76 (canaries).** Stores to thread-local variables leave every live thread's stack canary alone:
it stays the value `initialize_main` chose. -/
theorem C76_canary {c : Cfg} {g : Nat} {img : Nat → Byte} {R : Route → Prop} (hR : ∀ r, R r → RouteOk c r)
    {m : Mem} {s : Space} {ts : List TlsThread} (h : TlsHist c g img R m s ts) {t : TlsThread} (ht : t ∈ ts) :
    ldN c.endian c.ws m (canaryAddr c t.live.md) = g :=
  (hist_inv (tls_inv hR h).hist).canary t.live (List.mem_map_of_mem ht)

/-! ### when the two ways work -/

/-- **C76 (exact condition, thread pointer).** `RouteOk` is no stronger than needed: the constant distance from
the thread pointer leads to the new thread's block (where `create` has put the initialiser: C12) exactly if
`RouteOk` holds. -/
theorem C76_compiled_iff {c : Cfg} {s : Space} {k : Answers} {args : List Nat} {ss gs map tid : Nat}
    (H : Creation c s k args ss gs map tid) (m : Mem) (junk : Nat → Byte) (tp fn ntp : Nat)
    (hntp : newThreadPointer (create c m junk k tp fn args ss gs).calls = some ntp) (off : Nat) :
    varAddr c .compiled ntp off = some ((tlsBlock c ss gs map).lo + off) ↔ RouteOk c .compiled := by
  have S := H.spot
  have B := S.ok.bounds H.cfg
  have key := C14_abi_location_iff H m junk tp fn ntp hntp
  rw [newThreadPointer_created H m junk tp fn] at hntp
  injection hntp with hntp
  have h1 : c.tls.align ∣ map := Nat.dvd_trans (pow_dvd_of_le H.cfg.tlsPow H.cfg.pagePow H.cfg.tlsAlignLe) S.page
  have hd : c.arch.variantI = true → (c.tls.align ∣ ntp ↔
      c.tls.align ∣ metaOff c.arch c.tl .abi + abiOff c.arch .pointee) := by
    intro hv
    have h2 : c.tls.align ∣ (createLayout c ss gs).header := by
      refine Nat.dvd_trans ?_ (B.headerAligned hv)
      exact pow_dvd_of_le H.cfg.tlsPow (max_pow H.cfg.tlsPow (metaAlign_pow c.arch)) (Nat.le_max_left _ _)
    rw [← hntp]
    unfold newTp
    exact Nat.dvd_add_right (Nat.dvd_add h1 h2)
  have e : varAddr c .compiled ntp off = some ((tlsBlock c ss gs map).lo + off) ↔
      (tlsBlock c ss gs map).lo = abiTlsStart c.arch ntp c.tls.memSize c.tls.align := by
    unfold varAddr
    simp only [Option.some.injEq, Nat.add_right_cancel_iff]
    exact eq_comm
  rw [e, key]
  unfold RouteOk
  cases ha : c.arch <;> simp only [ha] at hd ⊢
  · rw [Nat.dvd_add_left (dvd_natRoundUp _ _)]; exact hd rfl
  · exact hd rfl

/-- **C76 (usual programs).** The constant distance works on x86 and x86-64 whatever the TLS segment, and on
aarch64 and riscv64 for alignments up to 8; `current_tls_addr` works for alignments up to the record's on
aarch64, arm and riscv64, and on x86 and x86-64 if the size of the segment is a multiple of its alignment. -/
theorem C76_usual {c : Cfg} (hc : CfgOk c) :
    (c.arch = .x86_64 ∨ c.arch = .x86 ∨ ((c.arch = .aarch64 ∨ c.arch = .riscv64) ∧ c.tls.align ≤ 8) →
      RouteOk c .compiled) ∧
    ((if c.arch.variantI then c.tls.align ≤ metaAlign c.arch else c.tls.align ∣ c.tls.memSize) →
      RouteOk c .dynamic) := by
  constructor
  · have key : (c.arch = .aarch64 ∨ c.arch = .riscv64) → c.tls.align ≤ 8 →
        c.tls.align ∣ metaOff c.arch c.tl .abi + abiOff c.arch .pointee := by
      intro ha h8
      have d8 : c.tls.align ∣ 8 := pow_dvd_of_le hc.tlsPow ⟨3, rfl⟩ h8
      refine Nat.dvd_trans d8 ?_
      have hv : c.arch.variantI = true := by rcases ha with h | h <;> rw [h] <;> rfl
      have hw : c.arch.ws = 8 := by rcases ha with h | h <;> rw [h] <;> rfl
      have hm : metaAlign c.arch = 8 := by rcases ha with h | h <;> rw [h] <;> rfl
      have h1 : 8 ∣ metaOff c.arch c.tl .abi := by
        unfold metaOff fieldOff metaFields
        rw [if_pos hv]
        have hal : abiAlign c.arch = 8 := by rcases ha with h | h <;> rw [h] <;> rfl
        simp only [layoutFrom, List.lookup, hal]
        exact dvd_natRoundUp _ _
      have h2 : 8 ∣ abiOff c.arch .pointee := by rcases ha with h | h <;> rw [h] <;> decide
      exact Nat.dvd_add h1 h2
    intro h
    unfold RouteOk
    cases ha : c.arch <;> rw [ha] at h key <;> simp at h key ⊢ <;> exact key h
  · intro h
    unfold RouteOk
    cases hv : c.arch.variantI with
    | false => rw [hv] at h; simpa using h
    | true =>
      rw [hv] at h
      simp only [if_true] at h ⊢
      exact Nat.dvd_trans (pow_dvd_of_le hc.tlsPow (metaAlign_pow c.arch) h) (dvd_natRoundUp _ _)

/-! ### where it fails -/

/-- An arm process starts. -/
def exMainArm : MainIn :=
  { sp := 0x7fffe000, execfnEnd := 0x7ffff000 - 8, stackLimit := some 0x800000,
    random := 0x11223300, map := 0x70000000, tid := 1000 }

theorem exMainArm_ok : MainStart exCfgArm exSpace exMainArm 0x800000 where
  cfg := exCfgArm_ok
  limitIs := rfl
  topFits := by decide
  limitLe := by decide
  spLow := by decide
  spHigh := by decide
  kernel :=
    { aligned := by decide, nonnull := by decide, nonempty := by decide, fits := by decide,
      fresh := by
        intro x h1 _
        have : 0x70000000 ≤ x := h1
        unfold exSpace
        rw [if_neg (by omega)] }
  randomLt := by decide
  tidPos := by decide
  tidLt := by decide
  image := exCreationArm.image

/-- An initialiser whose bytes are all different. -/
def exImg : Nat → Byte := fun j => BitVec.ofNat 8 j

/-- Memory with that initialiser at 0x400000. -/
def exImgMem : Mem := fun x => BitVec.ofNat 8 (x - 0x400000)

/-- **C76 fails on arm** (C14): a program that has just started, and finds its variables at the distance from the
thread pointer that the ABI gives, reads in its fifth byte the value of the first. -/
theorem C76_arm_false : ∃ c g img m s t a, c.arch = .arm ∧ CfgOk c ∧ TlsHist c g img (· = .compiled) m s [t] ∧
    4 < c.tls.memSize ∧ varAddr c .compiled t.tp 4 = some a ∧ t.vals 4 = 4 ∧ m a = 0 := by
  obtain ⟨out, h1, O⟩ := exMainArm_ok.ok exImgMem (fun _ => 0)
  have h0 : TlsHist exCfgArm exMainArm.random exImg (· = .compiled) _ _ _ :=
    TlsHist.start exMainArm_ok h1 O.guardVar (by
      intro j _
      show BitVec.ofNat 8 (0x400000 + j - 0x400000) = BitVec.ofNat 8 j
      rw [Nat.add_sub_cancel_left])
  refine ⟨_, _, _, _, _, _, _, rfl, exCfgArm_ok, h0, by decide, rfl, rfl, ?_⟩
  have hv := (C12_main_tls exMainArm_ok h1).1 0 (by decide)
  have e : abiTlsStart exCfgArm.arch out.tp exCfgArm.tls.memSize exCfgArm.tls.align + 4 =
      (mainTlsBlock exCfgArm exMainArm.map).lo + 0 := by rw [O.tp]; decide
  rw [e, hv]
  decide

/-- **C76 fails on x86-64 with `current_tls_addr`** (C13) when the size of the TLS segment (here 40) is not a multiple
of its alignment (16): what is found as the first byte is the ninth. -/
theorem C76_dynamic_false : ∃ c g img m s t a, c.arch = .x86_64 ∧ CfgOk c ∧ TlsHist c g img (· = .dynamic) m s [t] ∧
    0 < c.tls.memSize ∧ varAddr c .dynamic t.tp 0 = some a ∧ t.vals 0 = 0 ∧ m a = 8 := by
  obtain ⟨out, h1, O⟩ := exMain_ok.ok exImgMem (fun _ => 0)
  have h0 : TlsHist exCfg exMain.random exImg (· = .dynamic) _ _ _ :=
    TlsHist.start exMain_ok h1 O.guardVar (by
      intro j _
      show BitVec.ofNat 8 (0x400000 + j - 0x400000) = BitVec.ofNat 8 j
      rw [Nat.add_sub_cancel_left])
  have hv := (C12_main_tls exMain_ok h1).1 8 (by decide)
  have e : varAddr exCfg .dynamic out.tp 0 = some ((mainTlsBlock exCfg exMain.map).lo + 8) := by
    rw [O.tp]; decide
  refine ⟨_, _, _, _, _, _, _, rfl, exCfg_ok, h0, by decide, e, rfl, ?_⟩
  rw [hv]
  decide

/-! ### non-vacuity -/

/-- An x86-64 program with a TLS segment of 48 bytes aligned to 16, for which both ways work. -/
def exCfgTls : Cfg := { exCfg with tls := { exCfg.tls with memSize := 48 } }

theorem exCfgTls_ok : CfgOk exCfgTls where
  layout := exCfg_ok.layout
  pagePow := ⟨12, rfl⟩
  pageMin := by decide
  tlsPow := ⟨4, rfl⟩
  tlsAlignLe := by decide
  tlsSizes := by decide
  pageMax := by decide

theorem exMainTls : MainStart exCfgTls exSpace exMain 0x800000 where
  cfg := exCfgTls_ok
  limitIs := rfl
  topFits := by decide
  limitLe := by decide
  spLow := by decide
  spHigh := by decide
  kernel :=
    { aligned := by decide, nonnull := by decide, nonempty := by decide, fits := by decide,
      fresh := by
        intro x h1 _
        have : 0x7fff00000000 ≤ x := h1
        unfold exSpace
        rw [if_neg (by omega)] }
  randomLt := by decide
  tidPos := by decide
  tidLt := by decide
  image := exCreation.image

/-- A history with two live threads that store to their variables in both ways: the main thread through
`current_tls_addr`, the other one through its thread pointer. -/
theorem exTlsHist : ∃ m s a b, TlsHist exCfgTls exMain.random exImg (fun _ => True) m s [a, b] ∧
    a.vals 3 = 77 ∧ b.vals 3 = 88 ∧ a.vals 4 = 4 := by
  obtain ⟨out, h1, O⟩ := exMainTls.ok exImgMem (fun _ => 0)
  have h0 : TlsHist exCfgTls exMain.random exImg (fun _ => True) _ _ _ :=
    TlsHist.start exMainTls h1 O.guardVar (by
      intro j _
      show BitVec.ofNat 8 (0x400000 + j - 0x400000) = BitVec.ofNat 8 j
      rw [Nat.add_sub_cancel_left])
  have hd : varAddr exCfgTls .dynamic out.tp 3 = some ((mainTlsBlock exCfgTls exMain.map).lo + 3) := by
    rw [O.tp]; decide
  have h0' := TlsHist.store (ts₁ := []) (r := .dynamic) (off := 3) (v := 88) h0 trivial (by decide) hd
  have hk : Creation exCfgTls (spaceAfter exCfgTls.page exSpace out.calls)
      { mmap := .ok 0x7f0000000000, mprotect := .ok (), clone := 1234 } [1, 0, 0xdeadbeef] 0x20000 0x4000
      0x7f0000000000 1234 := by
    refine { cfg := exCfgTls_ok, fits := by unfold Fits; decide, mmapOk := rfl, mprotectOk := rfl, cloneOk := rfl,
             tidPos := by decide, tidLt := by decide, argsFit := exCreation.argsFit,
             argsWords := exCreation.argsWords, kernel := ?_, image := ?_ }
    · refine { aligned := by decide, nonnull := by decide, nonempty := by decide, fits := by decide, fresh := ?_ }
      intro x q1 q2
      have hx : x < 0x7fff00000000 := Nat.lt_trans q2 (by decide)
      rw [O.calls]
      simp only [spaceAfter, List.foldl, applySys, setPerm]
      rw [if_neg (by intro h; have := h.1; simp only [exMain] at this; omega)]
      exact exCreation.kernel.fresh x q1 q2
    · intro j hj
      rw [O.calls]
      simp only [spaceAfter, List.foldl, applySys, setPerm]
      split
      · decide
      · exact exCreation.image j hj
  have h2 := TlsHist.create (junk := fun _ => 0) (fn := 7) h0' (List.mem_singleton.mpr rfl) hk
    (newThreadPointer_created hk _ _ _ _)
  have h3 := TlsHist.store (ts₁ := []) (r := .compiled) (off := 3) (v := 77) h2 trivial (by decide) rfl
  exact ⟨_, _, _, _, h3, rfl, rfl, rfl⟩

theorem exTlsRoutes : ∀ r : Route, True → RouteOk exCfgTls r := by
  rintro r -
  cases r
  · exact (C76_usual exCfgTls_ok).1 (.inl rfl)
  · exact (C76_usual exCfgTls_ok).2 (by decide)

/-- In that history each thread finds its own value in the fourth byte, in both ways, and its initialiser's in the
fifth. -/
example : ∃ m s a b x y z, TlsHist exCfgTls exMain.random exImg (fun _ => True) m s [a, b] ∧
    varAddr exCfgTls .compiled a.tp 3 = some x ∧ varAddr exCfgTls .dynamic a.tp 3 = some x ∧
    varAddr exCfgTls .compiled b.tp 3 = some y ∧ varAddr exCfgTls .compiled a.tp 4 = some z ∧
    m x = 77 ∧ m y = 88 ∧ m z = 4 ∧ x ≠ y := by
  obtain ⟨m, s, a, b, h, ha, hb, hc⟩ := exTlsHist
  obtain ⟨x, hx, hx'⟩ := C76_value_partial exTlsRoutes h (t := a) (by simp) (r := .compiled) trivial (off := 3) (by decide)
  obtain ⟨y, hy, hy'⟩ := C76_value_partial exTlsRoutes h (t := b) (by simp) (r := .compiled) trivial (off := 3) (by decide)
  obtain ⟨z, hz, hz'⟩ := C76_value_partial exTlsRoutes h (t := a) (by simp) (r := .compiled) trivial (off := 4) (by decide)
  have hs := C76_same_byte exTlsRoutes h (t := a) (by simp) (r := .dynamic) (r' := .compiled) trivial trivial
    (off := 3) (by decide)
  refine ⟨m, s, a, b, x, y, z, h, hx, by rw [hs, hx], hy, hz, by rw [hx', ha], by rw [hy', hb], by rw [hz', hc], ?_⟩
  intro e
  have := (List.pairwise_cons.mp (C76_distinct exTlsRoutes h).2).1 b (by simp) .compiled .compiled trivial trivial 3 3
    (by decide) (by decide)
  exact this (by rw [hx, hy, e])

/-- `C76_place` and `C76_canary` apply to it. -/
example : ∃ m s a b x, TlsHist exCfgTls exMain.random exImg (fun _ => True) m s ([a] ++ b :: []) ∧
    varAddr exCfgTls .compiled b.tp 39 = some x ∧ s x ≠ .unmapped ∧
    ldN .little 8 m (canaryAddr exCfgTls b.live.md) = exMain.random := by
  obtain ⟨m, s, a, b, h, -⟩ := exTlsHist
  obtain ⟨x, hx, -⟩ := C76_value_partial exTlsRoutes h (t := b) (by simp) (r := .compiled) trivial (off := 39) (by decide)
  exact ⟨m, s, a, b, x, h, hx, (C76_place exTlsRoutes (ts₁ := [a]) h (r := .compiled) trivial (by decide) hx).1,
    C76_canary exTlsRoutes h (by simp)⟩

/-- On arm `current_tls_addr` works for `exCfgArm`, the thread pointer does not. -/
example : RouteOk exCfgArm .dynamic ∧ ¬ RouteOk exCfgArm .compiled :=
  ⟨(C76_usual exCfgArm_ok).2 (by decide), fun h => h⟩

example := C76_compiled_iff exCreation (fun _ => 0) (fun _ => 0) 0 7 _ (newThreadPointer_created exCreation _ _ _ _) 3

end Origin
