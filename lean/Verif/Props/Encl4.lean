/-
C22, C23: element-wise functions and division on enclosures
(/repo/autobound/enclosure_arithmetic.py:259-295, 322-347).
-/
import Verif.Props.Encl3

set_option linter.unusedSectionVars false

namespace AB
variable {K : Type} [Field K] [LinearOrder K] [IsStrictOrderedRing K]
open IA (repS)

theorem toInterval_eq (r : Coef K) : TEA.toInterval r = (r.lo, r.hi) := by cases r <;> rfl

/-- the selection made of the lower endpoints -/
theorem lower_sel {xs R : List ℕ} {E : Encl K} (hE : WellFormedEncl E) (hV : VE xs R E) {I : List ℕ}
    (hI : ValidIdx R I) : ∃ w, Sel xs E I w ∧ ∀ c, E[0]? = some c → w 0 [] = c.lo.bget I := by
  refine ⟨fun i J => match E[i]? with | some c => c.lo.bget (I ++ J) | none => 0, fun i => ⟨?_, ?_⟩, ?_⟩
  · intro c hc J hJ
    simp only [hc]
    obtain ⟨-, B, hB, hBle⟩ := hV i c hc
    exact ⟨le_rfl, (hE c (List.mem_of_getElem? hc)).le (R := R ++ repS i xs)
      (by rw [hB]; exact ble_append hBle (ble_refl _) rfl) (validIdx_append hI hJ)⟩
  · intro hn J; simp only [hn]
  · intro c hc; simp only [hc, List.append_nil]

theorem zp_zero_arr (k i : ℕ) (J : List ℕ) (h : i ≠ 0) : zp k (fun _ => (0 : K)) i J = 0 := by
  cases i with
  | zero => exact absurd rfl h
  | succ i => simp [zp, chunks]

theorem selVal_zero_point (xs : List ℕ) (n : ℕ) (hn : n ≠ 0) (w : ℕ → List ℕ → K) :
    selVal xs (fun _ => 0) n w = w 0 [] := by
  obtain ⟨n, rfl⟩ := Nat.exists_eq_succ_of_ne_zero hn
  unfold selVal
  rw [Finset.sum_range_succ', pair_zero_deg, Finset.sum_eq_zero, zero_add]
  intro i _
  unfold pair
  apply List.sum_eq_zero
  intro x hx
  obtain ⟨J, -, rfl⟩ := List.mem_map.1 hx
  rw [zp_zero_arr _ _ _ (Nat.succ_ne_zero i), mul_zero]

namespace TEA

theorem add_ne_nil (T : TEA K) {a b c : Encl K} (ha : a ≠ []) (h : T.add a b = .ok c) : c ≠ [] := by
  have hl : a.length ≠ 0 := fun h => ha (List.length_eq_zero_iff.1 h)
  simp only [add, py_bind_ok] at h
  obtain ⟨s, hs, h⟩ := h
  have := (addCoeffs_get hs).1
  unfold truncateIfNecessary encloseEnclosure at h
  split_ifs at h with h0
  · cases h
    intro h
    rw [h] at this; simp at this; omega
  · simp only [py_bind_ok, py_pure] at h
    obtain ⟨r, -, rfl⟩ := h
    simp

theorem compose_ne_nil (T : TEA K) {e arg c : Encl K} (h : T.composeEnclosures e arg = .ok c) :
    c ≠ [] := by
  unfold composeEnclosures at h
  split_ifs at h with h0
  have : ∀ (l : List (ℕ × Coef K)) (o c : Encl K), o ≠ [] →
      l.foldlM (T.composeStep (.arr (ND.scalar 0) :: arg.drop 1)) o = .ok c → c ≠ [] := by
    intro l
    induction l with
    | nil => intro o c ho h; simp only [List.foldlM_nil, py_pure] at h; rw [← h]; exact ho
    | cons y l ih =>
      intro o c ho h
      simp only [List.foldlM_cons, py_bind_ok] at h
      obtain ⟨o', ho', h⟩ := h
      simp only [composeStep, py_bind_ok] at ho'
      obtain ⟨t, -, ho'⟩ := ho'
      exact ih o' c (add_ne_nil T ho ho') h
  exact this _ _ _ (by simp) h

theorem elementwise_ne_nil (T : TEA K) {gen : Generator K} {a c : Encl K} {tr : Option (Coef K)}
    (h : T.elementwiseFun gen a tr = .ok c) : c ≠ [] := by
  unfold elementwiseFun at h
  simp only [py_bind_ok] at h
  obtain ⟨_, _, h⟩ := h
  cases a with
  | nil => cases h
  | cons a0 a =>
    simp only [py_bind_ok] at h
    obtain ⟨_, _, _, _, h⟩ := h
    exact compose_ne_nil T h

variable {T : TEA K}
section
variable {md : ℕ} {lo hi : ND K} (hinit : TEA.init md lo hi = .ok T) {z : ND K}
  (hz : (Coef.ivl lo hi).Contains z)

include hinit hz in
/-- the common part of C22, for any condition on batch shapes -/
theorem elementwise_core_mode {U : Mode} {f : K → K} {D : K → Prop} {gen : Generator K}
    (hgen : SoundGeneratorAt z f D gen) {arg e c : Encl K} (harg : WellFormedEncl arg) {y x0 : ND K}
    (hC : U.Cm y.shape.length)
    (hu : ∀ i c B, arg[i]? = some c → c.shape = B ++ repS i z.shape → U i B) (hy : Encloses arg z y)
    (hne : ∃ I, ValidIdx y.shape I) {a0 : Coef K} (ha0 : arg[0]? = some a0)
    (hx0 : T.expansionPoint a0 = .ok x0) {r : Coef K} (hr : r.WF)
    (hrn : U 0 r.shape) (hrs : ble r.shape y.shape)
    (hry : ∀ I, ValidIdx y.shape I → r.Mem I (y.get I) ∧ r.Mem I (x0.bget I))
    (hD : ∀ I, ValidIdx r.shape I → ∀ v, r.AtIdx I v → D v)
    (hg : gen x0 (toInterval r) T.maxDegree = .ok e) (hc : T.composeEnclosures e arg = .ok c) :
    Encloses c z (y.map f) ∧ WellFormedEncl c ∧ VEU U z.shape y.shape c ∧ (e.length ≤ md + 1 ∧ WellFormedEncl e) ∧
      x0.shape = a0.shape := by
  obtain ⟨hmd, hT, hzm, hzs⟩ := unpack hinit hz
  have hreach : Reached z T.maxDegree x0 y := by
    refine ⟨arg, harg, hy, a0, ha0, ?_⟩
    unfold expansionPoint at hx0
    cases a0 with
    | arr a => cases hx0; exact Or.inl rfl
    | ivl l h =>
      simp only at hx0
      split_ifs at hx0 with hm
      cases hx0; exact Or.inr ⟨hm, h, rfl⟩
  have hx0s : x0.shape = a0.shape ∧ (a0 = .arr x0 ∨ T.maxDegree = 0) := by
    unfold expansionPoint at hx0
    cases a0 with
    | arr a => cases hx0; exact ⟨rfl, Or.inl rfl⟩
    | ivl l h =>
      simp only at hx0
      split_ifs at hx0 with hm
      cases hx0; exact ⟨rfl, Or.inr hm⟩
  have hV := (hy.at harg (ble_refl _)).1
  have nx0 : U 0 x0.shape := by rw [hx0s.1]; exact hu 0 a0 _ ha0 (by simp [IA.repS])
  have lx0 : ble x0.shape y.shape := by
    obtain ⟨-, B, hB, hle⟩ := hV 0 a0 ha0
    have : a0.shape = B := by simpa [IA.repS] using hB
    rw [hx0s.1, this]; exact hle
  obtain ⟨R, hR, lR⟩ := bshape_lub lx0 hrs
  have hlo : r.lo.shape = r.shape := Coef.lo_shape r
  have hhi : r.hi.shape = r.shape := hr.hi_shape
  have lR' := bshape_le hR
  have hRne : ∃ I, ValidIdx R I := by
    obtain ⟨I, hI⟩ := hne
    exact ⟨_, validIdx_bidx lR hI⟩
  rw [toInterval_eq] at hg
  obtain ⟨g0, g1, g2, g3, g4⟩ := hgen x0 r.lo r.hi T.maxDegree e R (hlo.trans hhi.symm)
    (by rw [hlo]; exact hR) hRne (fun I hI => by
      obtain ⟨L, hL, rfl⟩ := ble_surj lR hne hI
      have hl : R.length ≤ L.length := (ble_length lR).trans hL.length.le
      rw [ND.bget_bidx _ (hlo ▸ lR'.2) hl, ND.bget_bidx _ lR'.1 hl, ND.bget_bidx _ (hhi ▸ lR'.2) hl]
      exact (hry L hL).2) (fun I hI v h1 h2 => by
      refine hD (bidx r.shape I) (validIdx_bidx lR'.2 hI) v ((Coef.atIdx_bidx hr).2 ⟨h1, h2⟩)) hg
  have hδ : ∃ δ, ND.map2 (· - ·) y x0 = .ok δ := by
    obtain ⟨δ, hδ, -⟩ := ND.map2_lub (· - ·) (ble_refl y.shape) lx0
    exact ⟨δ, hδ⟩
  obtain ⟨δ, hδ⟩ := hδ
  have hf := g4 y δ hreach (ble_iff_bshape.2 lR) (fun I hI => (hry I hI).1) hδ
  rw [hmd] at g1
  have q1 : arg[0]? = some (.arr x0) ∨ e.length = 1 := by
    rcases hx0s.2 with h | h
    · left; rw [ha0, h]
    · right
      have : e.length ≠ 0 := fun h => g0 (List.length_eq_zero_iff.1 h)
      omega
  have q2 : ∀ c ∈ e, U 0 c.shape := by
    intro x hx
    rcases g3 x hx with h | h | h | h
    · rw [h]; exact hC.pw.nil
    · rw [h]; exact nx0
    · rw [h, hlo]; exact hrn
    · rw [h]; exact hC.pw.cl le_rfl nx0 hrn hR
  obtain ⟨k1, k2, k3⟩ := compose_mode hinit hz harg g2 (y := y) (y0 := x0) hC q1 hu q2 g1 hy hδ hf rfl
    hne hc
  exact ⟨k1, k2, k3, ⟨g1, g2⟩, hx0s.1⟩

include hinit hz in
/-- the common part of C22 -/
theorem elementwise_core {f : K → K} {D : K → Prop} {gen : Generator K}
    (hgen : SoundGenerator f D gen) {arg e c : Encl K} (harg : WellFormedEncl arg) {y x0 : ND K}
    (hu : UniformBatch z.shape y.ndim arg) (hy : Encloses arg z y)
    (hne : ∃ I, ValidIdx y.shape I) {a0 : Coef K} (ha0 : arg[0]? = some a0)
    (hx0 : T.expansionPoint a0 = .ok x0) {r : Coef K} (hr : r.WF)
    (hrn : r.ndim = y.ndim ∨ r.shape = []) (hrs : ble r.shape y.shape)
    (hry : ∀ I, ValidIdx y.shape I → r.Mem I (y.get I) ∧ r.Mem I (x0.bget I))
    (hD : ∀ I, ValidIdx r.shape I → ∀ v, r.AtIdx I v → D v)
    (hg : gen x0 (toInterval r) T.maxDegree = .ok e) (hc : T.composeEnclosures e arg = .ok c) :
    Encloses c z (y.map f) ∧ WellFormedEncl c ∧ UniformBatch z.shape y.ndim c := by
  obtain ⟨k1, k2, k3, -⟩ := elementwise_core_mode hinit hz (hgen.at z) harg (U := rankM y.ndim) (rankM_cm _)
    (uniform_mode hu) hy hne ha0 hx0 hr (hrn.imp id fun h => ⟨rfl, h⟩) hrs hry hD hg hc
  exact ⟨k1, k2, uniform_of_mode k3⟩

include hinit hz in
/-- element-wise functions with a supplied trust region, for any condition on batch shapes -/
theorem supplied_mode {U : Mode} {f : K → K} {D : K → Prop} {gen : Generator K}
    (hgen : SoundGeneratorAt z f D gen) {arg c : Encl K} (harg : WellFormedEncl arg) {y : ND K}
    (hC : U.Cm y.shape.length)
    (hu : ∀ i c B, arg[i]? = some c → c.shape = B ++ repS i z.shape → U i B) (hy : Encloses arg z y)
    (hne : ∃ I, ValidIdx y.shape I) {r : Coef K} (hr : r.SameShape)
    (hrn : U 0 r.shape) (hry : r.Covers y)
    (hrx : ∀ a0 x0, arg[0]? = some a0 → T.expansionPoint a0 = .ok x0 →
      ∀ I, ValidIdx y.shape I → r.AtIdx (bidx r.shape I) (x0.bget I))
    (hD : ∀ I, ValidIdx r.shape I → ∀ v, r.AtIdx I v → D v)
    (hc : T.elementwiseFun gen arg (some r) = .ok c) :
    Encloses c z (y.map f) ∧ WellFormedEncl c ∧ VEU U z.shape y.shape c ∧
    ∃ a0 x0 e, arg[0]? = some a0 ∧ x0.shape = a0.shape ∧
      gen x0 (toInterval r) T.maxDegree = .ok e ∧ (e.length ≤ md + 1 ∧ WellFormedEncl e) ∧
      T.composeEnclosures e arg = .ok c := by
  have wr := Coef.sameShape_iff.1 hr
  unfold elementwiseFun argRegion at hc
  rw [py_ok_bind] at hc
  cases arg with
  | nil => cases hc
  | cons a0 arg =>
    simp only [py_bind_ok] at hc
    obtain ⟨x0, hx0, e, he, hc⟩ := hc
    obtain ⟨q1, q2⟩ := (Coef.covers_iff wr).1 hry
    obtain ⟨k1, k2, k3, k4, k5⟩ := elementwise_core_mode hinit hz hgen harg hC hu hy hne (a0 := a0) rfl hx0
      wr hrn q1 (fun I hI => ⟨q2 I hI, (Coef.atIdx_bidx wr).1 (hrx a0 x0 rfl hx0 I hI)⟩) hD he hc
    exact ⟨k1, k2, k3, a0, x0, e, rfl, k5, he, k4, hc⟩

include hinit hz in
/-- **C22 (supplied trust region).** `get_elementwise_fun(gen)(arg, arg_trust_region = r)` with `r` a
well-formed interval that covers the argument's value and the expansion point. -/
theorem C22_supplied {f : K → K} {D : K → Prop} {gen : Generator K}
    (hgen : SoundGenerator f D gen) {arg c : Encl K} (harg : WellFormedEncl arg) {y : ND K}
    (hu : UniformBatch z.shape y.ndim arg) (hy : Encloses arg z y)
    (hne : ∃ I, ValidIdx y.shape I) {r : Coef K} (hr : r.SameShape)
    (hrn : r.ndim = y.ndim ∨ r.shape = []) (hry : r.Covers y)
    (hrx : ∀ a0 x0, arg[0]? = some a0 → T.expansionPoint a0 = .ok x0 →
      ∀ I, ValidIdx y.shape I → r.AtIdx (bidx r.shape I) (x0.bget I))
    (hD : ∀ I, ValidIdx r.shape I → ∀ v, r.AtIdx I v → D v)
    (hc : T.elementwiseFun gen arg (some r) = .ok c) :
    Encloses c z (y.map f) ∧ WellFormedEncl c ∧ UniformBatch z.shape y.ndim c := by
  obtain ⟨k1, k2, k3, -⟩ := supplied_mode hinit hz (hgen.at z) harg (U := rankM y.ndim) (rankM_cm _)
    (uniform_mode hu) hy hne hr (hrn.imp id fun h => ⟨rfl, h⟩) hry hrx hD hc
  exact ⟨k1, k2, uniform_of_mode k3⟩

include hinit hz in
/-- element-wise functions with a derived trust region, for any condition on batch shapes -/
theorem derived_mode {U : Mode} {f : K → K} {D : K → Prop} {gen : Generator K}
    (hgen : SoundGeneratorAt z f D gen) {arg c : Encl K} (harg : WellFormedEncl arg) {y : ND K}
    (hC : U.Cm y.shape.length)
    (hu : ∀ i c B, arg[i]? = some c → c.shape = B ++ repS i z.shape → U i B) (hy : Encloses arg z y)
    (hne : ∃ I, ValidIdx y.shape I) (h0 : (Coef.ivl lo hi).Contains ⟨lo.shape, fun _ => 0⟩)
    (hD : ∀ r, encloseEnclosure arg (.ivl lo hi) 0 = .ok [r] →
      ∀ I, ValidIdx r.shape I → ∀ v, r.AtIdx I v → D v)
    (hc : T.elementwiseFun gen arg = .ok c) :
    Encloses c z (y.map f) ∧ WellFormedEncl c ∧ VEU U z.shape y.shape c ∧
    ∃ r a0 x0 e, arg[0]? = some a0 ∧ x0.shape = a0.shape ∧
      gen x0 (toInterval r) T.maxDegree = .ok e ∧ (e.length ≤ md + 1 ∧ WellFormedEncl e) ∧
      T.composeEnclosures e arg = .ok c := by
  obtain ⟨hmd, hT, hzm, hzs⟩ := unpack hinit hz
  have hTR : T.trustRegion = .ivl lo hi := by rw [(shape_of_init hinit).1]; rfl
  unfold elementwiseFun argRegion at hc
  simp only [py_bind_ok] at hc
  obtain ⟨r, ⟨out, hout, hr⟩, hc⟩ := hc
  cases arg with
  | nil => cases hc
  | cons a0 arg =>
    simp only [py_bind_ok] at hc
    obtain ⟨x0, hx0, e, he, hc⟩ := hc
    have hV := (hy.at harg (ble_refl _)).1
    rw [hzs] at hV
    have hVU : VEU U T.xShape y.shape (a0 :: arg) := by
      intro i x hx
      obtain ⟨wx, B, hB, hle⟩ := hV i x hx
      exact ⟨wx, B, hB, hle, hu i x B hx (by rw [hzs]; exact hB)⟩
    obtain ⟨t1, t2, -, -, t5⟩ := trunc_sel (trWF T hT) hzm hC.pw.cl hVU hout
    obtain ⟨-, -, -, -, s5⟩ := trunc_sel (z := fun _ => 0) (trWF T hT) (by
      rw [hTR]; exact zmem_contains (Coef.sameShape_iff.1 (by
        obtain ⟨rfl, h⟩ := shape_of_init hinit; exact h)) h0) hC.pw.cl hVU hout
    have hol : out.length = 1 := by simpa using t2
    obtain ⟨r', hr'⟩ := List.length_eq_one_iff.1 hol
    subst hr'
    cases hr
    obtain ⟨wr, B, hB, hBu⟩ := t1 0 r rfl
    have hB : r.shape = B := by simpa [IA.repS] using hB
    subst hB
    obtain ⟨k1, k2, k3, k4, k5⟩ := elementwise_core_mode hinit hz hgen harg hC hu hy hne (a0 := a0) rfl hx0
      wr hBu.2 hBu.1 (fun I hI => ⟨by
        obtain ⟨u, hu', eu⟩ := Encloses.SR_at harg hzs hy (ble_refl _) hI
        obtain ⟨W, hW, eW, -⟩ := t5 I hI.length.le u hu'.sel
        have hm := (hW 0).1 r rfl [] (by simp [IA.repS, ValidIdx.nil])
        rw [List.append_nil] at hm
        have : W 0 [] = y.get I := by
          have h1 : selVal T.trustRegion.shape z.get ([r] : Encl K).length W = W 0 [] := by
            simp [selVal, pair_zero_deg]
          rw [← h1, eW, ← ND.bget_valid _ hI]
          exact eu
        rwa [this] at hm, by
        obtain ⟨w, hw, hw0⟩ := lower_sel harg hV hI
        obtain ⟨W, hW, eW, -⟩ := s5 I hI.length.le w hw
        have hm := (hW 0).1 r rfl [] (by simp [IA.repS, ValidIdx.nil])
        rw [List.append_nil] at hm
        rw [selVal_zero_point _ _ (by simp), selVal_zero_point _ _ (by simp), hw0 a0 rfl] at eW
        have hx : a0.lo = x0 := by
          unfold expansionPoint at hx0
          cases a0 with
          | arr a => cases hx0; rfl
          | ivl l h =>
            simp only at hx0
            split_ifs at hx0 with hm
            cases hx0; rfl
        rw [eW, hx] at hm
        exact hm⟩) (hD r (by rw [← hTR]; exact hout)) he hc
    exact ⟨k1, k2, k3, r, a0, x0, e, rfl, k5, he, k4, hc⟩

include hinit hz in
/-- **C22 (derived trust region).** `get_elementwise_fun(gen)(arg)` when 0 (i.e. the reference point)
lies in the trust region and the range of `arg` over the trust region lies inside the domain. -/
theorem C22_derived {f : K → K} {D : K → Prop} {gen : Generator K}
    (hgen : SoundGenerator f D gen) {arg c : Encl K} (harg : WellFormedEncl arg) {y : ND K}
    (hu : UniformBatch z.shape y.ndim arg) (hy : Encloses arg z y)
    (hne : ∃ I, ValidIdx y.shape I) (h0 : (Coef.ivl lo hi).Contains ⟨lo.shape, fun _ => 0⟩)
    (hD : ∀ r, encloseEnclosure arg (.ivl lo hi) 0 = .ok [r] →
      ∀ I, ValidIdx r.shape I → ∀ v, r.AtIdx I v → D v)
    (hc : T.elementwiseFun gen arg = .ok c) :
    Encloses c z (y.map f) ∧ WellFormedEncl c ∧ UniformBatch z.shape y.ndim c := by
  obtain ⟨k1, k2, k3, -⟩ := derived_mode hinit hz (hgen.at z) harg (U := rankM y.ndim) (rankM_cm _)
    (uniform_mode hu) hy hne h0 hD hc
  exact ⟨k1, k2, uniform_of_mode k3⟩

/-! ### C23 -/

include hinit hz in
/-- **C23 (general power).** `power(a, p)` for an exponent that is not a nonnegative integer, with
`powGen` a sound generator for `x ↦ x^p` on the domain `D`. -/
theorem C23_power_other {f : K → K} {D : K → Prop} {powGen : Generator K}
    (hgen : SoundGenerator f D powGen) {a c : Encl K} (ha : WellFormedEncl a) {y : ND K}
    (hu : UniformBatch z.shape y.ndim a) (hy : Encloses a z y)
    (hne : ∃ I, ValidIdx y.shape I) (h0 : (Coef.ivl lo hi).Contains ⟨lo.shape, fun _ => 0⟩)
    (hD : ∀ r, encloseEnclosure a (.ivl lo hi) 0 = .ok [r] →
      ∀ I, ValidIdx r.shape I → ∀ v, r.AtIdx I v → D v)
    (hc : T.powerOther powGen a = .ok c) :
    Encloses c z (y.map f) ∧ WellFormedEncl c ∧ UniformBatch z.shape y.ndim c := by
  simp only [powerOther, py_bind_ok] at hc
  obtain ⟨_, _, hc⟩ := hc
  exact C22_derived hinit hz hgen ha hu hy hne h0 hD hc

include hinit hz in
/-- **C23 (division).** `recipGen` is a sound generator for `x ↦ 1/x` on `D`. -/
theorem C23_divide {D : K → Prop} {recipGen : Generator K}
    (hgen : SoundGenerator (fun x => x⁻¹) D recipGen) {a b c : Encl K} (ha : WellFormedEncl a)
    (hb : WellFormedEncl b) (ha0 : a ≠ []) {y1 y2 y : ND K} (hu : UniformBatch z.shape y2.ndim b)
    (h1 : Encloses a z y1) (h2 : Encloses b z y2) (hy : ND.map2 (· / ·) y1 y2 = .ok y)
    (hne : ∃ I, ValidIdx y.shape I) (h0 : (Coef.ivl lo hi).Contains ⟨lo.shape, fun _ => 0⟩)
    (hD : ∀ r, encloseEnclosure b (.ivl lo hi) 0 = .ok [r] →
      ∀ I, ValidIdx r.shape I → ∀ v, r.AtIdx I v → D v)
    (hc : T.divide recipGen a b = .ok c) :
    Encloses c z y ∧ WellFormedEncl c := by
  simp only [divide, py_bind_ok] at hc
  obtain ⟨q, hq, hc⟩ := hc
  obtain ⟨l1, l2⟩ := ND.map2_shape hy
  have hne2 : ∃ I, ValidIdx y2.shape I := by
    obtain ⟨I, hI⟩ := hne
    exact ⟨_, validIdx_bidx l2 hI⟩
  obtain ⟨k1, k2, -⟩ := C23_power_other hinit hz hgen hb hu h2 hne2 h0 hD hq
  have hq0 : q ≠ [] := by
    simp only [powerOther, py_bind_ok] at hq
    obtain ⟨_, _, hq⟩ := hq
    exact elementwise_ne_nil T hq
  have hy' : ND.map2 (· * ·) y1 (y2.map fun x => x⁻¹) = .ok y := by
    rw [← hy]
    unfold ND.map2
    show (match bshape y1.shape y2.shape with | none => _ | some R => _) = _
    cases bshape y1.shape y2.shape with
    | none => rfl
    | some R => simp only [ND.bget_map, div_eq_mul_inv]
  exact C18_multiply hinit hz ha k2 ha0 hq0 h1 k1 hy' hne hc

end
end TEA
end AB
