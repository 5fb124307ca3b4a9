/-
C82: the element-wise operations of enclosure_arithmetic.py with generators that are right up to an error.  The
proofs follow those of C22/C23 (Props/Encl4.lean, Props/SoundEncl.lean), with an arbitrary array near `f(y)` in place
of `f(y)`.
-/
import Verif.Spec.Near
import Verif.Props.TaylorMain
import Verif.Proofs.Trace2

set_option linter.unusedSectionVars false

namespace AB
variable {K : Type} [Field K] [LinearOrder K] [IsStrictOrderedRing K]
open IA (repS)

namespace TEA
variable {T : TEA K}
section
variable {md : ℕ} {lo hi : ND K} (hinit : TEA.init md lo hi = .ok T) {z : ND K}
  (hz : (Coef.ivl lo hi).Contains z)

include hinit hz in
/-- the common part of C22, for any condition on batch shapes -/
theorem near_core_mode {U : Mode} {ε : K} {f : K → K} {gen : Generator K}
    (hgen : NearGenerator ε f gen) {arg e c : Encl K} (harg : WellFormedEncl arg) {y x0 : ND K}
    (hC : U.Cm y.shape.length)
    (hu : ∀ i c B, arg[i]? = some c → c.shape = B ++ repS i z.shape → U i B) (hy : Encloses arg z y)
    (hne : ∃ I, ValidIdx y.shape I) {a0 : Coef K} (ha0 : arg[0]? = some a0)
    (hx0 : T.expansionPoint a0 = .ok x0) {r : Coef K} (hr : r.WF)
    (hrn : U 0 r.shape) (hrs : ble r.shape y.shape)
    (hry : ∀ I, ValidIdx y.shape I → r.Mem I (y.get I) ∧ r.Mem I (x0.bget I))
    (hg : gen x0 (toInterval r) T.maxDegree = .ok e) (hc : T.composeEnclosures e arg = .ok c) :
    ∃ w, NearArr ε w (y.map f) ∧ Encloses c z w ∧ WellFormedEncl c ∧ VEU U z.shape y.shape c ∧ (e.length ≤ md + 1 ∧ WellFormedEncl e) ∧
      x0.shape = a0.shape := by
  obtain ⟨hmd, hT, hzm, hzs⟩ := unpack hinit hz
  have hx0s : x0.shape = a0.shape ∧ (a0 = .arr x0 ∨ T.maxDegree = 0) := by
    unfold expansionPoint at hx0
    cases a0 with
    | arr a => cases hx0; exact ⟨rfl, Or.inl rfl⟩
    | ivl l h =>
      simp only at hx0
      split_ifs at hx0 with hm
      cases hx0; exact ⟨rfl, Or.inr hm⟩
  have hV := (hy.at harg (ble_refl _)).1
  have nx0 : U 0 x0.shape := by rw [hx0s.1]; exact hu 0 a0 _ ha0 (by simp [IA.repS])
  have lx0 : ble x0.shape y.shape := by
    obtain ⟨-, B, hB, hle⟩ := hV 0 a0 ha0
    have : a0.shape = B := by simpa [IA.repS] using hB
    rw [hx0s.1, this]; exact hle
  obtain ⟨R, hR, lR⟩ := bshape_lub lx0 hrs
  have hlo : r.lo.shape = r.shape := Coef.lo_shape r
  have hhi : r.hi.shape = r.shape := hr.hi_shape
  have lR' := bshape_le hR
  have hRne : ∃ I, ValidIdx R I := by
    obtain ⟨I, hI⟩ := hne
    exact ⟨_, validIdx_bidx lR hI⟩
  rw [toInterval_eq] at hg
  obtain ⟨g0, g1, g2, g3, g4⟩ := hgen x0 r.lo r.hi T.maxDegree e R (hlo.trans hhi.symm)
    (by rw [hlo]; exact hR) hRne (fun I hI => by
      obtain ⟨L, hL, rfl⟩ := ble_surj lR hne hI
      have hl : R.length ≤ L.length := (ble_length lR).trans hL.length.le
      rw [ND.bget_bidx _ (hlo ▸ lR'.2) hl, ND.bget_bidx _ lR'.1 hl, ND.bget_bidx _ (hhi ▸ lR'.2) hl]
      exact (hry L hL).2) hg
  have hδ : ∃ δ, ND.map2 (· - ·) y x0 = .ok δ := by
    obtain ⟨δ, hδ, -⟩ := ND.map2_lub (· - ·) (ble_refl y.shape) lx0
    exact ⟨δ, hδ⟩
  obtain ⟨δ, hδ⟩ := hδ
  obtain ⟨w, hw, hf⟩ := g4 y δ (ble_iff_bshape.2 lR) (fun I hI => (hry I hI).1) hδ
  rw [hmd] at g1
  have q1 : arg[0]? = some (.arr x0) ∨ e.length = 1 := by
    rcases hx0s.2 with h | h
    · left; rw [ha0, h]
    · right
      have : e.length ≠ 0 := fun h => g0 (List.length_eq_zero_iff.1 h)
      omega
  have q2 : ∀ c ∈ e, U 0 c.shape := by
    intro x hx
    rcases g3 x hx with h | h | h | h
    · rw [h]; exact hC.pw.nil
    · rw [h]; exact nx0
    · rw [h, hlo]; exact hrn
    · rw [h]; exact hC.pw.cl le_rfl nx0 hrn hR
  obtain ⟨k1, k2, k3⟩ := compose_mode hinit hz harg g2 (y := y) (y0 := x0) hC q1 hu q2 g1 hy hδ hf hw.1
    hne hc
  exact ⟨w, hw, k1, k2, k3, ⟨g1, g2⟩, hx0s.1⟩

include hinit hz in
/-- element-wise functions with a derived trust region, for any condition on batch shapes -/
theorem near_derived_mode {U : Mode} {ε : K} {f : K → K} {gen : Generator K}
    (hgen : NearGenerator ε f gen) {arg c : Encl K} (harg : WellFormedEncl arg) {y : ND K}
    (hC : U.Cm y.shape.length)
    (hu : ∀ i c B, arg[i]? = some c → c.shape = B ++ repS i z.shape → U i B) (hy : Encloses arg z y)
    (hne : ∃ I, ValidIdx y.shape I) (h0 : (Coef.ivl lo hi).Contains ⟨lo.shape, fun _ => 0⟩)
    (hc : T.elementwiseFun gen arg = .ok c) :
    ∃ w, NearArr ε w (y.map f) ∧ Encloses c z w ∧ WellFormedEncl c ∧ VEU U z.shape y.shape c ∧
    ∃ r a0 x0 e, arg[0]? = some a0 ∧ x0.shape = a0.shape ∧
      gen x0 (toInterval r) T.maxDegree = .ok e ∧ (e.length ≤ md + 1 ∧ WellFormedEncl e) ∧
      T.composeEnclosures e arg = .ok c := by
  obtain ⟨hmd, hT, hzm, hzs⟩ := unpack hinit hz
  have hTR : T.trustRegion = .ivl lo hi := by rw [(shape_of_init hinit).1]; rfl
  unfold elementwiseFun argRegion at hc
  simp only [py_bind_ok] at hc
  obtain ⟨r, ⟨out, hout, hr⟩, hc⟩ := hc
  cases arg with
  | nil => cases hc
  | cons a0 arg =>
    simp only [py_bind_ok] at hc
    obtain ⟨x0, hx0, e, he, hc⟩ := hc
    have hV := (hy.at harg (ble_refl _)).1
    rw [hzs] at hV
    have hVU : VEU U T.xShape y.shape (a0 :: arg) := by
      intro i x hx
      obtain ⟨wx, B, hB, hle⟩ := hV i x hx
      exact ⟨wx, B, hB, hle, hu i x B hx (by rw [hzs]; exact hB)⟩
    obtain ⟨t1, t2, -, -, t5⟩ := trunc_sel (trWF T hT) hzm hC.pw.cl hVU hout
    obtain ⟨-, -, -, -, s5⟩ := trunc_sel (z := fun _ => 0) (trWF T hT) (by
      rw [hTR]; exact zmem_contains (Coef.sameShape_iff.1 (by
        obtain ⟨rfl, h⟩ := shape_of_init hinit; exact h)) h0) hC.pw.cl hVU hout
    have hol : out.length = 1 := by simpa using t2
    obtain ⟨r', hr'⟩ := List.length_eq_one_iff.1 hol
    subst hr'
    cases hr
    obtain ⟨wr, B, hB, hBu⟩ := t1 0 r rfl
    have hB : r.shape = B := by simpa [IA.repS] using hB
    subst hB
    obtain ⟨w, hw, k1, k2, k3, k4, k5⟩ := near_core_mode hinit hz hgen harg hC hu hy hne (a0 := a0) rfl hx0
      wr hBu.2 hBu.1 (fun I hI => ⟨by
        obtain ⟨u, hu', eu⟩ := Encloses.SR_at harg hzs hy (ble_refl _) hI
        obtain ⟨W, hW, eW, -⟩ := t5 I hI.length.le u hu'.sel
        have hm := (hW 0).1 r rfl [] (by simp [IA.repS, ValidIdx.nil])
        rw [List.append_nil] at hm
        have : W 0 [] = y.get I := by
          have h1 : selVal T.trustRegion.shape z.get ([r] : Encl K).length W = W 0 [] := by
            simp [selVal, pair_zero_deg]
          rw [← h1, eW, ← ND.bget_valid _ hI]
          exact eu
        rwa [this] at hm, by
        obtain ⟨w, hw, hw0⟩ := lower_sel harg hV hI
        obtain ⟨W, hW, eW, -⟩ := s5 I hI.length.le w hw
        have hm := (hW 0).1 r rfl [] (by simp [IA.repS, ValidIdx.nil])
        rw [List.append_nil] at hm
        rw [selVal_zero_point _ _ (by simp), selVal_zero_point _ _ (by simp), hw0 a0 rfl] at eW
        have hx : a0.lo = x0 := by
          unfold expansionPoint at hx0
          cases a0 with
          | arr a => cases hx0; rfl
          | ivl l h =>
            simp only at hx0
            split_ifs at hx0 with hm
            cases hx0; rfl
        rw [eW, hx] at hm
        exact hm⟩) he hc
    exact ⟨w, hw, k1, k2, k3, r, a0, x0, e, rfl, k5, he, k4, hc⟩

include hinit hz in
theorem near_elementwise_core {gen : Generator K}
    (hks : KeepsShape gen)
    {arg c : Encl K} {y : ND K} (hy : SoundEncl arg z y)
    {w : ND K} (hws : w.shape = y.shape) (k1 : Encloses c z w) (k2 : WellFormedEncl c) (k3 : VEU (rankM y.ndim) z.shape y.shape c)
    {a0 : Coef K} {x0 : ND K} {e : Encl K} {tr : ND K × ND K} (q1 : arg[0]? = some a0)
    (q2 : x0.shape = a0.shape) (hew : WellFormedEncl e)
    (q3 : gen x0 tr T.maxDegree = .ok e) (q4 : e.length ≤ md + 1)
    (q5 : T.composeEnclosures e arg = .ok c) : SoundEncl c z w := by
  obtain ⟨hmd, hT, hzm, hzs⟩ := unpack hinit hz
  obtain ⟨e0, he0, hsh⟩ := hks _ _ _ _ q3
  have hsh := ble_iff_bshape.1 hsh
  obtain ⟨x', hx', hxs⟩ := compose_head T he0 (hew e0 (List.mem_of_getElem? he0)).wf (by
    rcases Nat.eq_zero_or_pos md with h | h
    · right
      have := (List.getElem?_eq_some_iff.1 he0).1
      omega
    · left; omega) q5
  refine ⟨compose_ne_nil T q5, k2, k1, fun x hx => ?_⟩
  rw [hx'] at hx; cases hx
  have h1 : a0.shape = y.shape := hy.head a0 q1
  obtain ⟨-, B, hB, hu⟩ := k3 0 _ hx'
  have hB : x'.shape = B := by simpa [IA.repS] using hB
  subst hB
  rw [hws]
  refine ble_antisymm hu.1 ?_
  show ble y.shape x'.shape
  rw [hxs, ← h1, ← q2]; exact hsh


include hinit hz in
/-- an element-wise function with a derived trust region -/
theorem near_elementwise {ε : K} {f : K → K} {gen : Generator K} (hgen : NearGenerator ε f gen) (hks : KeepsShape gen)
    {arg c : Encl K} {y : ND K} (hy : SoundEncl arg z y) (hub : UniformBatch z.shape y.ndim arg)
    (hne : ∃ I, ValidIdx y.shape I) (h0 : (Coef.ivl lo hi).Contains ⟨lo.shape, fun _ => 0⟩)
    (hc : T.elementwiseFun gen arg = .ok c) : ∃ w, NearArr ε w (y.map f) ∧ SoundEncl c z w := by
  obtain ⟨w, hw, k1, k2, k3, r, a0, x0, e, q1, q2, q3, ⟨q4, q4'⟩, q5⟩ := near_derived_mode hinit hz hgen hy.wf
    (U := rankM y.ndim) (rankM_cm _) (uniform_mode hub) hy.encl hne h0 hc
  exact ⟨w, hw, near_elementwise_core hinit hz hks hy hw.1 k1 k2 k3 q1 q2 q4' q3 q4 q5⟩

include hinit hz in
/-- a power that is not a nonnegative integer power -/
theorem near_powerOther {ε : K} {f : K → K} {gen : Generator K} (hgen : NearGenerator ε f gen) (hks : KeepsShape gen)
    {arg c : Encl K} {y : ND K} (hy : SoundEncl arg z y) (hub : UniformBatch z.shape y.ndim arg)
    (hne : ∃ I, ValidIdx y.shape I) (h0 : (Coef.ivl lo hi).Contains ⟨lo.shape, fun _ => 0⟩)
    (hc : T.powerOther gen arg = .ok c) : ∃ w, NearArr ε w (y.map f) ∧ SoundEncl c z w := by
  simp only [powerOther, py_bind_ok] at hc
  obtain ⟨_, _, hc⟩ := hc
  exact near_elementwise hinit hz hgen hks hy hub hne h0 hc

end
end TEA
end AB
