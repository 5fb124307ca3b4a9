/-
C20-C23: bilinear operations, composition, element-wise functions, division
(/repo/autobound/enclosure_arithmetic.py).
-/
import Verif.Props.Encl2

set_option linter.unusedSectionVars false

namespace AB
variable {K : Type} [Field K] [LinearOrder K] [IsStrictOrderedRing K]
open IA (repS)

namespace TEA
variable {T : TEA K}
section
variable {md : ℕ} {lo hi : ND K} (hinit : TEA.init md lo hi = .ok T) {z : ND K}
  (hz : (Coef.ivl lo hi).Contains z)

/-! ### C20 -/
include hinit hz in
/-- **C20.** `pbb` is any implementation of the documented contract for an operation with
nonnegative weights; then `arbitrary_bilinear(a, b, pbb)` encloses `op(y1, y2) = pbb(y1, y2, 0, 0)`.
-/
theorem C20_arbitrary_bilinear {Rc : List ℕ} {terms : List ℕ → List (K × List ℕ × List ℕ)}
    {pbb : ND K → ND K → ℕ → ℕ → Py (ND K)} {a b c : Encl K}
    (ha : WellFormedEncl a) (hb : WellFormedEncl b) (ha0 : a ≠ []) (hb0 : b ≠ []) {y1 y2 y : ND K}
    (hP : PairwiseContract z.shape y1.shape y2.shape Rc terms pbb)
    (hw : ∀ L, ValidIdx Rc L → ∀ t ∈ terms L, 0 ≤ t.1)
    (ea : ExactBatch z.shape y1.shape a) (eb : ExactBatch z.shape y2.shape b)
    (h1 : Encloses a z y1) (h2 : Encloses b z y2) (hy : pbb y1 y2 0 0 = .ok y)
    (hne : ∃ I, ValidIdx y.shape I) (hc : T.arbitraryBilinear a b pbb = .ok c) :
    Encloses c z y ∧ WellFormedEncl c ∧ ExactBatch z.shape y.shape c := by
  obtain ⟨-, hT, hzm, hzs⟩ := unpack hinit hz
  have hy0 := hP.2 0 0 [] [] y1 y2 y rfl rfl (by simp) (by simp) (by simpa using hy)
  simp only [List.append_nil] at hy0
  obtain ⟨ys, yv⟩ := hy0
  have va : VX T.xShape y1.shape a := fun i c hc =>
    ⟨(ha c (List.mem_of_getElem? hc)).wf, by rw [← hzs]; exact ea i c hc⟩
  have vb : VX T.xShape y2.shape b := fun i c hc =>
    ⟨(hb c (List.mem_of_getElem? hc)).wf, by rw [← hzs]; exact eb i c hc⟩
  have e1 : ∀ α, ∃ f, ValidIdx y1.shape α → Sel T.xShape a α f ∧
      selVal T.xShape z.get a.length f = y1.get α := by
    intro α
    by_cases hα : ValidIdx y1.shape α
    · obtain ⟨u, hu, eu⟩ := Encloses.SR_at ha hzs h1 (ble_refl _) hα
      exact ⟨u, fun _ => ⟨hu.sel, by rw [eu, ND.bget_valid _ hα]⟩⟩
    · exact ⟨0, fun h => absurd h hα⟩
  have e2 : ∀ α, ∃ f, ValidIdx y2.shape α → Sel T.xShape b α f ∧
      selVal T.xShape z.get b.length f = y2.get α := by
    intro α
    by_cases hα : ValidIdx y2.shape α
    · obtain ⟨u, hu, eu⟩ := Encloses.SR_at hb hzs h2 (ble_refl _) hα
      exact ⟨u, fun _ => ⟨hu.sel, by rw [eu, ND.bget_valid _ hα]⟩⟩
    · exact ⟨0, fun h => absurd h hα⟩
  choose f hf using e1
  choose g hg using e2
  obtain ⟨-, main⟩ := arbitraryBilinear_SR hT hzm (hzs ▸ hP) hw ha0 hb0 va vb hc
  have key : ∀ L, ValidIdx y.shape L → ∃ W, SR (exactM y.shape) T.xShape y.shape L c W ∧
      selVal T.xShape z.get c.length W = y.get L := by
   intro L hL
   rw [ys] at hL
   obtain ⟨W, hW, e⟩ := main L hL f g (fun α h => (hf α h).1) (fun α h => (hg α h).1)
   refine ⟨W, by rw [ys]; exact hW, ?_⟩
   rw [e, show L = L ++ [] ++ [] by simp, yv L [] [] hL .nil .nil]
   simp only [List.append_nil]
   congr 1
   apply List.map_congr_left
   intro t ht
   obtain ⟨t1, t2⟩ := hP.1 L hL t ht
   rw [(hf _ t1).2, (hg _ t2).2]
  obtain ⟨k1, k2⟩ := sound_of_SR hzs hne key
  refine ⟨k1, k2, ?_⟩
  obtain ⟨I, hI⟩ := hne
  obtain ⟨W, hW, -⟩ := key I hI
  intro i x hx
  obtain ⟨-, B, hB, hu⟩ := hW.veu i x hx
  rw [hB, hu.2, hzs]; rfl

/-! ### C21 -/

include hinit hz in
/-- composition, for any condition `U` on batch shapes compatible with composition -/
theorem compose_mode {U : Mode} {arg e c : Encl K} (harg : WellFormedEncl arg) (he : WellFormedEncl e)
    {y y0 δ fy : ND K} (hC : U.Cm y.shape.length) (h0 : arg[0]? = some (.arr y0) ∨ e.length = 1)
    (hu : ∀ i c B, arg[i]? = some c → c.shape = B ++ repS i z.shape → U i B)
    (hue : ∀ c ∈ e, U 0 c.shape)
    (hdeg : e.length ≤ md + 1)
    (hy : Encloses arg z y) (hδ : ND.map2 (· - ·) y y0 = .ok δ)
    (hf : ElemEncloses e δ fy) (hfs : fy.shape = y.shape)
    (hne : ∃ I, ValidIdx y.shape I) (hc : T.composeEnclosures e arg = .ok c) :
    Encloses c z fy ∧ WellFormedEncl c ∧ VEU U z.shape y.shape c := by
  obtain ⟨hmd, hT, hzm, hzs⟩ := unpack hinit hz
  obtain ⟨f1, f2, f3⟩ := hf.at he
  rw [hfs] at f1 f2 f3
  have key : ∀ I, ValidIdx fy.shape I → ∃ W, SR U T.xShape fy.shape I c W ∧
      selVal T.xShape z.get c.length W = fy.get I := by
    intro I hI
    rw [hfs] at hI ⊢
    obtain ⟨u, hs, eu⟩ := Encloses.SR_at harg hzs hy (ble_refl _) hI
    have hs' : SR U T.xShape y.shape I arg u := by
      refine ⟨fun i x hx => ⟨?_, (hs.1 i x hx).2⟩, hs.2⟩
      obtain ⟨wx, B, hB, hle⟩ := (hs.1 i x hx).1
      exact ⟨wx, B, hB, hle.1, hu i x B hx (by rw [hzs]; exact hB)⟩
    obtain ⟨k, k1, k2⟩ := f3 I hI
    obtain ⟨-, -, W, hW, eW⟩ := compose_SR hT hzm hC hI.length.le hs' (by rw [hmd]; exact hdeg)
      (k := k) (fun p c hc => ⟨⟨(he c (List.mem_of_getElem? hc)).wf, f1 c (List.mem_of_getElem? hc),
        hue c (List.mem_of_getElem? hc)⟩, k1 p c hc⟩) hc
    refine ⟨W, hW, ?_⟩
    rw [eW, k2]
    rcases h0 with h0 | h0
    · have hy0 := hs.1 0 _ h0
      have hm := hy0.2 [] (by simp [IA.repS, ValidIdx.nil])
      rw [Coef.mem_arr, List.append_nil] at hm
      have l0 : ble y0.shape y.shape := by
        obtain ⟨⟨-, B, hB, hle⟩, -⟩ := hy0
        have : y0.shape = B := by simpa [IA.repS] using hB
        rw [this]; exact hle.1
      have ds := (ND.map2_ok hδ).1
      rw [bshape_eq_of_ble' l0] at ds
      have hd : δ.bget I = y.bget I - y0.bget I := (ND.map2_ok hδ).2 I (by
        rw [← Option.some.inj ds]; exact hI.length.le)
      apply Finset.sum_congr rfl
      intro p _
      rw [eu, hm, hd]
    · simp [h0]
  have s := sound_of_SR hzs (hfs ▸ hne) key
  refine ⟨s.1, s.2, ?_⟩
  obtain ⟨I, hI⟩ := hne
  obtain ⟨W, hW, -⟩ := key I (hfs ▸ hI)
  have := hW.veu
  rwa [hfs, ← hzs] at this

theorem uniform_mode {xs : List ℕ} {n : ℕ} {arg : Encl K} (hu : UniformBatch xs n arg) :
    ∀ i c B, arg[i]? = some c → c.shape = B ++ repS i xs → rankM n i B := by
  intro i c B hx hB
  rcases hu i c hx with h | ⟨h, h'⟩
  · left
    unfold Coef.ndim at h
    rw [hB] at h
    simpa using h
  · right
    rw [hB] at h'
    exact ⟨h, (List.append_eq_nil_iff.1 h').1⟩

theorem uniform_of_mode {xs R : List ℕ} {n : ℕ} {c : Encl K} (k3 : VEU (rankM n) xs R c) :
    UniformBatch xs n c := by
  intro i x hx
  obtain ⟨-, B, hB, hle⟩ := k3 i x hx
  unfold Coef.ndim
  rw [hB]
  rcases hle.2 with h | ⟨h, h'⟩
  · left; simp [h]
  · right; exact ⟨h, by simp [h, h', IA.repS]⟩

include hinit hz in
/-- **C21.** Composition of an element-wise enclosure `e` about `y0` (of degree at most
`max_degree`) with an enclosure of `y` whose constant term is `y0`. (If `e` is constant its
expansion point does not matter.) -/
theorem C21_compose {arg e c : Encl K} (harg : WellFormedEncl arg) (he : WellFormedEncl e)
    {y y0 δ fy : ND K} (h0 : arg[0]? = some (.arr y0) ∨ e.length = 1)
    (hu : UniformBatch z.shape y.ndim arg)
    (hue : ∀ c ∈ e, c.ndim = y.ndim ∨ c.shape = [])
    (hdeg : e.length ≤ md + 1)
    (hy : Encloses arg z y) (hδ : ND.map2 (· - ·) y y0 = .ok δ)
    (hf : ElemEncloses e δ fy) (hfs : fy.shape = y.shape)
    (hne : ∃ I, ValidIdx y.shape I) (hc : T.composeEnclosures e arg = .ok c) :
    Encloses c z fy ∧ WellFormedEncl c ∧ UniformBatch z.shape y.ndim c := by
  obtain ⟨k1, k2, k3⟩ := compose_mode hinit hz harg he (U := rankM y.ndim) (rankM_cm _) h0
    (uniform_mode hu) (fun c hc => (hue c hc).imp id fun h => ⟨rfl, h⟩) hdeg hy hδ hf hfs hne hc
  exact ⟨k1, k2, uniform_of_mode k3⟩

end
end TEA

/-- C21 fails when the element-wise enclosure has a higher degree than `max_degree`: the terms of
degree `> max_degree` are dropped.  Here `f(y) = y²`, `e = (0, 0, 1)`, `arg = (0, 1)` (`y = x`),
`max_degree = 1`, trust region `[-1, 1]`: the result `(0, 0)` does not contain `f(1) = 1` at `z = 1`,
although all other hypotheses of `C21_compose` hold. -/
theorem C21_degree_counterexample : ∃ T : TEA ℚ,
    TEA.init 1 (ND.scalar (-1)) (ND.scalar 1) = .ok T ∧
    (Coef.ivl (ND.scalar (-1)) (ND.scalar 1)).Contains (ND.scalar 1) ∧
    Encloses [.arr (ND.scalar 0), .arr (ND.scalar 1)] (ND.scalar 1) (ND.scalar (1 : ℚ)) ∧
    ElemEncloses [.arr (ND.scalar 0), .arr (ND.scalar 0), .arr (ND.scalar 1)] (ND.scalar 1)
      (ND.scalar (1 : ℚ)) ∧
    ∃ c, T.composeEnclosures [.arr (ND.scalar 0), .arr (ND.scalar 0), .arr (ND.scalar 1)]
        [.arr (ND.scalar 0), .arr (ND.scalar 1)] = .ok c ∧
      ¬ Encloses c (ND.scalar 1) (ND.scalar (1 : ℚ)) := by
  decide +kernel

/-- C21 fails without the uniformity hypothesis: here `x` has shape (2,), `arg[0]` has shape (2,) and
`arg[1]` has shape (2,), i.e. scalar batch shape (such an enclosure is returned by `add` when numpy
broadcasting adds a scalar-valued function to a vector); `compose_enclosures` aligns the coefficient
of `e` with the axis of `x`. `arg = (0, <(1,1), z>)`, `e = (0, (1,5))`. -/
theorem C21_uniform_counterexample : ∃ T : TEA ℚ,
    TEA.init 1 (ND.mk' [2] [-1, -1]) (ND.mk' [2] [1, 1]) = .ok T ∧
    (Coef.ivl (ND.mk' [2] [-1, -1]) (ND.mk' [2] [1, 1])).Contains (ND.mk' [2] [1, 0]) ∧
    Encloses [.arr (ND.mk' [2] [0, 0]), .arr (ND.mk' [2] [1, 1])] (ND.mk' [2] [1, 0])
      (ND.mk' [2] [1, (1 : ℚ)]) ∧
    ElemEncloses [.arr (ND.scalar 0), .arr (ND.mk' [2] [1, 5])] (ND.mk' [2] [1, (1 : ℚ)])
      (ND.mk' [2] [1, (5 : ℚ)]) ∧
    ∃ c, T.composeEnclosures [.arr (ND.scalar 0), .arr (ND.mk' [2] [1, 5])]
        [.arr (ND.mk' [2] [0, 0]), .arr (ND.mk' [2] [1, 1])] = .ok c ∧
      ¬ Encloses c (ND.mk' [2] [1, 0]) (ND.mk' [2] [1, (5 : ℚ)]) := by
  decide +kernel

/-! ### Concrete instances for C20 and C21 -/

/-- the batched dot product of two vectors of length 2 -/
def exDot (u v : ND ℚ) (p _q : ℕ) : Py (ND ℚ) :=
  .ok ⟨u.shape.drop 1 ++ v.shape.drop 1, fun L =>
    u.get (0 :: L.take p) * v.get (0 :: L.drop p) + u.get (1 :: L.take p) * v.get (1 :: L.drop p)⟩

theorem exDot_contract : PairwiseContract [2] [2] [2] [] (fun _ => [(1, [0], [0]), (1, [1], [1])]) exDot := by
  refine ⟨fun L _ t ht => ?_, fun i j P Q u v s hP hQ hu hv h => ?_⟩
  · simp only [List.mem_cons, List.not_mem_nil, or_false] at ht
    rcases ht with rfl | rfl <;> decide
  · cases h
    refine ⟨by simp [hu, hv], fun L I J hL hI hJ => ?_⟩
    cases hL
    have := hI.length
    rw [hP] at this
    have hI' : I.length = i := by simpa using this.symm
    simp [hI']

/-- an enclosure with batch shape (2,) in a variable of shape (2,) -/
def exG : Encl ℚ := [.arr (ND.mk' [2] [1, 2]), .ivl (ND.mk' [2, 2] [0, 0, 1, -1])
  (ND.mk' [2, 2] [1, 0, 1, 0])]

instance {xs R : List ℕ} {E : Encl ℚ} : Decidable (ExactBatch xs R E) :=
  decidable_of_iff (∀ i (h : i < E.length), (E[i]).shape = R ++ (List.replicate i xs).flatten)
    ⟨fun h i c hc => by
      obtain ⟨h1, rfl⟩ := List.getElem?_eq_some_iff.1 hc
      exact h i h1, fun h i hi => h i _ (List.getElem?_eq_getElem hi)⟩

instance {xs : List ℕ} {n : ℕ} {E : Encl ℚ} : Decidable (UniformBatch xs n E) :=
  decidable_of_iff (∀ i (h : i < E.length), (E[i]).ndim = n + i * xs.length ∨ (i = 0 ∧ (E[i]).shape = []))
    ⟨fun h i c hc => by
      obtain ⟨h1, rfl⟩ := List.getElem?_eq_some_iff.1 hc
      exact h i h1, fun h i hi => h i _ (List.getElem?_eq_getElem hi)⟩

example : ∃ T, TEA.init 1 exLo exHi = .ok T ∧ (Coef.ivl exLo exHi).Contains exZ ∧
    WellFormedEncl exG ∧ ExactBatch exZ.shape [2] exG ∧ Encloses exG exZ (ND.mk' [2] [5/4, 3]) ∧
    (∃ y, exDot (ND.mk' [2] [5/4, 3]) (ND.mk' [2] [5/4, 3]) 0 0 = .ok y ∧ ValidIdx y.shape [] ∧
      ∃ c, T.arbitraryBilinear exG exG exDot = .ok c ∧ c.length = 2 ∧ Encloses c exZ y) := by
  decide +kernel

/-- C21: `e = (1, 2, [0, 3])` about `y0 = (1, 2)`, `max_degree = 2` -/
example : ∃ T, TEA.init 2 exLo exHi = .ok T ∧ (Coef.ivl exLo exHi).Contains exZ ∧
    WellFormedEncl exG ∧ UniformBatch exZ.shape 1 exG ∧ exG[0]? = some (.arr (ND.mk' [2] [1, 2])) ∧
    Encloses exG exZ (ND.mk' [2] [5/4, 3]) ∧
    ElemEncloses [.arr (ND.scalar 1), .arr (ND.mk' [2] [2, -1]), .ivl (ND.scalar 0) (ND.scalar 3)]
      (ND.mk' [2] [1/4, 1]) (ND.mk' [2] [25/16, (2 : ℚ)]) ∧
    (∃ δ, ND.map2 (· - ·) (ND.mk' [2] [5/4, 3]) (ND.mk' [2] [1, (2 : ℚ)]) = .ok δ ∧
      δ.Same (ND.mk' [2] [1/4, 1])) ∧
    ∃ c, T.composeEnclosures [.arr (ND.scalar 1), .arr (ND.mk' [2] [2, -1]),
      .ivl (ND.scalar 0) (ND.scalar 3)] exG = .ok c ∧ c.length = 3 ∧
      Encloses c exZ (ND.mk' [2] [25/16, (2 : ℚ)]) := by
  refine ⟨⟨2, exLo, exHi⟩, rfl, by decide +kernel, by decide +kernel, by decide +kernel,
    rfl, by decide +kernel, by decide +kernel, by decide +kernel, by decide +kernel⟩

end AB
