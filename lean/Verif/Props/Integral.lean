/-
C66: bounding integrals (/repo/autobound/notebooks/bounding_integrals.ipynb).
-/
import Verif.Proofs.Notebooks
import Mathlib.Analysis.SpecialFunctions.Integrals.Basic

set_option linter.unusedSectionVars false

namespace AB
namespace NB
open JB MeasureTheory

theorem antiderivative_eq (cs : List ℝ) (x : ℝ) :
    antiderivative cs x = ∑ i ∈ Finset.range cs.length, cs.getD i 0 * x ^ (i + 1) / ((i + 1 : ℕ) : ℝ) :=
  enum_map_sum cs 0 fun i c => c * x ^ (i + 1) / ((i + 1 : ℕ) : ℝ)

theorem continuous_evalAt (cs : List ℝ) : Continuous (evalAt cs) :=
  continuous_finsetSum _ fun i _ => continuous_const.mul (continuous_id.pow i)

/-- **C66 (`integrate`).** `integrate(coefficients, a, b)` is the integral over `[a, b]` of the polynomial with these
coefficients. -/
theorem C66_integrate (cs : List ℝ) (a b : ℝ) :
    integrate cs a b = ∫ x in a..b, ∑ i ∈ Finset.range cs.length, cs.getD i 0 * x ^ i := by
  rw [intervalIntegral.integral_finsetSum (f := fun i x => cs.getD i 0 * x ^ i) fun i _ =>
    (continuous_const.mul (continuous_id.pow i)).intervalIntegrable a b]
  unfold integrate
  rw [antiderivative_eq, antiderivative_eq, ← Finset.sum_sub_distrib]
  refine Finset.sum_congr rfl fun i _ => ?_
  rw [intervalIntegral.integral_const_mul, integral_pow]
  push_cast
  ring

theorem integral_shift (cs : List ℝ) (a b x0 : ℝ) :
    ∫ x in a..b, evalAt cs (x - x0) = integrate cs (a - x0) (b - x0) := by
  rw [intervalIntegral.integral_comp_sub_right (fun x => evalAt cs x), C66_integrate]
  rfl

variable {lib : Lib ℝ} {sem : Sem ℝ} {jaxpr : Jaxpr ℝ} {consts : List (ND ℝ)} {f : ℝ → ℝ} {a b : ℝ} {degree : ℤ}

/-- what `integral_bound_v0` does, when `taylor_bounds` returns -/
theorem v0_inv (hlib : LibSound lib sem) (hab : a ≤ b) (hf : Computes sem jaxpr consts f a b) {r : ℝ × ℝ}
    (h : integralBoundV0 lib jaxpr consts a b degree = .ok r) :
    ∃ bnd, taylorBounds lib jaxpr consts degree false (ND.scalar ((a + b) / 2)) (ND.scalar a) (ND.scalar b) = .ok bnd ∧
      Even degree.toNat ∧
      r = (integrate (bnd.coefficients.map lo0) (a - (a + b) / 2) (b - (a + b) / 2),
        integrate (bnd.coefficients.map hi0) (a - (a + b) / 2) (b - (a + b) / 2)) := by
  unfold integralBoundV0 at h
  by_cases hd : degree % 2 ≠ 0
  · rw [if_pos hd] at h; cases h
  rw [if_neg hd] at h
  rw [not_not] at hd
  simp only [py_bind_ok, py_pure] at h
  obtain ⟨bnd, hb, l, hl, u, hu, rfl⟩ := h
  have h0 : a ≤ (a + b) / 2 ∧ (a + b) / 2 ≤ b := ⟨by linarith, by linarith⟩
  obtain ⟨z, y, hz, -, hy, -, -, -, -, hs⟩ := computes_sound hlib hf h0 h0 hb
  rw [floats_ok fun c hc => (scalar_shapes hs hz hy hc).2.1] at hl
  rw [floats_ok fun c hc => (scalar_shapes hs hz hy hc).2.2] at hu
  cases hl; cases hu
  exact ⟨bnd, hb, by rw [Nat.even_iff]; omega, rfl⟩

theorem v0_pointwise (hlib : LibSound lib sem) (harr : LibArr lib) (hf : Computes sem jaxpr consts f a b)
    {bnd : Bounds ℝ} {x0 x : ℝ} (h0 : a ≤ x0 ∧ x0 ≤ b)
    (hb : taylorBounds lib jaxpr consts degree false (ND.scalar x0) (ND.scalar a) (ND.scalar b) = .ok bnd)
    (hd : Even degree.toNat) (hx : x ∈ Set.Icc a b) :
    evalAt (bnd.coefficients.map lo0) (x - x0) ≤ f x ∧ f x ≤ evalAt (bnd.coefficients.map hi0) (x - x0) ∧
      ∃ l u, bnd.lower (ND.scalar x) = .ok l ∧ bnd.upper (ND.scalar x) = .ok u ∧
        evalAt (bnd.coefficients.map lo0) (x - x0) = l.get [] ∧ evalAt (bnd.coefficients.map hi0) (x - x0) = u.get [] := by
  obtain ⟨z, y, hz, hzv, hy, hyv, hbx, hmap, hlen, hs⟩ := computes_sound hlib hf h0 hx hb
  have ha := coefficients_arr harr hb
  obtain ⟨r, hr, -, e1, e2, h1, h2⟩ := scalar_poly_bounds hs hz hy (fun i c hc => by
    rcases lt_or_ge i degree.toNat with hi | hi
    · exact Or.inl (ha i c hc hi)
    · have : i < bnd.coefficients.length := (List.getElem?_eq_some_iff.1 hc).1
      have : i = degree.toNat := by omega
      exact Or.inr (this ▸ hd.pow_nonneg _))
  rw [hzv] at e1 e2 h1 h2
  rw [hyv] at h1 h2
  have hcall : bnd.call (ND.scalar x) = .ok r := by
    unfold Bounds.call
    rw [hbx, hmap, py_ok_bind]
    exact hr
  refine ⟨h1, h2, (TEA.toInterval r).1, (TEA.toInterval r).2, ?_, ?_, e1, e2⟩
  · simp only [Bounds.lower, hcall, py_ok_bind]; rfl
  · simp only [Bounds.upper, hcall, py_ok_bind]; rfl

/-- **C66 (one region).** If `f` is integrable over `[a, b]` and `integral_bound_v0(f, a, b, degree)` returns
`(lower, upper)`, then `lower ≤ ∫ f ≤ upper`, for every program and every degree. -/
theorem C66_v0 (hlib : LibSound lib sem) (harr : LibArr lib) (hab : a ≤ b) (hf : Computes sem jaxpr consts f a b)
    (hint : IntervalIntegrable f volume a b) {l u : ℝ}
    (h : integralBoundV0 lib jaxpr consts a b degree = .ok (l, u)) :
    l ≤ ∫ x in a..b, f x ∧ ∫ x in a..b, f x ≤ u := by
  obtain ⟨bnd, hb, hd, e⟩ := v0_inv hlib hab hf h
  cases e
  have h0 : a ≤ (a + b) / 2 ∧ (a + b) / 2 ≤ b := ⟨by linarith, by linarith⟩
  have hp := fun x (hx : x ∈ Set.Icc a b) => v0_pointwise hlib harr hf h0 hb hd hx
  have hc : ∀ cs : List ℝ, IntervalIntegrable (fun x => evalAt cs (x - (a + b) / 2)) volume a b := fun cs =>
    ((continuous_evalAt cs).comp (continuous_id.sub continuous_const)).intervalIntegrable a b
  rw [← integral_shift, ← integral_shift]
  exact ⟨intervalIntegral.integral_mono_on hab (hc _) hint fun x hx => (hp x hx).1,
    intervalIntegral.integral_mono_on hab hint (hc _) fun x hx => (hp x hx).2.1⟩

/-- **C66 (polynomials).** If `f` is (certified to be) a polynomial of degree at most `degree`, both bounds are equal
to the integral. -/
theorem C66_v0_exact (hlib : LibSound lib sem) (harr : LibArr lib) (hab : a ≤ b)
    (hf : Computes sem jaxpr consts f a b) {deg : ℤ → ℕ} (hpoly : PolyProgram deg degree.toNat jaxpr) {l u : ℝ}
    (h : integralBoundV0 lib jaxpr consts a b degree = .ok (l, u)) :
    l = ∫ x in a..b, f x ∧ u = ∫ x in a..b, f x := by
  obtain ⟨bnd, hb, hd, e⟩ := v0_inv hlib hab hf h
  cases e
  have h0 : a ≤ (a + b) / 2 ∧ (a + b) / 2 ≤ b := ⟨by linarith, by linarith⟩
  have hp : ∀ x ∈ Set.Icc a b, evalAt (bnd.coefficients.map lo0) (x - (a + b) / 2) = f x ∧
      evalAt (bnd.coefficients.map hi0) (x - (a + b) / 2) = f x := by
    intro x hx
    obtain ⟨-, -, l, u, hl, hu, e1, e2⟩ := v0_pointwise hlib harr hf h0 hb hd hx
    obtain ⟨v0, y0, ev0, n0, -, -, -⟩ := hf.eval _ h0.1 h0.2
    obtain ⟨v, y, ev, n, hy, hys, hyv⟩ := hf.eval x hx.1 hx.2
    obtain ⟨l', u', hl', hu', s1, s2⟩ := C63_polynomial_exact hlib hpoly (lo := ND.scalar a) (hi := ND.scalar b)
      (x0 := ND.scalar ((a + b) / 2)) (x := ND.scalar x) rfl ⟨rfl, fun _ _ => h0⟩ rfl hb (hf.fits _ h0.1 h0.2) ev0 n0
      ev n hy
    rw [hl] at hl'; rw [hu] at hu'; cases hl'; cases hu'
    rw [e1, e2, ← hyv]
    exact ⟨s1.2 [] (by rw [s1.1, hys]; exact .nil), s2.2 [] (by rw [s2.1, hys]; exact .nil)⟩
  rw [← integral_shift, ← integral_shift]
  refine ⟨intervalIntegral.integral_congr fun x hx => ?_, intervalIntegral.integral_congr fun x hx => ?_⟩
  · exact (hp x (by rwa [Set.uIcc_of_le hab] at hx)).1
  · exact (hp x (by rwa [Set.uIcc_of_le hab] at hx)).2

/-- what is true after `n` grid cells -/
theorem v1_prefix {w : ℝ} {N : ℕ} {P : ℝ → ℝ → ℝ → Prop} (hP0 : P a 0 0)
    (hP : ∀ (i : ℕ) (s t l u : ℝ), i < N → P (a + w * i) s t →
      integralBoundV0 lib jaxpr consts (a + w * i) (a + w * i + w) degree = .ok (l, u) →
      P (a + w * i + w) (s + l) (t + u)) :
    ∀ (n : ℕ) {r : ℝ × ℝ}, n ≤ N → (List.range n).foldlM (v1Step lib jaxpr consts a w degree) (0, 0) = .ok r →
      P (a + w * n) r.1 r.2
  | 0, r, _, h => by
    cases h
    simpa using hP0
  | n + 1, r, hn, h => by
    rw [List.range_succ, List.foldlM_append, py_bind_ok] at h
    obtain ⟨q, hq, h⟩ := h
    rw [List.foldlM_cons] at h
    simp only [v1Step, List.foldlM_nil, py_bind_ok, py_pure] at h
    obtain ⟨_, ⟨⟨l, u⟩, hlu, rfl⟩, rfl⟩ := h
    have := hP n _ _ l u (by omega) (v1_prefix hP0 hP n (by omega) hq) hlu
    rwa [show a + w * n + w = a + w * ((n + 1 : ℕ) : ℝ) by push_cast; ring] at this

theorem cell {N : ℕ} (hN : N ≠ 0) (hab : a ≤ b) {i : ℕ} (hi : i < N) :
    a ≤ a + (b - a) / N * i ∧ a + (b - a) / N * i ≤ a + (b - a) / N * i + (b - a) / N ∧
      a + (b - a) / N * i + (b - a) / N ≤ b := by
  have h0 : (0 : ℝ) < N := by exact_mod_cast Nat.pos_of_ne_zero hN
  have hw : 0 ≤ (b - a) / N := div_nonneg (by linarith) h0.le
  have hi' : ((i : ℝ) + 1) ≤ N := by exact_mod_cast hi
  refine ⟨by nlinarith [(Nat.cast_nonneg i : (0 : ℝ) ≤ i)], by linarith, ?_⟩
  have h1 : (b - a) / N * ((i : ℝ) + 1) ≤ (b - a) / N * N := mul_le_mul_of_nonneg_left hi' hw
  rw [div_mul_cancel₀ _ h0.ne'] at h1
  linarith

theorem v1_end {N : ℕ} (hN : N ≠ 0) : a + (b - a) / N * N = b := by
  rw [div_mul_cancel₀ _ (by exact_mod_cast hN : (N : ℝ) ≠ 0)]; ring

/-- **C66 (grid).** If `f` is integrable over `[a, b]` and `integral_bound_v1(f, a, b, degree, num_grid_cells)` returns
`(lower, upper)`, then `lower ≤ ∫ f ≤ upper`, for every number of cells. -/
theorem C66_v1 (hlib : LibSound lib sem) (harr : LibArr lib) (hab : a ≤ b) (hf : Computes sem jaxpr consts f a b)
    (hint : IntervalIntegrable f volume a b) {numGridCells : ℕ} {l u : ℝ}
    (h : integralBoundV1 lib jaxpr consts a b degree numGridCells = .ok (l, u)) :
    l ≤ ∫ x in a..b, f x ∧ ∫ x in a..b, f x ≤ u := by
  unfold integralBoundV1 at h
  by_cases hN : numGridCells = 0
  · rw [if_pos hN] at h; cases h
  rw [if_neg hN] at h
  have := v1_prefix (P := fun t s s' => t ≤ b → s ≤ ∫ x in a..t, f x ∧ ∫ x in a..t, f x ≤ s')
    (by intro _; simp) (fun i s t l u hi hp hlu _ => by
      obtain ⟨c1, c2, c3⟩ := cell hN hab hi
      obtain ⟨p1, p2⟩ := hp (c2.trans c3)
      have sub : ∀ s t, a ≤ s → s ≤ t → t ≤ b → IntervalIntegrable f volume s t := fun s t h1 h2 h3 =>
        hint.mono_set (by rw [Set.uIcc_of_le h2, Set.uIcc_of_le hab]; exact Set.Icc_subset_Icc h1 h3)
      obtain ⟨q1, q2⟩ := C66_v0 hlib harr c2 (hf.sub c1 c3) (sub _ _ c1 c2 c3) hlu
      rw [← intervalIntegral.integral_add_adjacent_intervals (sub _ _ le_rfl c1 (c2.trans c3)) (sub _ _ c1 c2 c3)]
      exact ⟨add_le_add p1 q1, add_le_add p2 q2⟩) numGridCells le_rfl h
  rw [v1_end hN] at this
  exact this le_rfl

/-- **C66 (grid, polynomials).** -/
theorem C66_v1_exact (hlib : LibSound lib sem) (harr : LibArr lib) (hab : a ≤ b)
    (hf : Computes sem jaxpr consts f a b) (hint : IntervalIntegrable f volume a b)
    {deg : ℤ → ℕ} (hpoly : PolyProgram deg degree.toNat jaxpr)
    {numGridCells : ℕ} {l u : ℝ} (h : integralBoundV1 lib jaxpr consts a b degree numGridCells = .ok (l, u)) :
    l = ∫ x in a..b, f x ∧ u = ∫ x in a..b, f x := by
  unfold integralBoundV1 at h
  by_cases hN : numGridCells = 0
  · rw [if_pos hN] at h; cases h
  rw [if_neg hN] at h
  have := v1_prefix (P := fun t s s' => t ≤ b → s = ∫ x in a..t, f x ∧ s' = ∫ x in a..t, f x)
    (by intro _; simp) (fun i s t l u hi hp hlu _ => by
      obtain ⟨c1, c2, c3⟩ := cell hN hab hi
      obtain ⟨p1, p2⟩ := hp (c2.trans c3)
      have sub : ∀ s t, a ≤ s → s ≤ t → t ≤ b → IntervalIntegrable f volume s t := fun s t h1 h2 h3 =>
        hint.mono_set (by rw [Set.uIcc_of_le h2, Set.uIcc_of_le hab]; exact Set.Icc_subset_Icc h1 h3)
      obtain ⟨q1, q2⟩ := C66_v0_exact hlib harr c2 (hf.sub c1 c3) hpoly hlu
      rw [← intervalIntegral.integral_add_adjacent_intervals (sub _ _ le_rfl c1 (c2.trans c3)) (sub _ _ c1 c2 c3),
        p1, p2, q1, q2]
      exact ⟨rfl, rfl⟩) numGridCells le_rfl h
  rw [v1_end hN] at this
  exact this le_rfl

/-- **C66 (returns).** `integral_bound_v0` returns whenever the degree is even and `taylor_bounds` returns; an odd degree
is rejected. -/
theorem C66_returns (hlib : LibSound lib sem) (hab : a ≤ b) (hf : Computes sem jaxpr consts f a b) :
    (degree % 2 ≠ 0 → integralBoundV0 lib jaxpr consts a b degree = .error .notImplemented) ∧
    (degree % 2 = 0 → (∃ bnd, taylorBounds lib jaxpr consts degree false (ND.scalar ((a + b) / 2)) (ND.scalar a)
      (ND.scalar b) = .ok bnd) → ∃ l u, integralBoundV0 lib jaxpr consts a b degree = .ok (l, u)) := by
  refine ⟨fun h => by unfold integralBoundV0; rw [if_pos h], fun h => ?_⟩
  rintro ⟨bnd, hb⟩
  have h0 : a ≤ (a + b) / 2 ∧ (a + b) / 2 ≤ b := ⟨by linarith, by linarith⟩
  obtain ⟨z, y, hz, -, hy, -, -, -, -, hs⟩ := computes_sound hlib hf h0 h0 hb
  refine ⟨integrate (bnd.coefficients.map lo0) (a - (a + b) / 2) (b - (a + b) / 2),
    integrate (bnd.coefficients.map hi0) (a - (a + b) / 2) (b - (a + b) / 2), ?_⟩
  unfold integralBoundV0
  rw [if_neg (by rw [not_not]; exact h)]
  dsimp only
  rw [hb, py_ok_bind, floats_ok fun c hc => (scalar_shapes hs hz hy hc).2.1, py_ok_bind,
    floats_ok fun c hc => (scalar_shapes hs hz hy hc).2.2, py_ok_bind]
  rfl

end NB
end AB
