/-
C29-C31: the generic element-wise enclosures
(/repo/autobound/primitive_enclosures.py:188-241, 277-305).
-/
import Verif.Proofs.Scalar
import Mathlib.Analysis.SpecialFunctions.ExpDeriv

namespace AB
open PE EF Set

/-- **C29.** If the `k`-th derivative of `f = D 0` is increasing (decreasing) on the trust region
`[a, b]` containing `x0`, then `sharp_enclosure_monotonic_derivative`, given the Taylor coefficients
at `x0`, returns an enclosure of `f` over `[a, b]` with a well-formed final interval, which is attained at
both end points of the trust region; no enclosure with the same leading coefficients has a smaller
final interval (if `a < x0 < b`). -/
theorem C29_sharp_monotone {D : ℕ → ℝ → ℝ} {k : ℕ} {a b x0 : ℝ} (hD : IsDerivChain D k a b)
    {increasing : Bool}
    (hmono : if increasing then MonotoneOn (D k) (Icc a b) else AntitoneOn (D k) (Icc a b))
    (hx0 : x0 ∈ Icc a b) (ha : NotCapped x0 k a) (hb : NotCapped x0 k b) :
    ∃ s, sharpMonotonic x0 k a b (D 0) (taylorCoeffs D k x0) increasing = .ok s ∧
      s.1.length = k ∧ s.2.1 ≤ s.2.2 ∧ SEncl.EnclosesFun s (D 0) x0 a b ∧
      (∀ e ∈ [a, b], ∃ r, (r = s.2.1 ∨ r = s.2.2) ∧
        D 0 e = ∑ i ∈ Finset.range k, s.1.getD i 0 * (e - x0) ^ i + r * (e - x0) ^ k) ∧
      ∀ t : SEncl ℝ, t.1 = s.1 → SEncl.EnclosesFun t (D 0) x0 a b → a < x0 → x0 < b →
        t.2.1 ≤ s.2.1 ∧ s.2.2 ≤ t.2.2 := by
  have hab : a ≤ b := hx0.1.trans hx0.2
  have hcx : Convex ℝ (Icc a b) := convex_Icc a b
  have hl : ((taylorCoeffs D k x0).take k).length = k := by simp [taylorCoeffs]
  have hget : ∀ i ∈ Finset.range k, ((taylorCoeffs D k x0).take k).getD i 0 = D i x0 / i.factorial := by
    intro i hi
    have hi := Finset.mem_range.1 hi
    rw [List.getD_eq_getElem?_getD, List.getElem?_take, if_pos hi, ← List.getD_eq_getElem?_getD,
      taylorCoeffs_getD D hi.le]
  have hval : ∀ e, D 0 e = ∑ i ∈ Finset.range k, ((taylorCoeffs D k x0).take k).getD i 0 * (e - x0) ^ i +
      rho D x0 k e * (e - x0) ^ k := by
    intro e
    rw [rho_spec D x0 k e]
    congr 1
    exact Finset.sum_congr rfl fun i hi => by rw [hget i hi]
  have huniq : ∀ t : SEncl ℝ, t.1 = (taylorCoeffs D k x0).take k → ∀ e, e ≠ x0 →
      SEncl.Has t (e - x0) (D 0 e) → t.2.1 ≤ rho D x0 k e ∧ rho D x0 k e ≤ t.2.2 := by
    rintro ⟨t1, t2⟩ rfl e he ⟨r, h1, h2, h3⟩
    simp only [hl] at h3
    rw [hval e] at h3
    have : rho D x0 k e = r := by
      have h4 := add_left_cancel h3
      exact mul_right_cancel₀ (pow_ne_zero _ (sub_ne_zero.2 he)) h4
    rw [this]; exact ⟨h1, h2⟩
  refine ⟨_, sharp_eq D ha hb increasing, hl, ?_, ?_, ?_, ?_⟩
  · cases increasing with
    | true => exact rho_mono hcx hD hmono hx0 (left_mem_Icc.2 hab) (right_mem_Icc.2 hab) hab
    | false => exact rho_anti hcx hD hmono hx0 (left_mem_Icc.2 hab) (right_mem_Icc.2 hab) hab
  · intro x h1 h2
    have hx : x ∈ Icc a b := ⟨h1, h2⟩
    cases increasing with
    | true =>
      have := rho_mono hcx hD hmono hx0
      exact has_of_rho (this (left_mem_Icc.2 hab) hx h1) (this hx (right_mem_Icc.2 hab) h2)
    | false =>
      have := rho_anti hcx hD hmono hx0
      exact has_of_rho (this hx (right_mem_Icc.2 hab) h2) (this (left_mem_Icc.2 hab) hx h1)
  · intro e he
    refine ⟨rho D x0 k e, ?_, hval e⟩
    simp only [List.mem_cons, List.not_mem_nil, or_false] at he
    cases increasing <;> rcases he with rfl | rfl <;> simp
  · intro t ht hE h1 h2
    have ua := huniq t ht a h1.ne (hE a le_rfl hab)
    have ub := huniq t ht b h2.ne' (hE b hab le_rfl)
    cases increasing
    · exact ⟨ub.1, ua.2⟩
    · exact ⟨ua.1, ub.2⟩

/-- The hypotheses of C29 are met by `exp` on `[-1, 2]` with `x0 = 0` and degree 3. -/
example : ∃ s, sharpMonotonic 0 3 (-1) 2 Real.exp (taylorCoeffs (fun _ => Real.exp) 3 0) true = .ok s ∧
    SEncl.EnclosesFun s Real.exp 0 (-1) 2 := by
  obtain ⟨s, h1, -, -, h2, -⟩ := C29_sharp_monotone (D := fun _ => Real.exp) (k := 3) (a := -1) (b := 2)
    (x0 := 0) (increasing := true) (fun i _ x _ => (Real.hasDerivAt_exp x).hasDerivWithinAt)
    (fun x _ y _ h => Real.exp_le_exp.2 h) (by norm_num) (Or.inr (by norm_num)) (Or.inr (by norm_num))
  exact ⟨s, h1, h2⟩

/-- **C31.** If `lo ≤ f^(k) ≤ hi` on the trust region then `bounded_derivative_enclosure`, given the
first `k` Taylor coefficients, encloses `f` over the trust region. -/
theorem C31_bounded_derivative {D : ℕ → ℝ → ℝ} {k : ℕ} {a b x0 lo hi : ℝ} (hD : IsDerivChain D k a b)
    (hbound : ∀ x ∈ Icc a b, lo ≤ D k x ∧ D k x ≤ hi) (hx0 : x0 ∈ Icc a b) :
    ∃ s, boundedDerivative k ((taylorCoeffs D k x0).take k) (lo, hi) = .ok s ∧
      s.1.length = k ∧ s.2.1 ≤ s.2.2 ∧ SEncl.EnclosesFun s (D 0) x0 a b := by
  have hcx : Convex ℝ (Icc a b) := convex_Icc a b
  have hl : ((taylorCoeffs D k x0).take k).length = k := by simp [taylorCoeffs]
  unfold boundedDerivative
  rw [if_neg (by simpa using hl), List.take_take, min_self]
  refine ⟨_, rfl, hl, ?_, fun x h1 h2 => has_of_rho ?_ ?_⟩
  · have := (hbound x0 hx0).1.trans (hbound x0 hx0).2
    simp only
    gcongr
  · exact le_rho hcx hD (fun x hx => (hbound x hx).1) hx0 ⟨h1, h2⟩
  · exact rho_le hcx hD (fun x hx => (hbound x hx).2) hx0 ⟨h1, h2⟩

/-- The hypotheses of C31 are met by `exp` on `[-1, 0]` with the derivative bounds `[0, 1]`. -/
example : ∃ s, boundedDerivative 2 ((taylorCoeffs (fun _ => Real.exp) 2 (-1)).take 2) (0, 1) = .ok s ∧
    SEncl.EnclosesFun s Real.exp (-1) (-1) 0 := by
  obtain ⟨s, h1, -, -, h2⟩ := C31_bounded_derivative (D := fun _ => Real.exp) (k := 2) (a := -1) (b := 0)
    (x0 := -1) (lo := 0) (hi := 1) (fun i _ x _ => (Real.hasDerivAt_exp x).hasDerivWithinAt)
    (fun x hx => ⟨(Real.exp_pos x).le, by simpa using Real.exp_le_exp.2 hx.2⟩) (by norm_num)
  exact ⟨s, h1, h2⟩

/-- **C31 (rejection).** A wrong number of coefficients raises `ValueError`. -/
theorem C31_wrong_length {k : ℕ} {cs : List ℝ} (h : cs.length ≠ k) (bound : ℝ × ℝ) :
    boundedDerivative k cs bound = .error .valueError := by
  simp [boundedDerivative, h]

/-- `exp_enclosure` of any degree is `sharp_enclosure_monotonic_derivative` of `exp` with its Taylor
coefficients. -/
theorem exp_enclosure_eq (x0 a b : ℝ) (k : ℕ) : getElementwiseTaylorEnclosure EXP x0 a b k =
    sharpMonotonic x0 k a b Real.exp (taylorCoeffs (fun _ => Real.exp) k x0) true := by
  have : getTaylorPolynomialCoefficients EXP k x0 = .ok (taylorCoeffs (fun _ => Real.exp) k x0) := by
    unfold getTaylorPolynomialCoefficients taylorCoeffs
    exact List.mapM_pure
  unfold getElementwiseTaylorEnclosure
  rw [this]
  rfl

/-- **C30.** Whenever the left end point `a` is in the capped zone `0 < |a-x0|^k < 1e-12`, the `k`-th
derivative is increasing, and `f(a)` is not exactly the degree-`k` Taylor polynomial, the enclosure
returned by `sharp_enclosure_monotonic_derivative` excludes `f(a)`. -/
theorem C30_capped_excludes {D : ℕ → ℝ → ℝ} {k : ℕ} {a b x0 : ℝ} (hD : IsDerivChain D k a b)
    (hmono : MonotoneOn (D k) (Icc a b)) (hx0 : x0 ∈ Icc a b)
    (ha : 0 < |a - x0| ^ k) (hcap : |a - x0| ^ k < 1 / 10 ^ 12) (hax : a ≠ x0)
    (hne : D 0 a ≠ ∑ i ∈ Finset.range (k + 1), D i x0 / i.factorial * (a - x0) ^ i) :
    ∃ s, sharpMonotonic x0 k a b (D 0) (taylorCoeffs D k x0) true = .ok s ∧
      ¬ SEncl.Has s (a - x0) (D 0 a) := by
  have hab : a ≤ b := hx0.1.trans hx0.2
  have hl : ((taylorCoeffs D k x0).take k).length = k := by simp [taylorCoeffs]
  have hd : (a - x0) ^ k ≠ 0 := pow_ne_zero _ (sub_ne_zero.2 hax)
  have hrho : rho D x0 k a ≤ D k x0 / k.factorial := by
    have := rho_mono (convex_Icc a b) hD hmono hx0 (left_mem_Icc.2 hab) hx0 hx0.1
    simpa [rho] using this
  have hspec := rho_spec D x0 k a
  have hlt : rho D x0 k a < D k x0 / k.factorial := by
    refine lt_of_le_of_ne hrho fun h => hne ?_
    rw [Finset.sum_range_succ, ← h]; exact hspec
  obtain ⟨rb, hrb⟩ : ∃ rb, taylorRemainderRatio x0 k (D 0) (taylorCoeffs D k x0) b = .ok rb := by
    rw [taylorRemainderRatio_field]
    rw [if_neg (by simp [taylorCoeffs_length])]
    exact ⟨_, rfl⟩
  have hra : taylorRemainderRatio x0 k (D 0) (taylorCoeffs D k x0) a =
      .ok (D k x0 / k.factorial + (rho D x0 k a - D k x0 / k.factorial) * (|a - x0| ^ k * 10 ^ 12)) := by
    rw [taylorRemainderRatio_field]
    rw [if_neg (by simp [taylorCoeffs_length])]
    have h1 := enum_pow_sum (taylorCoeffs D k x0) fun i => (a - x0) ^ i
    simp only at h1 ⊢
    rw [h1, taylorCoeffs_length, Finset.sum_range_succ, taylorCoeffs_getD D le_rfl]
    have hsum : ∑ i ∈ Finset.range k, (taylorCoeffs D k x0).getD i 0 * (a - x0) ^ i =
        ∑ i ∈ Finset.range k, D i x0 / i.factorial * (a - x0) ^ i :=
      Finset.sum_congr rfl fun i hi => by
        rw [taylorCoeffs_getD D (Finset.mem_range.1 hi).le]
    rw [hsum, hspec, abs_pow, max_eq_left hcap.le]
    congr 2
    have hs : (a - x0) ^ k * sgn ((a - x0) ^ k) = |a - x0| ^ k := by
      rw [← abs_pow]
      unfold sgn
      split_ifs with h1 h2
      · rw [abs_of_pos h1, mul_one]
      · rw [abs_of_neg h2, mul_neg_one]
      · exact absurd (le_antisymm (not_lt.1 h1) (not_lt.1 h2)) hd
    rw [← hs]
    ring
  refine ⟨((taylorCoeffs D k x0).take k, (D k x0 / k.factorial +
    (rho D x0 k a - D k x0 / k.factorial) * (|a - x0| ^ k * 10 ^ 12), rb)), ?_, ?_⟩
  · unfold sharpMonotonic
    rw [hra, hrb]
    rfl
  · rintro ⟨r, h1, -, h3⟩
    simp only [hl] at h1 h3
    have hget : ∑ i ∈ Finset.range k, ((taylorCoeffs D k x0).take k).getD i 0 * (a - x0) ^ i =
        ∑ i ∈ Finset.range k, D i x0 / i.factorial * (a - x0) ^ i := by
      refine Finset.sum_congr rfl fun i hi => ?_
      have hi := Finset.mem_range.1 hi
      rw [List.getD_eq_getElem?_getD, List.getElem?_take, if_pos hi, ← List.getD_eq_getElem?_getD,
        taylorCoeffs_getD D hi.le]
    rw [hget, hspec] at h3
    have hr : rho D x0 k a = r := mul_right_cancel₀ hd (add_left_cancel h3)
    rw [← hr] at h1
    have : |a - x0| ^ k * 10 ^ 12 < 1 := by
      rw [lt_div_iff₀ (by positivity)] at hcap; exact hcap
    nlinarith

/-- **C30 (counterexample).** `exp_enclosure(x0 = 0, (-1e-13, 1), degree = 1)` excludes `exp(x)` at the
point `x = -1e-13` of the trust region. -/
theorem C30_cap_counterexample :
    ∃ s, getElementwiseTaylorEnclosure EXP 0 (-(1 / 10 ^ 13)) 1 1 = .ok s ∧
      ¬ SEncl.EnclosesFun s Real.exp 0 (-(1 / 10 ^ 13)) 1 := by
  rw [exp_enclosure_eq]
  obtain ⟨s, h1, h2⟩ := C30_capped_excludes (D := fun _ => Real.exp) (k := 1) (a := -(1 / 10 ^ 13))
    (b := 1) (x0 := 0) (fun i _ x _ => (Real.hasDerivAt_exp x).hasDerivWithinAt)
    (fun x _ y _ h => Real.exp_le_exp.2 h) (by norm_num) (by norm_num)
    (by rw [abs_of_neg] <;> norm_num) (by norm_num) (by
      have := Real.add_one_lt_exp (x := -(1 / 10 ^ 13)) (by norm_num)
      simp [Finset.sum_range_succ]
      norm_num at this ⊢
      linarith)
  exact ⟨s, h1, fun h => h2 (h _ le_rfl (by norm_num))⟩

end AB
