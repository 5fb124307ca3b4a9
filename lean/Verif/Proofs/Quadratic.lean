import Verif.Proofs.Scalar
import Verif.Proofs.Functions
import Mathlib.Analysis.Convex.Deriv
import Mathlib.Order.Monotone.Union

/-! Unimodality of the degree-2 remainder ratio for a function with even, unimodal Hessian. -/

namespace AB
open PE EF Set

/-- `D 0` is three times differentiable with derivatives `D 1, D 2, D 3`; the second derivative is
even, and decreasing on the nonnegative reals. -/
structure EvenHessian (D : ℕ → ℝ → ℝ) : Prop where
  deriv : ∀ i < 3, ∀ x, HasDerivAt (D i) (D (i + 1) x) x
  even : ∀ x, D 2 (-x) = D 2 x
  dec : ∀ x, 0 ≤ x → D 3 x ≤ 0

theorem hasDerivAt_neg_arg {g : ℝ → ℝ} {g' x : ℝ} (h : HasDerivAt g g' (-x)) :
    HasDerivAt (fun y => g (-y)) (-g') x := by
  exact (h.comp x (hasDerivAt_neg x)).congr_deriv (by ring)

theorem const_of_deriv_zero {g : ℝ → ℝ} (h : ∀ x, HasDerivAt g 0 x) (x y : ℝ) : g x = g y :=
  is_const_of_deriv_eq_zero (fun x => (h x).differentiableAt) (fun x => (h x).deriv) x y

namespace EvenHessian
variable {D : ℕ → ℝ → ℝ}

theorem odd3 (h : EvenHessian D) (x : ℝ) : D 3 (-x) = - D 3 x := by
  have h1 := hasDerivAt_neg_arg (h.deriv 2 (by norm_num) (-x))
  have h2 := h.deriv 2 (by norm_num) x
  have e : (fun y => D 2 (-y)) = D 2 := funext h.even
  rw [e] at h1
  have := h1.unique h2
  norm_num at this
  linarith

theorem inc (h : EvenHessian D) (x : ℝ) (hx : x ≤ 0) : 0 ≤ D 3 x := by
  have := h.odd3 x
  have := h.dec (-x) (by linarith)
  linarith

theorem sum1 (h : EvenHessian D) (x : ℝ) : D 1 x + D 1 (-x) = 2 * D 1 0 := by
  have := const_of_deriv_zero (g := fun x => D 1 x + D 1 (-x)) (fun y =>
    ((h.deriv 1 (by norm_num) y).add (hasDerivAt_neg_arg (h.deriv 1 (by norm_num) (-y)))).congr_deriv
      (by rw [h.even]; ring)) x 0
  simp only [neg_zero] at this
  linarith

theorem diff0 (h : EvenHessian D) (x : ℝ) : D 0 x - D 0 (-x) = 2 * D 1 0 * x := by
  have := const_of_deriv_zero (g := fun x => D 0 x - D 0 (-x) - 2 * D 1 0 * x) (fun y => by
    have h1 := ((h.deriv 0 (by norm_num) y).sub (hasDerivAt_neg_arg (h.deriv 0 (by norm_num) (-y)))).sub
      ((hasDerivAt_id y).const_mul (2 * D 1 0))
    exact h1.congr_deriv (by have := h.sum1 y; simp only [zero_add]; linarith)) x 0
  simp only [neg_zero] at this
  linarith

theorem antitone2 (h : EvenHessian D) : AntitoneOn (D 2) (Ici 0) :=
  antitone_of_hasDerivWithinAt (convex_Ici 0) (fun x _ => (h.deriv 2 (by norm_num) x).hasDerivWithinAt)
    (fun x hx => h.dec x hx)

theorem monotone2 (h : EvenHessian D) : MonotoneOn (D 2) (Iic 0) :=
  monotone_of_hasDerivWithinAt (convex_Iic 0) (fun x _ => (h.deriv 2 (by norm_num) x).hasDerivWithinAt)
    (fun x hx => h.inc x hx)

theorem chain (h : EvenHessian D) (s : Set ℝ) : Chain D 2 s :=
  fun i hi x _ => (h.deriv i (by omega) x).hasDerivWithinAt

/-- the numerator of the derivative of the ratio -/
noncomputable def N (D : ℕ → ℝ → ℝ) (x0 x : ℝ) : ℝ :=
  (x - x0) * (D 1 x + D 1 x0) - 2 * (D 0 x - D 0 x0)
noncomputable def N1 (D : ℕ → ℝ → ℝ) (x0 x : ℝ) : ℝ := D 1 x0 - D 1 x + (x - x0) * D 2 x

theorem hasDerivAt_N (h : EvenHessian D) (x0 x : ℝ) : HasDerivAt (N D x0) (N1 D x0 x) x := by
  have h1 := (((hasDerivAt_id x).sub_const x0).fun_mul ((h.deriv 1 (by norm_num) x).add_const (D 1 x0))).sub
    (((h.deriv 0 (by norm_num) x).sub_const (D 0 x0)).const_mul 2)
  refine h1.congr_deriv ?_
  simp only [N1, id]; ring

theorem hasDerivAt_N1 (h : EvenHessian D) (x0 x : ℝ) :
    HasDerivAt (N1 D x0) ((x - x0) * D 3 x) x := by
  have h1 := ((h.deriv 1 (by norm_num) x).const_sub (D 1 x0)).add
    (((hasDerivAt_id x).sub_const x0).fun_mul (h.deriv 2 (by norm_num) x))
  refine h1.congr_deriv ?_
  simp only [id]; ring

theorem N_zero_nonneg (h : EvenHessian D) {x0 : ℝ} (hx0 : 0 ≤ x0) : 0 ≤ N D x0 0 := by
  have m1 : MonotoneOn (N1 D x0) (Icc 0 x0) := monotone_of_hasDerivWithinAt (convex_Icc 0 x0)
    (fun x _ => (h.hasDerivAt_N1 x0 x).hasDerivWithinAt)
    (fun x hx => mul_nonneg_of_nonpos_of_nonpos (sub_nonpos.2 hx.2) (h.dec x hx.1))
  have m0 : AntitoneOn (N D x0) (Icc 0 x0) := antitone_of_hasDerivWithinAt (convex_Icc 0 x0)
    (fun x _ => (h.hasDerivAt_N x0 x).hasDerivWithinAt) (fun x hx => by
      have := m1 hx (right_mem_Icc.2 hx0) hx.2
      have e : N1 D x0 x0 = 0 := by simp [N1]
      linarith)
  have := m0 (left_mem_Icc.2 hx0) (right_mem_Icc.2 hx0) hx0
  have e : N D x0 x0 = 0 := by simp [N]
  linarith

theorem N_refl (h : EvenHessian D) (x0 : ℝ) : N D x0 (-x0) = 0 := by
  have h1 := h.sum1 x0
  have h2 := h.diff0 x0
  unfold N
  have e1 : D 1 (-x0) + D 1 x0 = 2 * D 1 0 := by linarith
  have e2 : D 0 (-x0) - D 0 x0 = -(2 * D 1 0 * x0) := by linarith
  rw [e1, e2]; ring

theorem N_concave (h : EvenHessian D) {x0 : ℝ} (hx0 : 0 ≤ x0) : ConcaveOn ℝ (Iic 0) (N D x0) := by
  refine AntitoneOn.concaveOn_of_deriv (convex_Iic 0)
    (fun x _ => (h.hasDerivAt_N x0 x).continuousAt.continuousWithinAt)
    (fun x _ => (h.hasDerivAt_N x0 x).differentiableAt.differentiableWithinAt) ?_
  have e : _root_.deriv (N D x0) = N1 D x0 := funext fun x => (h.hasDerivAt_N x0 x).deriv
  rw [e]
  exact (antitone_of_hasDerivWithinAt (convex_Iic 0)
    (fun x _ => (h.hasDerivAt_N1 x0 x).hasDerivWithinAt)
    (fun x hx => mul_nonpos_of_nonpos_of_nonneg (by have : x ≤ 0 := hx; linarith)
      (h.inc x hx))).mono interior_subset

/-- unimodality, for a nonnegative reference point -/
theorem unimodal_nonneg (h : EvenHessian D) {x0 : ℝ} (hx0 : 0 ≤ x0) :
    MonotoneOn (rho D x0 2) (Iic (-x0)) ∧ AntitoneOn (rho D x0 2) (Ici (-x0)) := by
  have hA : AntitoneOn (rho D x0 2) (Ici 0) := rho_anti (convex_Ici 0) (h.chain _) h.antitone2 hx0
  rcases eq_or_lt_of_le hx0 with rfl | hpos
  · rw [neg_zero]
    exact ⟨rho_mono (convex_Iic 0) (h.chain _) h.monotone2 (mem_Iic.2 le_rfl), hA⟩
  have hc := h.N_concave hx0
  have h0 := h.N_zero_nonneg hx0
  have hr := h.N_refl x0
  have hpn : ∀ x ∈ Icc (-x0) 0, 0 ≤ N D x0 x := by
    intro x hx
    have hx' : x = (-x / x0) • (-x0) + (1 - (-x / x0)) • (0 : ℝ) := by
      simp only [smul_eq_mul]; field_simp; ring
    have h1 : 0 ≤ -x / x0 := div_nonneg (by linarith [hx.2]) hx0
    have h2 : -x / x0 ≤ 1 := by rw [div_le_one hpos]; linarith [hx.1]
    have := hc.2 (show (-x0) ∈ Iic (0 : ℝ) from by simpa using hx0) (mem_Iic.2 le_rfl) h1
      (sub_nonneg.2 h2) (by ring)
    rw [← hx', hr] at this
    simp only [smul_eq_mul, mul_zero, zero_add] at this
    exact (mul_nonneg (sub_nonneg.2 h2) h0).trans this
  have hnn : ∀ x ∈ Iic (-x0), N D x0 x ≤ 0 := by
    intro x hx
    have hx : x ≤ -x0 := hx
    have hxn : x < 0 := by linarith
    have hx' : -x0 = (-x0 / x) • x + (1 - (-x0 / x)) • (0 : ℝ) := by
      simp only [smul_eq_mul]
      have : x ≠ 0 := hxn.ne
      field_simp; ring
    have h1 : 0 < -x0 / x := div_pos_of_neg_of_neg (by linarith) hxn
    have h2 : -x0 / x ≤ 1 := by rw [div_le_one_of_neg hxn]; exact hx
    have := hc.2 (mem_Iic.2 hxn.le) (mem_Iic.2 le_rfl) h1.le (sub_nonneg.2 h2) (by ring)
    rw [← hx', hr] at this
    simp only [smul_eq_mul] at this
    have h3 := mul_nonneg (sub_nonneg.2 h2) h0
    by_contra h4
    have := mul_pos h1 (not_le.1 h4)
    linarith
  have hd : ∀ x, x < x0 → HasDerivAt (fun x => (D 0 x - (D 0 x0 + D 1 x0 * (x - x0))) / (x - x0) ^ 2)
      (N D x0 x / (x - x0) ^ 3) x := by
    intro x hx
    have hne : x - x0 ≠ 0 := by linarith [sub_neg.2 hx]
    have h1 := (((hasDerivAt_id x).sub_const x0).const_mul (D 1 x0)).const_add (D 0 x0)
    have h2 := (h.deriv 0 (by norm_num) x).fun_sub h1
    have h3 := ((hasDerivAt_id x).sub_const x0).fun_pow 2
    have h4 := h2.fun_div h3 (pow_ne_zero 2 hne)
    refine h4.congr_deriv ?_
    simp only [N, id, Nat.cast_ofNat]
    field_simp
    ring
  have hrho : ∀ x, x < x0 → rho D x0 2 x = (D 0 x - (D 0 x0 + D 1 x0 * (x - x0))) / (x - x0) ^ 2 := by
    intro x hx
    rw [rho, if_neg hx.ne]
    simp [Finset.sum_range_succ]
  have hcube : ∀ x, x < x0 → (x - x0) ^ 3 < 0 := fun x hx => by
    have : x - x0 < 0 := by linarith
    exact Odd.pow_neg (by decide) this
  refine ⟨?_, ?_⟩
  · have := monotone_of_hasDerivWithinAt (convex_Iic (-x0))
      (fun x hx => (hd x (by have : x ≤ -x0 := hx; linarith)).hasDerivWithinAt)
      (fun x hx => div_nonneg_of_nonpos (hnn x hx) (hcube x (by have : x ≤ -x0 := hx; linarith)).le)
    intro x hx y hy hxy
    rw [hrho x (by have : x ≤ -x0 := hx; linarith), hrho y (by have : y ≤ -x0 := hy; linarith)]
    exact this hx hy hxy
  · have := antitone_of_hasDerivWithinAt (convex_Icc (-x0) 0)
      (fun x hx => (hd x (by linarith [hx.2])).hasDerivWithinAt)
      (fun x hx => div_nonpos_of_nonneg_of_nonpos (hpn x hx) (hcube x (by linarith [hx.2])).le)
    have h2 : AntitoneOn (rho D x0 2) (Icc (-x0) 0) := by
      intro x hx y hy hxy
      rw [hrho x (by linarith [hx.2]), hrho y (by linarith [hy.2])]
      exact this hx hy hxy
    have hu : Ici (-x0) = Icc (-x0) 0 ∪ Ici 0 := (Icc_union_Ici_eq_Ici (by linarith)).symm
    rw [hu]
    exact AntitoneOn.union_right h2 hA (isGreatest_Icc (by linarith)) isLeast_Ici

/-- the reflected function -/
theorem reflect (h : EvenHessian D) : EvenHessian (fun i x => (-1) ^ i * D i (-x)) where
  deriv := by
    intro i hi x
    refine ((hasDerivAt_neg_arg (h.deriv i hi (-x))).const_mul ((-1) ^ i)).congr_deriv ?_
    rw [pow_succ]; ring
  even := fun x => by simp [h.even]
  dec := fun x hx => by
    have := h.inc (-x) (by linarith)
    norm_num
    linarith

theorem unimodal (h : EvenHessian D) (x0 : ℝ) :
    MonotoneOn (rho D x0 2) (Iic (-x0)) ∧ AntitoneOn (rho D x0 2) (Ici (-x0)) := by
  rcases le_total 0 x0 with hx0 | hx0
  · exact h.unimodal_nonneg hx0
  · obtain ⟨h1, h2⟩ := h.reflect.unimodal_nonneg (x0 := -x0) (by linarith)
    have e : ∀ x, rho (fun i x => (-1) ^ i * D i (-x)) (-x0) 2 (-x) = rho D x0 2 x := by
      intro x
      unfold rho
      simp only [neg_neg, neg_inj]
      split_ifs with hx
      · simp
      · simp [Finset.sum_range_succ]
        congr 1
        · ring
        · ring
    rw [neg_neg] at h1 h2
    refine ⟨fun x hx y hy hxy => ?_, fun x hx y hy hxy => ?_⟩
    · have hx : x ≤ -x0 := hx
      have hy : y ≤ -x0 := hy
      have := h2 (a := -y) (b := -x) (by simp; linarith) (by simp; linarith) (by linarith)
      rwa [e, e] at this
    · have hx : -x0 ≤ x := hx
      have hy : -x0 ≤ y := hy
      have := h1 (a := -y) (b := -x) (by simp; linarith) (by simp; linarith) (by linarith)
      rwa [e, e] at this

end EvenHessian
end AB
