/-
The exact extrema of the fourth derivative of sigmoid and of the third and fourth derivatives of swish, and how far they are
from the listed ones.
-/
import Verif.Proofs.Approx2

set_option linter.unusedSectionVars false

namespace AB
open PE EF Set

/-- `tanh (x / 2)` -/
theorem th_exp (x : ℝ) : 2 * sigmoid x - 1 = (Real.exp x - 1) / (Real.exp x + 1) := by
  rw [sig_exp]
  have := Real.exp_pos x
  field_simp
  ring

theorem th_sq (x : ℝ) : sigD 1 x = (1 - (2 * sigmoid x - 1) ^ 2) / 4 := by
  simp only [sigD, sigmoid_neg]; ring

theorem th_mono {x y : ℝ} (h : x ≤ y) : 2 * sigmoid x - 1 ≤ 2 * sigmoid y - 1 := by
  have := sigmoid_strictMono.monotone h
  linarith

theorem th_nonneg {x : ℝ} (h : 0 ≤ x) : 0 ≤ 2 * sigmoid x - 1 := by
  have := sigmoid_ge_half h
  linarith

theorem th_pos {x : ℝ} (h : 0 < x) : 0 < 2 * sigmoid x - 1 := by
  have := sigmoid_strictMono h
  have e0 : sigmoid 0 = 1 / 2 := by rw [sigmoid_eq]; norm_num
  linarith

theorem th_lt (x : ℝ) : 2 * sigmoid x - 1 < 1 := by
  have := sigmoid_lt_one x
  linarith

/-! ### sigmoid, fourth derivative -/

/-- the fifth derivative of sigmoid, which the code does not have -/
noncomputable def sigD5 (x : ℝ) : ℝ := sigD 1 x * (1 - 30 * sigD 1 x + 120 * sigD 1 x ^ 2)

theorem hasDerivAt_sigD4 (x : ℝ) : HasDerivAt (sigD 4) (sigD5 x) x := by
  have h1 : HasDerivAt (sigD 1) (sigD 2 x) x := hasDerivAt_sigD (by norm_num) x
  have h2 : HasDerivAt (sigD 2) (sigD 3 x) x := hasDerivAt_sigD (by norm_num) x
  have e : sigD 4 = fun x => sigD 2 x * (1 - 12 * sigD 1 x) := by funext y; rw [sigD4_eq, sigD2_eq]
  rw [e]
  refine (h2.mul ((h1.const_mul 12).const_sub 1)).congr_deriv ?_
  rw [sigD3_eq, sigD2_eq, sigD5]
  have e1 := th_sq x
  have e2 : (1 - 2 * sigmoid x) ^ 2 = 1 - 4 * sigD 1 x := by rw [e1]; ring
  linear_combination (-12 * sigD 1 x ^ 2) * e2

theorem abs_sigD5 (x : ℝ) : |sigD5 x| ≤ 2 := by
  have h1 := sigD1_pos x
  have h2 := sigD1_le x
  unfold sigD5
  rw [abs_le]
  generalize sigD 1 x = u at *
  constructor <;> nlinarith [mul_nonneg h1.le (sub_nonneg.2 h2), mul_nonneg (mul_nonneg h1.le h1.le) (sub_nonneg.2 h2)]

/-- the roots of `1 - 30 u + 120 u²` -/
theorem sig4_roots : ∃ r s : ℝ, r ∈ Icc (0.0396 : ℝ) 0.0397 ∧ s ∈ Icc (0.2103 : ℝ) 0.2104 ∧
    ∀ u : ℝ, 1 - 30 * u + 120 * u ^ 2 = 120 * ((u - r) * (u - s)) := by
  have h := Real.sq_sqrt (show (0 : ℝ) ≤ 105 by norm_num)
  have l1 : (10.2469 : ℝ) ≤ Real.sqrt 105 := Real.le_sqrt_of_sq_le (by norm_num)
  have l2 : Real.sqrt 105 ≤ 10.247 := Real.sqrt_le_iff.2 ⟨by norm_num, by norm_num⟩
  refine ⟨(15 - Real.sqrt 105) / 120, (15 + Real.sqrt 105) / 120, ⟨?_, ?_⟩, ⟨?_, ?_⟩, fun u => ?_⟩
  · linarith
  · linarith
  · linarith
  · linarith
  · linear_combination (1 / 120) * h

theorem sig4_at {x y1 y2 : ℝ} (h1 : y1 ≤ Real.exp x) (h2 : Real.exp x ≤ y2) :
    ∃ y, y1 ≤ y ∧ y ≤ y2 ∧ 0 < y ∧ sigD 1 x = y / (1 + y) ^ 2 :=
  ⟨_, h1, h2, Real.exp_pos x, sigD1_exp x⟩

theorem u_poly {y : ℝ} (hy : 0 < y) : 1 - 30 * (y / (1 + y) ^ 2) + 120 * (y / (1 + y) ^ 2) ^ 2 =
    ((1 + y) ^ 4 - 30 * y * (1 + y) ^ 2 + 120 * y ^ 2) / (1 + y) ^ 4 := by
  field_simp

theorem sig4_points : ∃ i ∈ Icc (0.84263294812937 : ℝ) 0.84263294812938, ∃ o ∈ Icc (3.14431840615493 : ℝ) 3.14431840615494,
    ∃ r s : ℝ, r ∈ Icc (0.0396 : ℝ) 0.0397 ∧ s ∈ Icc (0.2103 : ℝ) 0.2104 ∧ sigD 1 i = s ∧ sigD 1 o = r ∧
    ∀ u : ℝ, 1 - 30 * u + 120 * u ^ 2 = 120 * ((u - r) * (u - s)) := by
  obtain ⟨r, s, hr, hs, hp⟩ := sig4_roots
  obtain ⟨r1, r2⟩ := hr
  obtain ⟨s1, s2⟩ := hs
  obtain ⟨i, hi, hui⟩ : ∃ i ∈ Icc (0.84263294812937 : ℝ) 0.84263294812938, sigD 1 i = s := by
    refine exists_sigD1 (by norm_num) ?_ ?_
    · obtain ⟨h1, h2⟩ := exp_sig4iA
      obtain ⟨y, y1, y2, y0, hu⟩ := sig4_at h1 h2
      rw [hu]
      have hb : 0.2 ≤ y / (1 + y) ^ 2 := by rw [le_div_iff₀ (by positivity)]; nlinarith
      have hq : 0 ≤ (y / (1 + y) ^ 2 - r) * (y / (1 + y) ^ 2 - s) := by
        have := hp (y / (1 + y) ^ 2)
        rw [u_poly y0] at this
        have h3 : 0 ≤ ((1 + y) ^ 4 - 30 * y * (1 + y) ^ 2 + 120 * y ^ 2) / (1 + y) ^ 4 := by
          apply div_nonneg _ (by positivity)
          nlinarith [mul_nonneg (sub_nonneg.2 y1) (sub_nonneg.2 y2), mul_nonneg (mul_nonneg (sub_nonneg.2 y1) (sub_nonneg.2 y2)) y0.le]
        linarith
      have : 0 < y / (1 + y) ^ 2 - r := by linarith
      linarith [nonneg_of_mul_nonneg_right hq this]
    · obtain ⟨h1, h2⟩ := exp_sig4iB
      obtain ⟨y, y1, y2, y0, hu⟩ := sig4_at h1 h2
      rw [hu]
      have hb : 0.2 ≤ y / (1 + y) ^ 2 := by rw [le_div_iff₀ (by positivity)]; nlinarith
      have hq : (y / (1 + y) ^ 2 - r) * (y / (1 + y) ^ 2 - s) ≤ 0 := by
        have := hp (y / (1 + y) ^ 2)
        rw [u_poly y0] at this
        have h3 : ((1 + y) ^ 4 - 30 * y * (1 + y) ^ 2 + 120 * y ^ 2) / (1 + y) ^ 4 ≤ 0 := by
          apply div_nonpos_of_nonpos_of_nonneg _ (by positivity)
          nlinarith [mul_nonneg (sub_nonneg.2 y1) (sub_nonneg.2 y2), mul_nonneg (mul_nonneg (sub_nonneg.2 y1) (sub_nonneg.2 y2)) y0.le]
        linarith
      have : 0 < y / (1 + y) ^ 2 - r := by linarith
      by_contra hc
      linarith [mul_pos this (sub_pos.2 (not_le.1 hc))]
  obtain ⟨o, ho, huo⟩ : ∃ o ∈ Icc (3.14431840615493 : ℝ) 3.14431840615494, sigD 1 o = r := by
    refine exists_sigD1 (by norm_num) ?_ ?_
    · obtain ⟨h1, h2⟩ := exp_sig4oA
      obtain ⟨y, y1, y2, y0, hu⟩ := sig4_at h1 h2
      rw [hu]
      have hb : y / (1 + y) ^ 2 ≤ 0.1 := by rw [div_le_iff₀ (by positivity)]; nlinarith
      have hq : (y / (1 + y) ^ 2 - r) * (y / (1 + y) ^ 2 - s) ≤ 0 := by
        have := hp (y / (1 + y) ^ 2)
        rw [u_poly y0] at this
        have h3 : ((1 + y) ^ 4 - 30 * y * (1 + y) ^ 2 + 120 * y ^ 2) / (1 + y) ^ 4 ≤ 0 := by
          apply div_nonpos_of_nonpos_of_nonneg _ (by positivity)
          nlinarith [mul_nonneg (sub_nonneg.2 y1) (sub_nonneg.2 y2), mul_nonneg (mul_nonneg (sub_nonneg.2 y1) (sub_nonneg.2 y2)) y0.le]
        linarith
      have : 0 < s - y / (1 + y) ^ 2 := by linarith
      by_contra hc
      have := mul_pos this (sub_pos.2 (not_le.1 hc))
      nlinarith
    · obtain ⟨h1, h2⟩ := exp_sig4oB
      obtain ⟨y, y1, y2, y0, hu⟩ := sig4_at h1 h2
      rw [hu]
      have hb : y / (1 + y) ^ 2 ≤ 0.1 := by rw [div_le_iff₀ (by positivity)]; nlinarith
      have hq : 0 ≤ (y / (1 + y) ^ 2 - r) * (y / (1 + y) ^ 2 - s) := by
        have := hp (y / (1 + y) ^ 2)
        rw [u_poly y0] at this
        have h3 : 0 ≤ ((1 + y) ^ 4 - 30 * y * (1 + y) ^ 2 + 120 * y ^ 2) / (1 + y) ^ 4 := by
          apply div_nonneg _ (by positivity)
          nlinarith [mul_nonneg (sub_nonneg.2 y1) (sub_nonneg.2 y2), mul_nonneg (mul_nonneg (sub_nonneg.2 y1) (sub_nonneg.2 y2)) y0.le]
        linarith
      have : 0 < s - y / (1 + y) ^ 2 := by linarith
      by_contra hc
      have := mul_pos this (sub_pos.2 (not_le.1 hc))
      nlinarith
  exact ⟨i, hi, o, ho, r, s, ⟨r1, r2⟩, ⟨s1, s2⟩, hui, huo, hp⟩

/-- the extrema of the fourth derivative of sigmoid -/
theorem sig4_shape : ∃ i ∈ Icc (0.84263294812937 : ℝ) 0.84263294812938, ∃ o ∈ Icc (3.14431840615493 : ℝ) 3.14431840615494,
    ExtremaOf (sigD 4) [-i, o] [-o, i] ∧ (∀ x, sigD 4 (-i) ≤ sigD 4 x) ∧ ∀ x, sigD 4 x ≤ sigD 4 i := by
  obtain ⟨i, hi, o, ho, r, s, hr, hs, hui, huo, hp⟩ := sig4_points
  obtain ⟨r1, r2⟩ := hr
  obtain ⟨s1, s2⟩ := hs
  have i0 : 0 < i := lt_of_lt_of_le (by norm_num) hi.1
  have hio : i < o := by linarith [hi.2, ho.1]
  have o0 : 0 < o := i0.trans hio
  have hd : ∀ x, HasDerivAt (-sigD 4) (-sigD5 x) x := fun x => (hasDerivAt_sigD4 x).neg
  have e4 : ∀ x, sigD 4 x = -(sigD 1 x * (2 * sigmoid x - 1) * (1 - 12 * sigD 1 x)) := by
    intro x; rw [sigD4_eq]; ring
  have e5 : ∀ x, sigD5 x = sigD 1 x * (120 * ((sigD 1 x - r) * (sigD 1 x - s))) := by
    intro x; rw [sigD5, hp]
  have hodd : ∀ x, (-sigD 4) (-x) = -(-sigD 4) x := by
    intro x
    simp only [Pi.neg_apply, sigD4_eq, sigD1_even, sigmoid_neg]
    ring
  have q1 := odd_four (f := -sigD 4) i0 hio hodd (by
      refine anti_Icc hd fun x hx => ?_
      have h1 := sigD1_anti (mem_Ici.2 hx.1) (mem_Ici.2 i0.le) hx.2
      rw [hui] at h1
      rw [e5]
      have := mul_nonneg (sigD1_pos x).le (mul_nonneg (show (0 : ℝ) ≤ 120 by norm_num)
        (mul_nonneg (show 0 ≤ sigD 1 x - r by linarith) (sub_nonneg.2 h1)))
      linarith) (by
      refine mono_Icc hd fun x hx => ?_
      have h1 := sigD1_anti (mem_Ici.2 i0.le) (mem_Ici.2 (i0.le.trans hx.1)) hx.1
      have h2 := sigD1_anti (mem_Ici.2 (i0.le.trans hx.1)) (mem_Ici.2 o0.le) hx.2
      rw [hui] at h1
      rw [huo] at h2
      rw [e5]
      have := mul_nonneg (sigD1_pos x).le (mul_nonneg (show (0 : ℝ) ≤ 120 by norm_num)
        (mul_nonneg (sub_nonneg.2 h2) (sub_nonneg.2 h1)))
      linarith) (by
      refine anti_Ici hd fun x hx => ?_
      have h1 := sigD1_anti (mem_Ici.2 o0.le) (mem_Ici.2 (o0.le.trans hx)) hx
      rw [huo] at h1
      rw [e5]
      have := mul_nonneg (sigD1_pos x).le (mul_nonneg (show (0 : ℝ) ≤ 120 by norm_num)
        (mul_nonneg (sub_nonneg.2 h1) (show 0 ≤ s - sigD 1 x by linarith)))
      linarith) (by
      intro x hx
      have h1 := sigD1_anti (mem_Ici.2 o0.le) (mem_Ici.2 (o0.le.trans hx)) hx
      rw [huo] at h1
      simp only [Pi.neg_apply, e4, neg_neg, hui]
      have a1 : 0 ≤ sigD 1 x * (2 * sigmoid x - 1) * (1 - 12 * sigD 1 x) :=
        mul_nonneg (mul_nonneg (sigD1_pos x).le (th_nonneg (o0.le.trans hx))) (by linarith)
      have a2 : s * (2 * sigmoid i - 1) * (1 - 12 * s) ≤ 0 :=
        mul_nonpos_of_nonneg_of_nonpos (mul_nonneg (by linarith) (th_nonneg i0.le)) (by linarith)
      linarith) (by
      simp only [Pi.neg_apply, e4, neg_neg, hui, huo]
      have t1 := th_pos i0
      have t2 := th_sq i
      rw [hui] at t2
      have t3 := th_lt o
      have t4 := th_pos o0
      generalize 2 * sigmoid i - 1 = t at *
      generalize 2 * sigmoid o - 1 = t' at *
      have t5 : 0.39 ≤ t := by nlinarith
      have a1 : r * t' * (1 - 12 * r) ≤ 0.04 := by
        have b1 : r * t' ≤ 0.0397 * 1 := mul_le_mul r2 t3.le t4.le (by norm_num)
        have b2 : 0 ≤ r * t' := mul_nonneg (by linarith) t4.le
        have b3 : r * t' * (1 - 12 * r) ≤ 0.0397 * 1 * 1 := mul_le_mul b1 (by linarith) (by linarith) (by norm_num)
        linarith
      have a2 : 0.04 ≤ s * t * (12 * s - 1) := by
        have b1 : 0.2103 * 0.39 ≤ s * t := mul_le_mul s1 t5 (by norm_num) (by linarith)
        have b3 : 0.2103 * 0.39 * 1.5 ≤ s * t * (12 * s - 1) := mul_le_mul b1 (by linarith) (by norm_num) (by nlinarith)
        linarith
      linarith)
  obtain ⟨g1, g2, g3⟩ := q1
  refine ⟨i, hi, o, ho, ?_, fun x => ?_, fun x => ?_⟩
  · have := g1.neg
    rwa [neg_neg_fun] at this
  · have := g3 x
    simpa using this
  · have := g2 x
    simpa using this

/-! ### swish, third derivative -/

/-- the sign of the fourth derivative of swish -/
noncomputable def sw4h (x : ℝ) : ℝ :=
  6 * (2 * sigmoid x - 1) ^ 2 - 2 - x * (2 * sigmoid x - 1) * (3 * (2 * sigmoid x - 1) ^ 2 - 2)

theorem swishD4_eq (x : ℝ) : swishD 4 x = sigD 1 x * sw4h x := by
  have e : swishD 4 x = 4 * sigD 3 x + x * sigD 4 x := by simp only [swishD]; norm_num
  rw [e, sigD3_eq, sigD4_eq, sw4h]
  have e1 := th_sq x
  generalize sigD 1 x = u at *
  have e2 : sigmoid x = ((2 * sigmoid x - 1) + 1) / 2 := by ring
  generalize 2 * sigmoid x - 1 = t at *
  rw [e2]
  subst e1
  ring

theorem sw4h_exp (x : ℝ) : sw4h x = (4 * (Real.exp x ^ 2 - 4 * Real.exp x + 1) * (Real.exp x + 1)
    - x * (Real.exp x - 1) * (Real.exp x ^ 2 - 10 * Real.exp x + 1)) / (Real.exp x + 1) ^ 3 := by
  rw [sw4h, th_exp]
  have := Real.exp_pos x
  field_simp
  ring

theorem sw4h_continuous : Continuous sw4h := by
  have := continuous_sigmoid
  unfold sw4h
  fun_prop

theorem abs_swishD4 (x : ℝ) : |swishD 4 x| ≤ 3 := by
  have e : swishD 4 x = 4 * sigD 3 x + x * sigD 1 x * ((1 - 2 * sigmoid x) * (1 - 12 * sigD 1 x)) := by
    have e : swishD 4 x = 4 * sigD 3 x + x * sigD 4 x := by simp only [swishD]; norm_num
    rw [e, sigD4_eq]; ring
  rw [e, sigD3_eq]
  have h1 := sigD1_pos x
  have h2 := sigD1_le x
  have h3 : |4 * (sigD 1 x * (1 - 6 * sigD 1 x))| ≤ 1 := by
    rw [abs_le]
    constructor <;> nlinarith
  have h4 : |x * sigD 1 x * ((1 - 2 * sigmoid x) * (1 - 12 * sigD 1 x))| ≤ 2 := by
    rw [abs_mul, abs_mul x, abs_of_pos h1, abs_mul (1 - 2 * sigmoid x)]
    have a1 : |1 - 12 * sigD 1 x| ≤ 2 := by rw [abs_le]; constructor <;> linarith
    have a2 : |1 - 2 * sigmoid x| * |1 - 12 * sigD 1 x| ≤ 1 * 2 :=
      mul_le_mul (abs_sig x) a1 (abs_nonneg _) zero_le_one
    calc _ ≤ 1 * (1 * 2) := mul_le_mul (abs_mul_sigD1 x) a2 (by positivity) zero_le_one
      _ = 2 := by norm_num
  have := abs_add_le (4 * (sigD 1 x * (1 - 6 * sigD 1 x))) (x * sigD 1 x * ((1 - 2 * sigmoid x) * (1 - 12 * sigD 1 x)))
  linarith

theorem th_ge {x y : ℝ} (h : y ≤ Real.exp x) (hy : 0 < y) : (y - 1) / (y + 1) ≤ 2 * sigmoid x - 1 := by
  rw [th_exp, div_le_div_iff₀ (by linarith) (by positivity)]
  nlinarith

theorem th_le {x y : ℝ} (h : Real.exp x ≤ y) : 2 * sigmoid x - 1 ≤ (y - 1) / (y + 1) := by
  have := Real.exp_pos x
  rw [th_exp, div_le_div_iff₀ (by positivity) (by linarith)]
  nlinarith

theorem sw3_points : ∃ i ∈ Icc (1.03195824178074 : ℝ) 1.03195824178075, ∃ o ∈ Icc (4.42923510055722 : ℝ) 4.42923510055723,
    sw4h i = 0 ∧ sw4h o = 0 := by
  obtain ⟨i, hi, h⟩ : ∃ i ∈ Icc (1.03195824178074 : ℝ) 1.03195824178075, sw4h i = 0 := by
    refine intermediate_value_Icc (by norm_num) sw4h_continuous.continuousOn ⟨?_, ?_⟩
    · obtain ⟨h1, h2⟩ := exp_sw3iA
      rw [sw4h_exp]
      apply div_nonpos_of_nonpos_of_nonneg _ (by positivity)
      generalize Real.exp 1.03195824178074 = y at *
      nlinarith [mul_nonneg (sub_nonneg.2 h1) (sub_nonneg.2 h2),
        mul_nonneg (mul_nonneg (sub_nonneg.2 h1) (sub_nonneg.2 h2)) (show 0 ≤ y by linarith)]
    · obtain ⟨h1, h2⟩ := exp_sw3iB
      rw [sw4h_exp]
      apply div_nonneg _ (by positivity)
      generalize Real.exp 1.03195824178075 = y at *
      nlinarith [mul_nonneg (sub_nonneg.2 h1) (sub_nonneg.2 h2),
        mul_nonneg (mul_nonneg (sub_nonneg.2 h1) (sub_nonneg.2 h2)) (show 0 ≤ y by linarith)]
  obtain ⟨o, ho, h'⟩ : ∃ i ∈ Icc (4.42923510055722 : ℝ) 4.42923510055723, sw4h i = 0 := by
    refine intermediate_value_Icc' (by norm_num) sw4h_continuous.continuousOn ⟨?_, ?_⟩
    · obtain ⟨h1, h2⟩ := exp_sw3oB
      rw [sw4h_exp]
      apply div_nonpos_of_nonpos_of_nonneg _ (by positivity)
      generalize Real.exp 4.42923510055723 = y at *
      nlinarith [mul_nonneg (sub_nonneg.2 h1) (sub_nonneg.2 h2),
        mul_nonneg (mul_nonneg (sub_nonneg.2 h1) (sub_nonneg.2 h2)) (show 0 ≤ y by linarith)]
    · obtain ⟨h1, h2⟩ := exp_sw3oA
      rw [sw4h_exp]
      apply div_nonneg _ (by positivity)
      generalize Real.exp 4.42923510055722 = y at *
      nlinarith [mul_nonneg (sub_nonneg.2 h1) (sub_nonneg.2 h2),
        mul_nonneg (mul_nonneg (sub_nonneg.2 h1) (sub_nonneg.2 h2)) (show 0 ≤ y by linarith)]
  exact ⟨i, hi, o, ho, h, h'⟩

/-- the extrema of the third derivative of swish -/
theorem sw3_shape : ∃ i ∈ Icc (1.03195824178074 : ℝ) 1.03195824178075, ∃ o ∈ Icc (4.42923510055722 : ℝ) 4.42923510055723,
    ExtremaOf (swishD 3) [-o, i] [-i, o] ∧ (∀ x, swishD 3 i ≤ swishD 3 x) ∧ ∀ x, swishD 3 x ≤ swishD 3 (-i) := by
  obtain ⟨i, hi, o, ho, hzi, hzo⟩ := sw3_points
  have i0 : 0 < i := lt_of_lt_of_le (by norm_num) hi.1
  have hio : i < o := by linarith [hi.2, ho.1]
  have o0 : 0 < o := i0.trans hio
  have si1 : 0.47 ≤ 2 * sigmoid i - 1 :=
    le_trans (by norm_num) ((th_ge exp_sw3iA.1 (by norm_num)).trans (th_mono hi.1))
  have si2 : 2 * sigmoid i - 1 ≤ 0.48 :=
    ((th_mono hi.2).trans (th_le exp_sw3iB.2)).trans (by norm_num)
  have so1 : 0.97 ≤ 2 * sigmoid o - 1 :=
    le_trans (by norm_num) ((th_ge exp_sw3oA.1 (by norm_num)).trans (th_mono ho.1))
  have so2 := th_lt o
  unfold sw4h at hzi hzo
  have hd : ∀ x, HasDerivAt (swishD 3) (swishD 4 x) x := fun x => hasDerivAt_swishD (by norm_num) x
  have s1 : ∀ x, 0 ≤ x → x ≤ i → sw4h x ≤ 0 := by
    intro x hx0 hx
    have t1 := th_mono hx
    have t0 := th_nonneg hx0
    unfold sw4h
    generalize 2 * sigmoid i - 1 = s at *
    generalize 2 * sigmoid x - 1 = t at *
    have ts : t ^ 2 ≤ s ^ 2 := pow_le_pow_left₀ t0 t1 2
    have p0 : 0 < 2 - 6 * s ^ 2 := by nlinarith
    have p1 : x * t ≤ i * s := mul_le_mul hx t1 t0 i0.le
    have p2 : 0 ≤ 2 - 3 * t ^ 2 := by nlinarith
    have p3 : x * t * ((2 - 3 * t ^ 2) * (2 - 6 * s ^ 2)) ≤ i * s * ((2 - 3 * s ^ 2) * (2 - 6 * t ^ 2)) :=
      mul_le_mul p1 (by nlinarith) (mul_nonneg p2 p0.le) (mul_nonneg i0.le (by linarith))
    have p4 : i * s * ((2 - 3 * s ^ 2) * (2 - 6 * t ^ 2)) = (2 - 6 * s ^ 2) * (2 - 6 * t ^ 2) := by
      linear_combination (2 - 6 * t ^ 2) * hzi
    have p5 : (2 - 6 * s ^ 2) * (x * t * (2 - 3 * t ^ 2)) ≤ (2 - 6 * s ^ 2) * (2 - 6 * t ^ 2) := by linarith
    have := le_of_mul_le_mul_left p5 p0
    linarith
  have s2 : ∀ x, i ≤ x → x ≤ o → 0 ≤ sw4h x := by
    intro x hxi hxo
    have hx0 : 0 ≤ x := i0.le.trans hxi
    have t1 := th_mono hxi
    have t2 := th_mono hxo
    have t0 := th_nonneg hx0
    unfold sw4h
    generalize 2 * sigmoid i - 1 = s at *
    generalize 2 * sigmoid o - 1 = s' at *
    generalize 2 * sigmoid x - 1 = t at *
    have ts : s ^ 2 ≤ t ^ 2 := pow_le_pow_left₀ (by linarith) t1 2
    have ts' : t ^ 2 ≤ s' ^ 2 := pow_le_pow_left₀ t0 t2 2
    rcases le_total (6 * t ^ 2) 2 with hq | hq
    · have p0 : 0 < 2 - 6 * s ^ 2 := by nlinarith
      have p1 : i * s ≤ x * t := mul_le_mul hxi t1 (by linarith) hx0
      have p2 : 0 ≤ 2 - 3 * s ^ 2 := by nlinarith
      have p3 : i * s * ((2 - 3 * s ^ 2) * (2 - 6 * t ^ 2)) ≤ x * t * ((2 - 3 * t ^ 2) * (2 - 6 * s ^ 2)) :=
        mul_le_mul p1 (by nlinarith) (mul_nonneg p2 (by linarith)) (mul_nonneg hx0 t0)
      have p4 : i * s * ((2 - 3 * s ^ 2) * (2 - 6 * t ^ 2)) = (2 - 6 * s ^ 2) * (2 - 6 * t ^ 2) := by
        linear_combination (2 - 6 * t ^ 2) * hzi
      have p5 : (2 - 6 * s ^ 2) * (2 - 6 * t ^ 2) ≤ (2 - 6 * s ^ 2) * (x * t * (2 - 3 * t ^ 2)) := by linarith
      have := le_of_mul_le_mul_left p5 p0
      linarith
    · rcases le_total (3 * t ^ 2) 2 with hq' | hq'
      · have := mul_nonneg (mul_nonneg hx0 t0) (sub_nonneg.2 hq')
        linarith
      · have p0 : 0 < 6 * s' ^ 2 - 2 := by nlinarith
        have p1 : x * t ≤ o * s' := mul_le_mul hxo t2 t0 o0.le
        have p3 : x * t * ((3 * t ^ 2 - 2) * (6 * s' ^ 2 - 2)) ≤ o * s' * ((3 * s' ^ 2 - 2) * (6 * t ^ 2 - 2)) :=
          mul_le_mul p1 (by nlinarith) (mul_nonneg (by linarith) p0.le) (mul_nonneg o0.le (by linarith))
        have p4 : o * s' * ((3 * s' ^ 2 - 2) * (6 * t ^ 2 - 2)) = (6 * s' ^ 2 - 2) * (6 * t ^ 2 - 2) := by
          linear_combination (-(6 * t ^ 2 - 2)) * hzo
        have p5 : (6 * s' ^ 2 - 2) * (x * t * (3 * t ^ 2 - 2)) ≤ (6 * s' ^ 2 - 2) * (6 * t ^ 2 - 2) := by linarith
        have := le_of_mul_le_mul_left p5 p0
        linarith
  have s3 : ∀ x, o ≤ x → sw4h x ≤ 0 := by
    intro x hxo
    have t2 := th_mono hxo
    unfold sw4h
    generalize 2 * sigmoid o - 1 = s' at *
    generalize 2 * sigmoid x - 1 = t at *
    have ts' : s' ^ 2 ≤ t ^ 2 := pow_le_pow_left₀ (by linarith) t2 2
    have p0 : 0 < 6 * s' ^ 2 - 2 := by nlinarith
    have p1 : o * s' ≤ x * t := mul_le_mul hxo t2 (by linarith) (by linarith)
    have p3 : o * s' * ((3 * s' ^ 2 - 2) * (6 * t ^ 2 - 2)) ≤ x * t * ((3 * t ^ 2 - 2) * (6 * s' ^ 2 - 2)) :=
      mul_le_mul p1 (by nlinarith) (mul_nonneg (by nlinarith) (by linarith)) (mul_nonneg (by linarith) (by linarith))
    have p4 : o * s' * ((3 * s' ^ 2 - 2) * (6 * t ^ 2 - 2)) = (6 * s' ^ 2 - 2) * (6 * t ^ 2 - 2) := by
      linear_combination (-(6 * t ^ 2 - 2)) * hzo
    have p5 : (6 * s' ^ 2 - 2) * (6 * t ^ 2 - 2) ≤ (6 * s' ^ 2 - 2) * (x * t * (3 * t ^ 2 - 2)) := by linarith
    have := le_of_mul_le_mul_left p5 p0
    linarith
  have neg_i : swishD 3 i ≤ -0.2 := by
    rw [swishD3_eq, th_sq]
    obtain ⟨i1, i2⟩ := hi
    generalize 2 * sigmoid i - 1 = s at *
    have a1 : 0.09 ≤ (1 - s ^ 2) / 4 / 2 := by nlinarith
    have a2 : 2.8 ≤ 6 * s - i * (3 * s ^ 2 - 1) := by nlinarith
    have := mul_le_mul a1 a2 (by norm_num) (by linarith)
    linarith
  have hodd : ∀ x, swishD 3 (-x) = -swishD 3 x := by
    intro x
    rw [swishD3_eq, swishD3_eq, sigD1_even, sigmoid_neg]
    ring
  obtain ⟨g1, g2, g3⟩ := odd_four i0 hio hodd
    (anti_Icc hd fun x hx => by
      rw [swishD4_eq]; exact mul_nonpos_of_nonneg_of_nonpos (sigD1_pos x).le (s1 x hx.1 hx.2))
    (mono_Icc hd fun x hx => by
      rw [swishD4_eq]; exact mul_nonneg (sigD1_pos x).le (s2 x hx.1 hx.2))
    (anti_Ici hd fun x hx => by
      rw [swishD4_eq]; exact mul_nonpos_of_nonneg_of_nonpos (sigD1_pos x).le (s3 x hx))
    (by
      intro x hx
      have t2 := th_mono hx
      have t3 := th_lt x
      refine neg_i.trans ?_
      rw [swishD3_eq]
      have a1 := sigD1_pos x
      have x1 : 4.4 ≤ x := by linarith [ho.1]
      generalize 2 * sigmoid x - 1 = t at *
      have a3 : 0 ≤ x * (3 * t ^ 2 - 1) - 6 * t := by
        have b1 : 0.97 ^ 2 ≤ t ^ 2 := pow_le_pow_left₀ (by norm_num) (by linarith) 2
        have b2 : 4.4 * (3 * t ^ 2 - 1) ≤ x * (3 * t ^ 2 - 1) := mul_le_mul_of_nonneg_right x1 (by linarith)
        linarith
      have := mul_nonneg (div_nonneg a1.le (by norm_num : (0 : ℝ) ≤ 2)) a3
      linarith)
    (by
      have : swishD 3 o ≤ 0.2 := by
        rw [swishD3_eq, th_sq]
        obtain ⟨o1, o2⟩ := ho
        generalize 2 * sigmoid o - 1 = s at *
        have a0 : s ^ 2 < 1 := by nlinarith
        have a1 : (1 - s ^ 2) / 4 / 2 ≤ 0.01 := by nlinarith
        have a2 : o * (3 * s ^ 2 - 1) - 6 * s ≤ 10 := by nlinarith
        have a3 : 0 ≤ (1 - s ^ 2) / 4 / 2 := by linarith
        have := mul_le_mul_of_nonneg_left a2 a3
        linarith
      linarith)
  exact ⟨i, hi, o, ho, g1, g2, g3⟩

/-! ### swish, fourth derivative -/

/-- the sign of the fifth derivative of swish -/
noncomputable def sw5h (x : ℝ) : ℝ :=
  5 * (2 * sigmoid x - 1) * (2 - 3 * (2 * sigmoid x - 1) ^ 2) +
    x * (1 - 15 / 2 * (2 * sigmoid x - 1) ^ 2 + 15 / 2 * (2 * sigmoid x - 1) ^ 4)

theorem hasDerivAt_swishD4' (x : ℝ) : HasDerivAt (swishD 4) (sigD 1 x * sw5h x) x := by
  have h1 : HasDerivAt (sigD 3) (sigD 4 x) x := hasDerivAt_sigD (by norm_num) x
  have h2 := hasDerivAt_sigD4 x
  have e : swishD 4 = fun x => 4 * sigD 3 x + x * sigD 4 x := by funext y; simp only [swishD]; norm_num
  rw [e]
  refine ((h1.const_mul 4).add ((hasDerivAt_id x).mul h2)).congr_deriv ?_
  have e1 := th_sq x
  simp only [id]
  rw [sigD5, sigD4_eq, sw5h]
  generalize sigD 1 x = u at *
  have e2 : sigmoid x = ((2 * sigmoid x - 1) + 1) / 2 := by ring
  generalize 2 * sigmoid x - 1 = t at *
  rw [e2]
  subst e1
  ring

theorem abs_sw5 (x : ℝ) : |sigD 1 x * sw5h x| ≤ 4 := by
  have e : sigD 1 x * sw5h x = 5 * (sigD 1 x * (2 * sigmoid x - 1) * (2 - 3 * (2 * sigmoid x - 1) ^ 2)) +
      x * sigD 1 x * (1 - 30 * sigD 1 x + 120 * sigD 1 x ^ 2) := by
    have e1 := th_sq x
    rw [sw5h]
    generalize sigD 1 x = u at *
    generalize 2 * sigmoid x - 1 = t at *
    subst e1
    ring
  have h1 := sigD1_pos x
  have h2 := sigD1_le x
  have h3 : |x * sigD 1 x * (1 - 30 * sigD 1 x + 120 * sigD 1 x ^ 2)| ≤ 1 := by
    rw [abs_mul, abs_mul, abs_of_pos h1]
    have : |1 - 30 * sigD 1 x + 120 * sigD 1 x ^ 2| ≤ 1 := by
      rw [abs_le]; constructor <;> nlinarith [sq_nonneg (8 * sigD 1 x - 1)]
    calc _ ≤ 1 * 1 := mul_le_mul (abs_mul_sigD1 x) this (abs_nonneg _) zero_le_one
      _ = 1 := one_mul 1
  have h4 : |5 * (sigD 1 x * (2 * sigmoid x - 1) * (2 - 3 * (2 * sigmoid x - 1) ^ 2))| ≤ 5 / 2 := by
    have a1 : |2 * sigmoid x - 1| ≤ 1 := by
      have := abs_sig x
      rw [abs_sub_comm] at this
      exact this
    have a2 : |2 - 3 * (2 * sigmoid x - 1) ^ 2| ≤ 2 := by
      have := sq_le_one_iff_abs_le_one (2 * sigmoid x - 1) |>.2 a1
      have := sq_nonneg (2 * sigmoid x - 1)
      rw [abs_le]; constructor <;> linarith
    rw [abs_mul, abs_mul, abs_mul, abs_of_pos h1, abs_of_pos (by norm_num : (0 : ℝ) < 5)]
    have : sigD 1 x * |2 * sigmoid x - 1| * |2 - 3 * (2 * sigmoid x - 1) ^ 2| ≤ 1 / 4 * 1 * 2 :=
      mul_le_mul (mul_le_mul h2 a1 (abs_nonneg _) (by norm_num)) a2 (abs_nonneg _) (by norm_num)
    linarith
  rw [e]
  have := abs_add_le (5 * (sigD 1 x * (2 * sigmoid x - 1) * (2 - 3 * (2 * sigmoid x - 1) ^ 2)))
    (x * sigD 1 x * (1 - 30 * sigD 1 x + 120 * sigD 1 x ^ 2))
  linarith

theorem sw5h_continuous : Continuous sw5h := by
  have := continuous_sigmoid
  unfold sw5h
  fun_prop

theorem sw5h_exp (x : ℝ) : sw5h x = (10 * (Real.exp x - 1) * (2 * (Real.exp x + 1) ^ 2 - 3 * (Real.exp x - 1) ^ 2) * (Real.exp x + 1) ^ 2
    + x * (2 * (Real.exp x + 1) ^ 4 - 15 * (Real.exp x - 1) ^ 2 * (Real.exp x + 1) ^ 2 + 15 * (Real.exp x - 1) ^ 4)
      * (Real.exp x + 1)) / (2 * (Real.exp x + 1) ^ 5) := by
  rw [sw5h, th_exp]
  have := Real.exp_pos x
  field_simp
  ring

/-- `tanh (x / 2) / x` decreases -/
theorem th_ratio {x y : ℝ} (hx : 0 ≤ x) (hxy : x ≤ y) : x * (2 * sigmoid y - 1) ≤ y * (2 * sigmoid x - 1) := by
  have hc : ConcaveOn ℝ (Ici 0) sigmoid := by
    have hd : ∀ z, HasDerivAt sigmoid (sigD 1 z) z := fun z => hasDerivAt_sigD (k := 0) (by norm_num) z
    refine AntitoneOn.concaveOn_of_deriv (convex_Ici 0) continuous_sigmoid.continuousOn
      (fun z _ => (hd z).differentiableAt.differentiableWithinAt) ?_
    have : deriv sigmoid = sigD 1 := funext fun z => (hd z).deriv
    rw [this]
    exact sigD1_anti.mono interior_subset
  rcases hx.eq_or_lt with rfl | hx'
  · have e0 : sigmoid 0 = 1 / 2 := by rw [sigmoid_eq]; norm_num
    rw [e0]
    linarith
  · have hy : 0 < y := lt_of_lt_of_le hx' hxy
    have e0 : sigmoid 0 = 1 / 2 := by rw [sigmoid_eq]; norm_num
    have := hc.2 (mem_Ici.2 le_rfl) (mem_Ici.2 hy.le)
      (show (0 : ℝ) ≤ 1 - x / y from sub_nonneg.2 ((div_le_one hy).2 hxy))
      (show (0 : ℝ) ≤ x / y from div_nonneg hx hy.le) (by ring)
    simp only [smul_eq_mul, mul_zero, zero_add, e0] at this
    rw [div_mul_cancel₀ _ hy.ne'] at this
    have h2 := mul_le_mul_of_nonneg_left this hy.le
    have e : y * ((1 - x / y) * (1 / 2) + x / y * sigmoid y) = (y - x) / 2 + x * sigmoid y := by
      field_simp
    rw [e] at h2
    linarith

theorem exp_five : (148 : ℝ) ≤ Real.exp 5 ∧ Real.exp 5 ≤ 149 := by
  have e : Real.exp 5 = Real.exp 1 ^ 5 := by rw [← Real.exp_nat_mul]; norm_num
  have h1 := Real.exp_one_gt_d9
  have h2 := Real.exp_one_lt_d9
  rw [e]
  constructor
  · refine le_trans ?_ (pow_le_pow_left₀ (by norm_num) h1.le 5)
    norm_num
  · refine le_trans (pow_le_pow_left₀ (Real.exp_pos _).le h2.le 5) ?_
    norm_num

theorem sw4_point : ∃ i ∈ Icc (1.81977561172501 : ℝ) 1.81977561172502, sw5h i = 0 := by
  refine intermediate_value_Icc' (by norm_num) sw5h_continuous.continuousOn ⟨?_, ?_⟩
  · obtain ⟨h1, h2⟩ := exp_sw4iB
    rw [sw5h_exp]
    apply div_nonpos_of_nonpos_of_nonneg _ (by positivity)
    generalize Real.exp 1.81977561172502 = y at *
    have hp := mul_nonneg (sub_nonneg.2 h1) (sub_nonneg.2 h2)
    have y0 : 0 ≤ y := by linarith
    nlinarith [hp, mul_nonneg hp y0, mul_nonneg hp (mul_nonneg y0 y0), mul_nonneg hp (mul_nonneg y0 (mul_nonneg y0 y0))]
  · obtain ⟨h1, h2⟩ := exp_sw4iA
    rw [sw5h_exp]
    apply div_nonneg _ (by positivity)
    generalize Real.exp 1.81977561172501 = y at *
    have hp := mul_nonneg (sub_nonneg.2 h1) (sub_nonneg.2 h2)
    have y0 : 0 ≤ y := by linarith
    nlinarith [hp, mul_nonneg hp y0, mul_nonneg hp (mul_nonneg y0 y0), mul_nonneg hp (mul_nonneg y0 (mul_nonneg y0 y0))]

theorem sw5_ratio {a b : ℝ} (hab : a ≤ b) (h : 0 ≤ (a - 2 / 3) * (b - 2 / 3)) :
    (15 / 2 * a - 15 / 2 * a ^ 2 - 1) * (2 - 3 * b) ≤ (15 / 2 * b - 15 / 2 * b ^ 2 - 1) * (2 - 3 * a) := by
  have := mul_nonneg (sub_nonneg.2 hab) (show 0 ≤ 45 / 2 * ((a - 2 / 3) * (b - 2 / 3)) + 2 by linarith)
  linarith

/-- the extrema of the fourth derivative of swish on `[-5, 5]` -/
theorem sw4_shape : ∃ i ∈ Icc (1.81977561172501 : ℝ) 1.81977561172502, MonotoneOn (swishD 4) (Icc 0 i) ∧
    AntitoneOn (swishD 4) (Icc i 5) ∧ ∀ x, |x| ≤ 5 → swishD 4 0 ≤ swishD 4 x := by
  obtain ⟨i, hi, hz⟩ := sw4_point
  have i0 : 0 < i := lt_of_lt_of_le (by norm_num) hi.1
  have i5 : i ≤ 5 := hi.2.trans (by norm_num)
  have si1 : 0.72 ≤ 2 * sigmoid i - 1 :=
    le_trans (by norm_num) ((th_ge exp_sw4iA.1 (by norm_num)).trans (th_mono hi.1))
  have si2 : 2 * sigmoid i - 1 ≤ 0.73 :=
    ((th_mono hi.2).trans (th_le exp_sw4iB.2)).trans (by norm_num)
  have h51 : 0.9865 ≤ 2 * sigmoid 5 - 1 := le_trans (by norm_num) (th_ge exp_five.1 (by norm_num))
  have h52 : 2 * sigmoid 5 - 1 ≤ 0.9867 := (th_le exp_five.2).trans (by norm_num)
  unfold sw5h at hz
  have s1 : ∀ x, 0 ≤ x → x ≤ i → 0 ≤ sw5h x := by
    intro x hx0 hx
    have t1 := th_mono hx
    have t0 := th_nonneg hx0
    have tr := th_ratio hx0 hx
    unfold sw5h
    generalize 2 * sigmoid i - 1 = s at *
    generalize 2 * sigmoid x - 1 = t at *
    have ts : t ^ 2 ≤ s ^ 2 := pow_le_pow_left₀ t0 t1 2
    have q1 : 0 < 2 - 3 * s ^ 2 := by nlinarith
    have e4 : ∀ z : ℝ, z ^ 4 = (z ^ 2) ^ 2 := fun z => by ring
    rw [e4] at hz ⊢
    have s0 : 0 < s := by linarith
    generalize s ^ 2 = b at *
    generalize t ^ 2 = a at *
    have q2 : 0 ≤ 2 - 3 * a := by linarith
    rcases le_total (15 / 2 * a - 15 / 2 * a ^ 2 - 1) 0 with hq | hq
    · have a1 := mul_nonneg hx0 (neg_nonneg.2 hq)
      have a2 := mul_nonneg (mul_nonneg (show (0 : ℝ) ≤ 5 by norm_num) t0) q2
      linarith
    · have r := sw5_ratio ts (mul_nonneg_of_nonpos_of_nonpos (by linarith) (by linarith))
      have p1 : x * s * ((15 / 2 * a - 15 / 2 * a ^ 2 - 1) * (2 - 3 * b)) ≤
          i * t * ((15 / 2 * b - 15 / 2 * b ^ 2 - 1) * (2 - 3 * a)) :=
        mul_le_mul tr r (mul_nonneg hq q1.le) (mul_nonneg i0.le t0)
      have p2 : i * t * ((15 / 2 * b - 15 / 2 * b ^ 2 - 1) * (2 - 3 * a)) = s * (2 - 3 * b) * (5 * t * (2 - 3 * a)) := by
        linear_combination (-(t * (2 - 3 * a))) * hz
      have p3 : s * (2 - 3 * b) * (x * (15 / 2 * a - 15 / 2 * a ^ 2 - 1)) ≤ s * (2 - 3 * b) * (5 * t * (2 - 3 * a)) := by
        linarith
      have := le_of_mul_le_mul_left p3 (mul_pos s0 q1)
      linarith
  have s2 : ∀ x, i ≤ x → x ≤ 5 → sw5h x ≤ 0 := by
    intro x hxi hx5
    have hx0 : 0 ≤ x := i0.le.trans hxi
    have t1 := th_mono hxi
    have t2 := th_mono hx5
    have t0 := th_nonneg hx0
    have tr := th_ratio i0.le hxi
    have tr5 := th_ratio hx0 hx5
    unfold sw5h
    generalize 2 * sigmoid i - 1 = s at *
    generalize 2 * sigmoid 5 - 1 = s' at *
    generalize 2 * sigmoid x - 1 = t at *
    have ts : s ^ 2 ≤ t ^ 2 := pow_le_pow_left₀ (by linarith) t1 2
    have ts' : t ^ 2 ≤ s' ^ 2 := pow_le_pow_left₀ t0 t2 2
    have q1 : 0 < 2 - 3 * s ^ 2 := by nlinarith
    have c1 : (0.973 : ℝ) ≤ s' ^ 2 := le_trans (by norm_num) (pow_le_pow_left₀ (by norm_num) h51 2)
    have c2 : s' ^ 2 ≤ 0.974 := (pow_le_pow_left₀ (by linarith) h52 2).trans (by norm_num)
    have c3 : (0.51 : ℝ) ≤ s ^ 2 := le_trans (by norm_num) (pow_le_pow_left₀ (by norm_num) si1 2)
    have e4 : ∀ z : ℝ, z ^ 4 = (z ^ 2) ^ 2 := fun z => by ring
    rw [e4] at hz ⊢
    have s0 : 0 < s := by linarith
    generalize s ^ 2 = b at *
    generalize s' ^ 2 = b' at *
    generalize t ^ 2 = a at *
    rcases le_total (3 * a) 2 with hq | hq
    · have q2 : 0 ≤ 2 - 3 * a := by linarith
      have hb : 0 ≤ 15 / 2 * b - 15 / 2 * b ^ 2 - 1 := by nlinarith
      have r := sw5_ratio ts (mul_nonneg_of_nonpos_of_nonpos (by linarith) (by linarith))
      have p1 : i * t * ((15 / 2 * b - 15 / 2 * b ^ 2 - 1) * (2 - 3 * a)) ≤
          x * s * ((15 / 2 * a - 15 / 2 * a ^ 2 - 1) * (2 - 3 * b)) :=
        mul_le_mul tr r (mul_nonneg hb q2) (mul_nonneg hx0 s0.le)
      have p2 : i * t * ((15 / 2 * b - 15 / 2 * b ^ 2 - 1) * (2 - 3 * a)) = s * (2 - 3 * b) * (5 * t * (2 - 3 * a)) := by
        linear_combination (-(t * (2 - 3 * a))) * hz
      have p3 : s * (2 - 3 * b) * (5 * t * (2 - 3 * a)) ≤ s * (2 - 3 * b) * (x * (15 / 2 * a - 15 / 2 * a ^ 2 - 1)) := by
        linarith
      have := le_of_mul_le_mul_left p3 (mul_pos s0 q1)
      linarith
    · rcases le_total (1 - 15 / 2 * a + 15 / 2 * a ^ 2) 0 with hp | hp
      · have a1 := mul_nonneg hx0 (neg_nonneg.2 hp)
        have a2 := mul_nonneg (mul_nonneg (show (0 : ℝ) ≤ 5 by norm_num) t0) (sub_nonneg.2 hq)
        linarith
      · have r := sw5_ratio ts' (mul_nonneg (by linarith) (by linarith))
        have s0' : 0 < s' := by linarith
        have q5 : 0 < 3 * b' - 2 := by linarith
        have p1 : x * s' * ((1 - 15 / 2 * a + 15 / 2 * a ^ 2) * (3 * b' - 2)) ≤
            5 * t * ((1 - 15 / 2 * b' + 15 / 2 * b' ^ 2) * (3 * a - 2)) :=
          mul_le_mul tr5 (by linarith) (mul_nonneg hp q5.le) (mul_nonneg (by norm_num) t0)
        have n5 : 1 - 15 / 2 * b' + 15 / 2 * b' ^ 2 ≤ s' * (3 * b' - 2) := by
          have : 0.9865 * (3 * b' - 2) ≤ s' * (3 * b' - 2) := mul_le_mul_of_nonneg_right h51 q5.le
          nlinarith
        have p2 : 5 * t * ((1 - 15 / 2 * b' + 15 / 2 * b' ^ 2) * (3 * a - 2)) ≤ 5 * t * (s' * (3 * b' - 2) * (3 * a - 2)) :=
          mul_le_mul_of_nonneg_left (mul_le_mul_of_nonneg_right n5 (by linarith)) (mul_nonneg (by norm_num) t0)
        have p3 : s' * (3 * b' - 2) * (x * (1 - 15 / 2 * a + 15 / 2 * a ^ 2)) ≤
            s' * (3 * b' - 2) * (5 * t * (3 * a - 2)) := by linarith
        have := le_of_mul_le_mul_left p3 (mul_pos s0' q5)
        linarith
  have hd := hasDerivAt_swishD4'
  have m1 : MonotoneOn (swishD 4) (Icc 0 i) := mono_Icc hd fun x hx => mul_nonneg (sigD1_pos x).le (s1 x hx.1 hx.2)
  have m2 : AntitoneOn (swishD 4) (Icc i 5) := anti_Icc hd fun x hx =>
    mul_nonpos_of_nonneg_of_nonpos (sigD1_pos x).le (s2 x hx.1 hx.2)
  have heven : ∀ x, swishD 4 (-x) = swishD 4 x := by
    intro x
    rw [swishD4_eq, swishD4_eq, sigD1_even, sw4h, sw4h, sigmoid_neg]
    ring
  have pos : ∀ x, 0 ≤ x → x ≤ 5 → swishD 4 0 ≤ swishD 4 x := by
    intro x hx0 hx5
    rcases le_total x i with h | h
    · exact m1 ⟨le_rfl, i0.le⟩ ⟨hx0, h⟩ hx0
    · refine le_trans ?_ (m2 ⟨h, hx5⟩ ⟨i5, le_rfl⟩ hx5)
      have e0 : sigmoid 0 = 1 / 2 := by rw [sigmoid_eq]; norm_num
      have e1 : swishD 4 0 = -1 / 2 := by
        rw [swishD4_eq, th_sq, sw4h, e0]; norm_num
      rw [e1, swishD4_eq, sw4h, th_sq]
      generalize 2 * sigmoid 5 - 1 = s at *
      have b1 : 0 ≤ (1 - s ^ 2) / 4 := by nlinarith
      have b2 : (1 - s ^ 2) / 4 ≤ 0.01 := by nlinarith
      have b3 : -10 ≤ 6 * s ^ 2 - 2 - 5 * s * (3 * s ^ 2 - 2) := by nlinarith
      have := mul_le_mul_of_nonneg_left b3 b1
      linarith
  refine ⟨i, hi, m1, m2, fun x hx => ?_⟩
  rcases le_total 0 x with h | h
  · rw [abs_of_nonneg h] at hx
    exact pos x h hx
  · rw [abs_of_nonpos h] at hx
    rw [← heven x]
    exact pos (-x) (by linarith) hx

end AB
