/-
C33: counterexamples for swish of degree 3 (get_range ignores end points) and of degree 4 (extrema missing from
the table) (/repo/autobound/elementwise_functions.py:203-216, 341-356).
-/
import Verif.Props.Builtin2
import Verif.Proofs.ApproxTables
set_option linter.unusedSectionVars false

namespace AB
open PE EF Set

/-- membership in an enclosure whose coefficients are the Taylor coefficients is a bound on the ratio -/
theorem rho_of_has {D : ℕ → ℝ → ℝ} {k : ℕ} {x0 x l u : ℝ} (hx : x ≠ x0)
    (h : SEncl.Has ((taylorCoeffs D k x0).take k, (l, u)) (x - x0) (D 0 x)) : l ≤ rho D x0 k x ∧ rho D x0 k x ≤ u := by
  obtain ⟨q, q1, q2, hq⟩ := h
  have hlen : ((taylorCoeffs D k x0).take k).length = k := by simp [taylorCoeffs]
  have hspec := rho_spec D x0 k x
  simp only [hlen] at hq
  have hsum : ∑ i ∈ Finset.range k, ((taylorCoeffs D k x0).take k).getD i 0 * (x - x0) ^ i =
      ∑ i ∈ Finset.range k, D i x0 / i.factorial * (x - x0) ^ i := by
    refine Finset.sum_congr rfl fun i hi => ?_
    have hi' := Finset.mem_range.1 hi
    rw [← taylorCoeffs_getD D hi'.le, List.getD_eq_getElem?_getD, List.getD_eq_getElem?_getD,
      List.getElem?_take_of_lt hi']
  rw [hsum, hspec] at hq
  have hqr := mul_right_cancel₀ (pow_ne_zero k (sub_ne_zero.2 hx)) (add_left_cancel hq)
  rw [hqr]
  exact ⟨q1, q2⟩

/-- near its first listed minimum the third derivative of swish is above -1/10 -/
theorem swish3_low (x : ℝ) (hx2 : -(443 / 100) ≤ x) (hx3 : x ≤ -4) : -(1 / 10) ≤ derivFun .swish 3 x := by
  show _ ≤ swishD 3 x
  have hs0 := sigmoid_pos x
  have hsx : sigmoid x < 1 / 54 := by
    rw [sigmoid_eq]
    have h3 : Real.exp 4 ≤ Real.exp (-x) := Real.exp_le_exp.2 (by linarith)
    have h4 : Real.exp 4 = Real.exp 1 ^ 4 := by rw [← Real.exp_nat_mul]; norm_num
    have h5 := Real.exp_one_gt_d9
    have h6 : (2.7 : ℝ) ^ 4 < Real.exp 1 ^ 4 := by gcongr; linarith
    rw [h4] at h3
    norm_num at h6
    apply one_div_lt_one_div_of_lt <;> linarith
  have e : swishD 3 x = 3 * sigD 1 x * (1 - 2 * sigmoid x) + x * sigD 1 x - 6 * (x * sigD 1 x ^ 2) := by
    simp only [swishD, sigD3_eq, show 3 - 1 = 2 from rfl, sigD2_eq]; push_cast; ring
  have hu0 := sigD1_pos x
  have hu : sigD 1 x ≤ 1 / 54 := by
    simp only [sigD, sigmoid_neg]
    nlinarith
  rw [e]
  generalize sigD 1 x = u at *
  generalize sigmoid x = s at *
  have t1 : 0 ≤ 3 * u * (1 - 2 * s) := mul_nonneg (by linarith) (by linarith)
  have t2 : x * u ^ 2 ≤ 0 := mul_nonpos_of_nonpos_of_nonneg (by linarith) (by positivity)
  have t3 : -(443 / 100) * u ≤ x * u := mul_le_mul_of_nonneg_right hx2 hu0.le
  linarith

/-- **C33 (counterexample, swish of degree 3).** At `x0 = log 2` with trust region `[-5, log 2]` the enclosure
does not contain `swish(log 1.5)`: the listed minimum at -4.43 lies in the region and `get_range` then ignores
the end points. -/
theorem C33_swish3_counterexample :
    ∃ s, getElementwiseTaylorEnclosure SWISH (Real.log 2) (-5) (Real.log 2) 3 = .ok s ∧
      Real.log (3 / 2) ∈ Icc (-5) (Real.log 2) ∧
      ¬ SEncl.Has s (Real.log (3 / 2) - Real.log 2) (mathFun .swish (Real.log (3 / 2))) := by
  have hl1 := Real.log_two_lt_d9
  have hl2 := Real.log_two_gt_d9
  have hl3 : Real.log (3 / 2) < Real.log 2 := Real.log_lt_log (by norm_num) (by norm_num)
  have hl0 : 0 < Real.log (3 / 2) := Real.log_pos (by norm_num)
  have hs : supportedOrder .swish 3 := by simp [supportedOrder]
  have hd : getFunctionData ⟨.swish, 3⟩ = .ok ⟨[-4.429235100557346, 1.0319582417807385],
      [-1.0319582417807402, 4.429235100557342], false, false, false⟩ := rfl
  have hca : NotCapped (Real.log 2) 3 (-5) := by
    refine Or.inr ?_
    have : (1 : ℝ) ≤ |(-5) - Real.log 2| := by rw [abs_of_neg (by linarith)]; linarith
    exact le_trans (by norm_num) (one_le_pow₀ this)
  have hso : sorted ([-4.429235100557346, 1.0319582417807385] ++
      [-1.0319582417807402, 4.429235100557342] : List ℝ) =
      [-4.429235100557346, -1.0319582417807402, 1.0319582417807385, 4.429235100557342] := by
    refine sorted_eq ?_ (by norm_num)
    simp only [List.cons_append, List.nil_append]
    exact List.Perm.cons _ (List.Perm.swap _ _ _)
  have hmono : (⟨[-4.429235100557346, 1.0319582417807385],
      [-1.0319582417807402, 4.429235100557342], false, false, false⟩ : FunctionData ℝ).monotoneOver (-5)
      (Real.log 2) = (false, false) := by
    have e1 : ¬ Real.log 2 ≤ -4.429235100557346 := by norm_num; linarith
    unfold FunctionData.monotoneOver
    rw [hso]
    simp [monotoneLoop, monotoneStep, betweenExtrema, e1]
    norm_num
  have heq := elementwise_eq hs hd hca (Or.inl rfl) (getRange_ok hs hd _ _)
  rw [hmono] at heq
  simp only [Bool.or_self, Bool.false_eq_true, if_false, and_false] at heq
  refine ⟨_, heq, ⟨by linarith, hl3.le⟩, ?_⟩
  intro hhas
  rw [← derivFun_zero] at hhas
  obtain ⟨q1, -⟩ := rho_of_has hl3.ne hhas
  have hch : Chain (derivFun .swish) 3 (Icc (Real.log (3 / 2)) (Real.log 2)) := fun i hi x hx =>
    (hasDerivAt_derivFun (supportedOrder_mono hs hi) trivial).hasDerivWithinAt
  have hcx : Convex ℝ (Icc (Real.log (3 / 2)) (Real.log 2)) := convex_Icc _ _
  have hup : ∀ x ∈ Icc (Real.log (3 / 2)) (Real.log 2), derivFun .swish 3 x ≤ -(2 / 15) := by
    intro x hx
    have s1 : sigmoid (Real.log (3 / 2)) = 3 / 5 := by
      rw [sigmoid_eq, Real.exp_neg, Real.exp_log (by norm_num)]; norm_num
    have s2 : sigmoid (Real.log 2) = 2 / 3 := by
      rw [sigmoid_eq, Real.exp_neg, Real.exp_log (by norm_num)]; norm_num
    have h3 := sigmoid_strictMono.monotone hx.1
    have h4 := sigmoid_strictMono.monotone hx.2
    rw [s1] at h3
    rw [s2] at h4
    have hx0 : 0 ≤ x := hl0.le.trans hx.1
    show swishD 3 x ≤ _
    have e : swishD 3 x = 3 * sigD 1 x * (1 - 2 * sigmoid x) + x * (sigD 1 x * (1 - 6 * sigD 1 x)) := by
      simp only [swishD, sigD3_eq, show 3 - 1 = 2 from rfl, sigD2_eq]; push_cast; ring
    have hu : 2 / 9 ≤ sigD 1 x := by
      simp only [sigD, sigmoid_neg]
      nlinarith
    have h5 : x * (sigD 1 x * (1 - 6 * sigD 1 x)) ≤ 0 :=
      mul_nonpos_of_nonneg_of_nonpos hx0 (mul_nonpos_of_nonneg_of_nonpos (by linarith) (by linarith))
    rw [e]
    nlinarith
  have hrho := rho_le hcx hch hup (x0 := Real.log 2) (x := Real.log (3 / 2)) ⟨hl3.le, le_rfl⟩ ⟨le_rfl, hl3.le⟩
  have hmin : -(1 / 10) ≤ minimumValue (derivFun .swish 3) (-5) (Real.log 2) [-4.429235100557346, 1.0319582417807385] := by
    rcases minimumValue_spec (derivFun .swish 3) (-5) (Real.log 2) [-4.429235100557346, 1.0319582417807385] with
      ⟨m, hm, m1, m2, h, -⟩ | ⟨hno, -⟩
    · rw [h]
      simp only [List.mem_cons, List.not_mem_nil, or_false] at hm
      rcases hm with rfl | rfl
      · exact swish3_low _ (by norm_num) (by norm_num)
      · exfalso
        norm_num at m2
        linarith
    · exfalso
      refine hno (-4.429235100557346) (by simp) ⟨by norm_num, ?_⟩
      norm_num
      linarith
  have h6 : ((3 : ℕ).factorial : ℝ) = 6 := by norm_num [Nat.factorial]
  simp only [h6] at q1 hrho
  linarith

/-! ### swish of degree 4 -/

/-- the fifth derivative of swish -/
theorem hasDerivAt_swishD4 (x : ℝ) : HasDerivAt (swishD 4)
    (sigD 1 x * (x * (1 - 30 * sigD 1 x + 120 * sigD 1 x ^ 2) - 5 * (2 * sigmoid x - 1) * (1 - 12 * sigD 1 x))) x := by
  have hs := hasDerivAt_sigmoid x
  have e : swishD 4 = fun x => sigmoid x * (1 - sigmoid x) * (4 * (1 - 6 * (sigmoid x * (1 - sigmoid x))) +
      x * ((1 - 2 * sigmoid x) * (1 - 12 * (sigmoid x * (1 - sigmoid x))))) := by
    funext x
    simp only [swishD, show 4 - 1 = 3 from rfl, sigD3_eq, sigD4_eq]
    simp only [sigD, sigmoid_neg]
    push_cast
    ring
  have h1 : HasDerivAt (fun x => sigmoid x * (1 - sigmoid x))
      (sigmoid x * (1 - sigmoid x) * (1 - 2 * sigmoid x)) x :=
    (hs.fun_mul (hs.const_sub 1)).congr_deriv (by ring)
  have h12 : HasDerivAt (fun x => 1 - 2 * sigmoid x) (-(2 * (sigmoid x * (1 - sigmoid x)))) x :=
    ((hs.const_mul 2).const_sub 1)
  rw [e]
  have h3 := ((h1.const_mul 12).const_sub 1)
  have h4 := (((h1.const_mul 6).const_sub 1).const_mul 4).fun_add ((hasDerivAt_id x).fun_mul (h12.fun_mul h3))
  refine (h1.fun_mul h4).congr_deriv ?_
  simp only [sigD, sigmoid_neg, id]
  ring

/-- the fourth derivative of swish increases after 6 -/
theorem swishD5_pos : ∃ ε > 0, ∀ x ∈ Icc (6 : ℝ) 8,
    ε ≤ sigD 1 x * (x * (1 - 30 * sigD 1 x + 120 * sigD 1 x ^ 2) - 5 * (2 * sigmoid x - 1) * (1 - 12 * sigD 1 x)) := by
  refine ⟨sigD 1 8 * (1 / 10), mul_pos (sigD1_pos 8) (by norm_num), fun x hx => ?_⟩
  have hu8 := sigD1_anti (mem_Ici.2 (by linarith [hx.1] : (0 : ℝ) ≤ x)) (mem_Ici.2 (by norm_num : (0 : ℝ) ≤ 8)) hx.2
  have hu6 := sigD1_anti (mem_Ici.2 (by norm_num : (0 : ℝ) ≤ 6)) (mem_Ici.2 (by linarith [hx.1] : (0 : ℝ) ≤ x)) hx.1
  have h6 : sigD 1 6 ≤ 1 / 360 := by
    rw [sigD1_exp]
    have h4 : Real.exp 6 = Real.exp 1 ^ 6 := by rw [← Real.exp_nat_mul]; norm_num
    have h5 := Real.exp_one_gt_d9
    have h6 : (2.7 : ℝ) ^ 6 < Real.exp 1 ^ 6 := by gcongr; linarith
    rw [← h4] at h6
    norm_num at h6
    rw [div_le_div_iff₀ (by positivity) (by norm_num)]
    nlinarith
  have hu0 := sigD1_pos x
  have hs1 := sigmoid_lt_one x
  have hs0 := sigmoid_ge_half (by linarith [hx.1] : (0 : ℝ) ≤ x)
  refine mul_le_mul hu8 ?_ (by norm_num) hu0.le
  have a1 : 5 * (2 * sigmoid x - 1) * (1 - 12 * sigD 1 x) ≤ 5 * 1 * 1 := by
    apply mul_le_mul (by linarith) (by linarith) (by linarith) (by norm_num)
  have a2 : 6 * (1 - 30 / 360) ≤ x * (1 - 30 * sigD 1 x + 120 * sigD 1 x ^ 2) :=
    mul_le_mul hx.1 (by nlinarith) (by norm_num) (by linarith [hx.1])
  norm_num at a1 a2 ⊢
  linarith

/-- **C33 (counterexample, swish of degree 4).** At `x0 = 7` with trust region `[6, 8]` the enclosure does not
even contain `swish(8)`: the table lists no extremum of the fourth derivative beyond 1.82, so the fourth derivative is
taken to be decreasing on the region, where it increases. -/
theorem C33_swish4_counterexample :
    ∃ s, getElementwiseTaylorEnclosure SWISH 7 6 8 4 = .ok s ∧ s.2.2 < s.2.1 ∧
      ∀ x ∈ Icc (6 : ℝ) 8, x ≠ 7 → ¬ SEncl.Has s (x - 7) (mathFun .swish x) := by
  have hs : supportedOrder .swish 4 := by simp [supportedOrder]
  have hd : getFunctionData ⟨.swish, 4⟩ = .ok ⟨[0], [-1.8197756117249821, 1.8197756117249804], false, false, false⟩ := rfl
  have hso : sorted ([0] ++ [-1.8197756117249821, 1.8197756117249804] : List ℝ) =
      [-1.8197756117249821, 0, 1.8197756117249804] := by
    refine sorted_eq ?_ (by norm_num)
    exact List.Perm.swap _ _ _
  have hmono : ((⟨[0], [-1.8197756117249821, 1.8197756117249804], false, false, false⟩ : FunctionData ℝ).monotoneOver 6
      8).1 = true := by
    unfold FunctionData.monotoneOver
    rw [hso]
    simp [monotoneLoop, monotoneStep, betweenExtrema]
    norm_num
  have heq := elementwise_eq hs hd (x0 := 7) (a := 6) (b := 8) (Or.inr (by norm_num)) (Or.inr (by norm_num))
    (getRange_ok hs hd _ _)
  simp only [Bool.or_self, Bool.false_eq_true, if_false, and_false, hmono, if_true] at heq
  obtain ⟨ε, hε, hpos⟩ := swishD5_pos
  have hlt : rho (derivFun .swish) 7 4 6 < rho (derivFun .swish) 7 4 8 := by
    set G : ℕ → ℝ → ℝ := fun i x => ε * ((x - 7) ^ (5 - i) / (5 - i).factorial) with hG
    have hcx : Convex ℝ (Icc (6 : ℝ) 8) := convex_Icc _ _
    have hcG : Chain (fun i x => derivFun .swish i x - G i x) 4 (Icc 6 8) := by
      intro i hi x _
      refine ((hasDerivAt_derivFun (supportedOrder_mono hs hi) trivial).sub ?_).hasDerivWithinAt
      have e1 : 5 - i = (5 - (i + 1)) + 1 := by omega
      simp only [hG]
      rw [e1]
      generalize 5 - (i + 1) = j
      have := ((((hasDerivAt_id x).sub_const 7).fun_pow (j + 1)).div_const ((j + 1).factorial : ℝ)).const_mul ε
      refine this.congr_deriv ?_
      have hj : ((j + 1).factorial : ℝ) = (j + 1) * j.factorial := by push_cast [Nat.factorial_succ]; ring
      have : (j.factorial : ℝ) ≠ 0 := by positivity
      have : ((j : ℝ) + 1) ≠ 0 := by positivity
      simp only [hj, id, Nat.add_sub_cancel]
      push_cast
      field_simp
    have hm : MonotoneOn (fun x => derivFun .swish 4 x - G 4 x) (Icc 6 8) := by
      refine monotone_of_hasDerivWithinAt hcx (fun x _ => (((hasDerivAt_swishD4 x).sub
        (((hasDerivAt_id x).sub_const 7).const_mul ε)).hasDerivWithinAt).congr (f₁ := fun x => derivFun .swish 4 x - G 4 x) (fun y _ => ?_) ?_)
        (fun x hx => ?_)
      · simp [hG, derivFun]
      · simp [hG, derivFun]
      · have := hpos x hx
        simp only [mul_one]
        linarith
    have h1 := rho_mono hcx hcG hm (x0 := 7) (by norm_num) (show (6 : ℝ) ∈ Icc (6 : ℝ) 8 by norm_num)
      (show (8 : ℝ) ∈ Icc (6 : ℝ) 8 by norm_num) (by norm_num)
    rw [rho_sub, rho_sub] at h1
    have hr : ∀ x : ℝ, x ≠ 7 → rho G 7 4 x = ε * ((x - 7) / 120) := by
      intro x hx
      have : x - 7 ≠ 0 := sub_ne_zero.2 hx
      unfold rho
      rw [if_neg hx]
      simp only [hG, Finset.sum_range_succ, Finset.sum_range_zero]
      norm_num [Nat.factorial]
      field_simp
    rw [hr 6 (by norm_num), hr 8 (by norm_num)] at h1
    linarith
  refine ⟨_, heq, hlt, fun x hx hne hhas => ?_⟩
  rw [← derivFun_zero] at hhas
  obtain ⟨q1, q2⟩ := rho_of_has hne hhas
  linarith

end AB
