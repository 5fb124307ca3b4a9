/-
C33: the enclosures whose table of extrema is not truthful
(/repo/autobound/elementwise_functions.py:203-216, 235-259, primitive_enclosures.py:244-274).
-/
import Verif.Props.Builtin
set_option linter.unusedSectionVars false

namespace AB
open PE EF Set

theorem sorted_eq {l l' : List ℝ} (hp : l'.Perm l) (hs : l'.Pairwise (· ≤ ·)) : sorted l = l' := by
  have h1 : (sorted l).Perm l := List.mergeSort_perm _ _
  have h2 : (sorted l).Pairwise (fun a b => decide (a ≤ b)) :=
    List.pairwise_mergeSort (fun a b c h1 h2 => by simp at *; exact h1.trans h2)
      (fun a b => by simpa using le_total _ _) _
  refine List.Perm.eq_of_pairwise (fun a b _ _ h1 h2 => le_antisymm h1 h2) (by simpa using h2) hs
    (h1.trans hp.symm)

theorem sigD4_lower {x : ℝ} (h1 : Real.log (3 / 2) ≤ x) (h2 : x ≤ Real.log 2) : 7 / 96 < sigD 4 x := by
  have s1 : sigmoid (Real.log (3 / 2)) = 3 / 5 := by
    rw [sigmoid_eq, Real.exp_neg, Real.exp_log (by norm_num)]; norm_num
  have s2 : sigmoid (Real.log 2) = 2 / 3 := by
    rw [sigmoid_eq, Real.exp_neg, Real.exp_log (by norm_num)]; norm_num
  have h3 := sigmoid_strictMono.monotone h1
  have h4 := sigmoid_strictMono.monotone h2
  rw [s1] at h3
  rw [s2] at h4
  simp only [sigD, sigmoid_neg]
  generalize sigmoid x = s at h3 h4 ⊢
  have e : s * (1 - s) * (1 - 2 * s) * ((1 - 2 * s) ^ 2 - 2 * s * (1 - s)) +
      s * (1 - s) * (-4 * (1 - 2 * s) * s * (1 - s) - 2 * s * (1 - s) * (1 - 2 * s)) =
      (s * (1 - s)) * ((2 * s - 1) * (12 * (s * (1 - s)) - 1)) := by ring
  rw [e]
  have hu : 2 / 9 ≤ s * (1 - s) := by nlinarith
  have h5 : (1 / 5 : ℝ) * (15 / 9) ≤ (2 * s - 1) * (12 * (s * (1 - s)) - 1) :=
    mul_le_mul (by linarith) (by linarith) (by norm_num) (by linarith)
  have h6 : (2 / 9 : ℝ) * (1 / 5 * (15 / 9)) ≤ _ := mul_le_mul hu h5 (by norm_num) (by linarith)
  refine lt_of_lt_of_le ?_ h6
  norm_num

/-- **C33 (counterexample).** `sigmoid_enclosure` of degree 4 is not sound on every trust region: at
`x0 = log 2` with trust region `[-4, log 2]` the enclosure it returns does not contain
`sigmoid(log 1.5)`, because `get_range` ignores the end points of the trust region. -/
theorem C33_sigmoid4_counterexample :
    ∃ s, getElementwiseTaylorEnclosure SIGMOID (Real.log 2) (-4) (Real.log 2) 4 = .ok s ∧
      Real.log (3 / 2) ∈ Icc (-4) (Real.log 2) ∧
      ¬ SEncl.Has s (Real.log (3 / 2) - Real.log 2) (mathFun .sigmoid (Real.log (3 / 2))) := by
  obtain ⟨g, r, hg, hr, hr2, -⟩ := C27_get_range_counterexample
  have hl1 := Real.log_two_lt_d9
  have hl2 := Real.log_two_gt_d9
  have hl3 : Real.log (3 / 2) < Real.log 2 := Real.log_lt_log (by norm_num) (by norm_num)
  have hl0 : 0 < Real.log (3 / 2) := Real.log_pos (by norm_num)
  have hs : supportedOrder .sigmoid 4 := by simp [supportedOrder]
  have hd : getFunctionData ⟨.sigmoid, 4⟩ = .ok ⟨[-0.8426329481295408, 3.1443184061547065],
      [-3.144318406154709, 0.8426329481295388], false, false, false⟩ := rfl
  have hr' : getRange ⟨.sigmoid, 4⟩ (-4) (Real.log 2) = .ok r := hr
  have hca : NotCapped (Real.log 2) 4 (-4) := by
    refine Or.inr ?_
    have : (1 : ℝ) ≤ |(-4) - Real.log 2| := by rw [abs_of_neg (by linarith)]; linarith
    exact le_trans (by norm_num) (one_le_pow₀ this)
  have hso : sorted ([-0.8426329481295408, 3.1443184061547065] ++
      [-3.144318406154709, 0.8426329481295388] : List ℝ) =
      [-3.144318406154709, -0.8426329481295408, 0.8426329481295388, 3.1443184061547065] := by
    refine sorted_eq ?_ (by norm_num)
    refine (List.Perm.swap _ _ _).trans ?_
    simp only [List.cons_append, List.nil_append]
    refine List.Perm.cons _ ?_
    exact (List.Perm.cons _ (List.Perm.swap _ _ _)).trans ((List.Perm.swap _ _ _))
  have hmono : (⟨[-0.8426329481295408, 3.1443184061547065],
      [-3.144318406154709, 0.8426329481295388], false, false, false⟩ : FunctionData ℝ).monotoneOver (-4)
      (Real.log 2) = (false, false) := by
    have e1 : ¬ Real.log 2 ≤ -3.144318406154709 := by norm_num; linarith
    unfold FunctionData.monotoneOver
    rw [hso]
    simp [monotoneLoop, monotoneStep, betweenExtrema, e1]
    norm_num
  have heq := elementwise_eq hs hd hca (Or.inl rfl) hr'
  rw [hmono] at heq
  simp only [Bool.or_self, Bool.false_eq_true, if_false, and_false] at heq
  refine ⟨_, heq, ⟨by linarith, hl3.le⟩, ?_⟩
  rintro ⟨q, -, hq2, hq⟩
  have hlen : ((taylorCoeffs (derivFun .sigmoid) 4 (Real.log 2)).take 4).length = 4 := by simp [taylorCoeffs]
  have hch : Chain (derivFun .sigmoid) 4 (Icc (Real.log (3 / 2)) (Real.log 2)) := fun i hi x hx =>
    (hasDerivAt_derivFun (supportedOrder_mono hs hi) trivial).hasDerivWithinAt
  have hcx : Convex ℝ (Icc (Real.log (3 / 2)) (Real.log 2)) := convex_Icc _ _
  have hrho := le_rho hcx hch (m := 7 / 96) (fun x hx => (sigD4_lower hx.1 hx.2).le)
    (x0 := Real.log 2) (x := Real.log (3 / 2)) ⟨hl3.le, le_rfl⟩ ⟨le_rfl, hl3.le⟩
  have hspec := rho_spec (derivFun .sigmoid) (Real.log 2) 4 (Real.log (3 / 2))
  have h0 : derivFun .sigmoid 0 = mathFun .sigmoid := derivFun_zero (n := .sigmoid)
  rw [h0, hq] at hspec
  simp only [hlen] at hspec
  have hsum : ∑ i ∈ Finset.range 4, ((taylorCoeffs (derivFun .sigmoid) 4 (Real.log 2)).take 4).getD i 0 *
      (Real.log (3 / 2) - Real.log 2) ^ i =
      ∑ i ∈ Finset.range 4, derivFun .sigmoid i (Real.log 2) / i.factorial *
        (Real.log (3 / 2) - Real.log 2) ^ i := by
    refine Finset.sum_congr rfl fun i hi => ?_
    have hi' := Finset.mem_range.1 hi
    rw [← taylorCoeffs_getD (derivFun .sigmoid) hi'.le, List.getD_eq_getElem?_getD,
      List.getD_eq_getElem?_getD, List.getElem?_take_of_lt hi']
  rw [hsum] at hspec
  have hne : (Real.log (3 / 2) - Real.log 2) ^ 4 ≠ 0 := pow_ne_zero _ (by linarith)
  have hqr := mul_right_cancel₀ hne (add_left_cancel hspec)
  rw [hqr] at hq2
  simp only at hq2
  have : (7 / 96 : ℝ) / (4 : ℕ).factorial ≤ r.2 / (4 : ℕ).factorial := hrho.trans hq2
  have h7 : (7 / 96 : ℝ) ≤ r.2 := (div_le_div_iff_of_pos_right (by positivity)).1 this
  linarith

end AB
