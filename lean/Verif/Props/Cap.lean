/-
C59: what the cap on `1/(x-x0)^k` in `taylor_remainder_ratio`
(/repo/autobound/primitive_enclosures.py:299-305) costs: the enclosures of the built-in functions on all trust
regions, however small.
-/
import Verif.Proofs.Cap
import Verif.Props.Approx
import Verif.Props.Pow

set_option linter.unusedSectionVars false

namespace AB
open PE EF Set

/-- **C59 (generic).** If the `k`-th derivative of `f = D 0` is increasing (decreasing) on the trust region `[a, b]`
containing `x0`, then every value `f(x)` is within `1e-12 * (the variation of the k-th derivative over [a, b]) / k!` of
the enclosure that `sharp_enclosure_monotonic_derivative` returns — without any condition on the size of the region. -/
theorem C59_cap_error {D : ℕ → ℝ → ℝ} {k : ℕ} {a b x0 : ℝ} (hD : IsDerivChain D k a b) {increasing : Bool}
    (hmono : if increasing then MonotoneOn (D k) (Icc a b) else AntitoneOn (D k) (Icc a b))
    (hx0 : x0 ∈ Icc a b) :
    ∃ s, sharpMonotonic x0 k a b (D 0) (taylorCoeffs D k x0) increasing = .ok s ∧ s.1.length = k ∧ s.2.1 ≤ s.2.2 ∧
      ∀ x, a ≤ x → x ≤ b → ∃ w, SEncl.Has s (x - x0) w ∧
        |D 0 x - w| ≤ |D k b - D k a| / k.factorial / 10 ^ 12 := by
  have hab : a ≤ b := hx0.1.trans hx0.2
  have haI : a ∈ Icc a b := left_mem_Icc.2 hab
  have hbI : b ∈ Icc a b := right_mem_Icc.2 hab
  have hcx : Convex ℝ (Icc a b) := convex_Icc a b
  have hl : ((taylorCoeffs D k x0).take k).length = k := by simp [taylorCoeffs]
  have t0 := capTheta_nonneg x0 k a
  have u0 := capTheta_nonneg x0 k b
  refine ⟨_, sharp_cap D k x0 a b increasing, hl, ?_⟩
  cases increasing with
  | true =>
    have hm := rho_mono hcx hD hmono hx0
    have hV : ∀ x ∈ Icc a b, ∀ y ∈ Icc a b, D k x - D k y ≤ |D k b - D k a| := fun x hx y hy => by
      have h1 : D k x ≤ D k b := hmono hx hbI hx.2
      have h2 : D k a ≤ D k y := hmono haI hy hy.1
      exact le_trans (by linarith) (le_abs_self _)
    constructor
    · have h1 := mul_nonpos_of_nonneg_of_nonpos t0 (sub_nonpos.2 (hm haI hx0 hx0.1))
      have h2 := mul_nonneg u0 (sub_nonneg.2 (hm hx0 hbI hx0.2))
      simp only [if_true, capRho]
      linarith
    · intro x h1 h2
      obtain ⟨r, r1, r2, r3⟩ := cap_core (ρ := rho D x0 k) (k := k) hx0 le_rfl
        (fun x hx y hy h => by have := hm hx hy h; linarith) (rho_var hD hx0 hV) ⟨h1, h2⟩
      exact near_of_ratio (by simpa [capRho] using r1) (by simpa [capRho] using r2) r3
  | false =>
    have hm := rho_anti hcx hD hmono hx0
    have hV : ∀ x ∈ Icc a b, ∀ y ∈ Icc a b, D k x - D k y ≤ |D k b - D k a| := fun x hx y hy => by
      have h1 : D k x ≤ D k a := hmono haI hx hx.1
      have h2 : D k b ≤ D k y := hmono hy hbI hy.2
      rw [abs_sub_comm]
      exact le_trans (by linarith) (le_abs_self _)
    constructor
    · have h1 := mul_nonneg t0 (sub_nonneg.2 (hm haI hx0 hx0.1))
      have h2 := mul_nonpos_of_nonneg_of_nonpos u0 (sub_nonpos.2 (hm hx0 hbI hx0.2))
      simp only [Bool.false_eq_true, if_false, capRho]
      linarith
    · intro x h1 h2
      obtain ⟨r, r1, r2, r3⟩ := cap_core_anti (ρ := rho D x0 k) (k := k) hx0 le_rfl
        (fun x hx y hy h => by have := hm hx hy h; linarith) (rho_var hD hx0 hV) ⟨h1, h2⟩
      exact near_of_ratio (by simpa [capRho] using r1) (by simpa [capRho] using r2) r3

/-- C59 for `exp` with a trust region that is tiny on one side (the case of `C30_cap_counterexample`) -/
example : ∃ s, sharpMonotonic 0 1 (-(1 / 10 ^ 13)) 1 Real.exp (taylorCoeffs (fun _ => Real.exp) 1 0) true = .ok s ∧
    ∀ x, -(1 / 10 ^ 13) ≤ x → x ≤ 1 → ∃ w, SEncl.Has s (x - 0) w ∧
      |Real.exp x - w| ≤ |Real.exp 1 - Real.exp (-(1 / 10 ^ 13))| / (1).factorial / 10 ^ 12 := by
  obtain ⟨s, h1, -, -, h2⟩ := C59_cap_error (D := fun _ => Real.exp) (k := 1) (a := -(1 / 10 ^ 13)) (b := 1)
    (x0 := 0) (increasing := true) (fun i _ x _ => (Real.hasDerivAt_exp x).hasDerivWithinAt)
    (fun x _ y _ h => Real.exp_le_exp.2 h) (by norm_num)
  exact ⟨s, h1, h2⟩

/-- `get_elementwise_taylor_enclosure` for a supported order, unfolded, without a condition on the region -/
theorem elementwise_cap {n : FName} {k : ℕ} (hk : supportedOrder n k) {d : FunctionData ℝ}
    (hd : getFunctionData ⟨n, k⟩ = .ok d) {x0 a b : ℝ} {r : ℝ × ℝ} (hr : getRange ⟨n, k⟩ a b = .ok r) :
    getElementwiseTaylorEnclosure ⟨n, 0⟩ x0 a b k =
      if d.increasing || d.decreasing then
        .ok ((taylorCoeffs (derivFun n) k x0).take k,
          if d.increasing then (capRho (derivFun n) x0 k a, capRho (derivFun n) x0 k b)
          else (capRho (derivFun n) x0 k b, capRho (derivFun n) x0 k a))
      else if k = 2 ∧ d.evenSymmetric then
        sharpQuadratic x0 a b (derivFun n 0) (taylorCoeffs (derivFun n) k x0)
      else
        .ok ((taylorCoeffs (derivFun n) k x0).take k,
          if (d.monotoneOver a b).1 then (capRho (derivFun n) x0 k b, capRho (derivFun n) x0 k a)
          else if (d.monotoneOver a b).2 then (capRho (derivFun n) x0 k a, capRho (derivFun n) x0 k b)
          else (r.1 / k.factorial, r.2 / k.factorial)) := by
  have h0 : getFunction ⟨n, 0⟩ = .ok (derivFun n 0) :=
    getFunction_eq.2 ⟨supportedOrder_mono hk (Nat.zero_le _), rfl⟩
  have hdid : FunctionId.derivativeId ⟨n, 0⟩ k = ⟨n, k⟩ := by simp [FunctionId.derivativeId]
  have hl : (taylorCoeffs (derivFun n) k x0).length = k + 1 := taylorCoeffs_length _ _ _
  have hdl : (taylorCoeffs (derivFun n) k x0).dropLast = (taylorCoeffs (derivFun n) k x0).take k := by
    rw [List.dropLast_eq_take, hl]; rfl
  have hb' : boundedDerivative k (taylorCoeffs (derivFun n) k x0).dropLast r =
      .ok ((taylorCoeffs (derivFun n) k x0).take k, (r.1 / k.factorial, r.2 / k.factorial)) := by
    unfold boundedDerivative
    rw [hdl, if_neg (by simp [hl]), List.take_take, min_self]
  have hs := fun inc => sharp_cap (derivFun n) k x0 a b inc
  unfold getElementwiseTaylorEnclosure
  simp only [h0, hdid, hd, taylorCoefficients_eq hk, py_ok_bind, hs, hr, hb']
  split_ifs with h1 h2 h3 h4 <;> simp_all [py_pure_eq]

/-- the three routes through `get_elementwise_taylor_enclosure` -/
theorem near_core {n : FName} {k : ℕ} (hk : supportedOrder n k) {d : FunctionData ℝ}
    (hd : getFunctionData ⟨n, k⟩ = .ok d) {x0 a b : ℝ} (hx0 : x0 ∈ Icc a b)
    (hq : ¬ (k = 2 ∧ d.evenSymmetric = true)) {η V : ℝ} (hη : 0 ≤ η)
    (hV : ∀ x ∈ Icc a b, ∀ y ∈ Icc a b, rho (derivFun n) x0 k x - rho (derivFun n) x0 k y ≤ V)
    (hinc : d.increasing = true ∨ (d.monotoneOver a b).2 = true → ∀ x ∈ Icc a b, ∀ y ∈ Icc a b, x ≤ y →
      rho (derivFun n) x0 k x ≤ rho (derivFun n) x0 k y + η)
    (hdec : d.decreasing = true ∨ (d.monotoneOver a b).1 = true → ∀ x ∈ Icc a b, ∀ y ∈ Icc a b, x ≤ y →
      rho (derivFun n) x0 k y ≤ rho (derivFun n) x0 k x + η)
    (hrange : (d.monotoneOver a b).1 = false → (d.monotoneOver a b).2 = false →
      ∀ r, getRange ⟨n, k⟩ a b = .ok r → ∀ x ∈ Icc a b, r.1 / k.factorial - η ≤ rho (derivFun n) x0 k x ∧
        rho (derivFun n) x0 k x ≤ r.2 / k.factorial + η) :
    BuiltinNear n k x0 a b η (V / 10 ^ 12) := by
  have hl : ((taylorCoeffs (derivFun n) k x0).take k).length = k := by simp [taylorCoeffs]
  have hr := getRange_ok hk hd a b
  unfold BuiltinNear
  rw [elementwise_cap hk hd hr, ← derivFun_zero]
  have up : (∀ x ∈ Icc a b, ∀ y ∈ Icc a b, x ≤ y → rho (derivFun n) x0 k x ≤ rho (derivFun n) x0 k y + η) →
      ∀ x, a ≤ x → x ≤ b → ∃ w, SEncl.Has (SEncl.widen ((taylorCoeffs (derivFun n) k x0).take k,
        (capRho (derivFun n) x0 k a, capRho (derivFun n) x0 k b)) η) (x - x0) w ∧ |derivFun n 0 x - w| ≤ V / 10 ^ 12 := by
    intro hm x h1 h2
    obtain ⟨r, r1, r2, r3⟩ := cap_core (ρ := rho (derivFun n) x0 k) (k := k) hx0 hη hm hV ⟨h1, h2⟩
    exact near_of_ratio r1 r2 r3
  have dn : (∀ x ∈ Icc a b, ∀ y ∈ Icc a b, x ≤ y → rho (derivFun n) x0 k y ≤ rho (derivFun n) x0 k x + η) →
      ∀ x, a ≤ x → x ≤ b → ∃ w, SEncl.Has (SEncl.widen ((taylorCoeffs (derivFun n) k x0).take k,
        (capRho (derivFun n) x0 k b, capRho (derivFun n) x0 k a)) η) (x - x0) w ∧ |derivFun n 0 x - w| ≤ V / 10 ^ 12 := by
    intro hm x h1 h2
    obtain ⟨r, r1, r2, r3⟩ := cap_core_anti (ρ := rho (derivFun n) x0 k) (k := k) hx0 hη hm hV ⟨h1, h2⟩
    exact near_of_ratio r1 r2 r3
  split_ifs with h1 h2 h3 h4
  · exact ⟨_, rfl, hl, up (hinc (Or.inl h2))⟩
  · exact ⟨_, rfl, hl, dn (hdec (Or.inl (by simp_all)))⟩
  · exact ⟨_, rfl, hl, dn (hdec (Or.inr h3))⟩
  · exact ⟨_, rfl, hl, up (hinc (Or.inr h4))⟩
  · have hR := hrange (by simpa using h3) (by simpa using h4) _ hr
    refine ⟨_, rfl, hl, fun x h1 h2 => ⟨derivFun n 0 x, has_of_rho (hR x ⟨h1, h2⟩).1 (hR x ⟨h1, h2⟩).2, ?_⟩⟩
    rw [sub_self, abs_zero]
    have := hV x0 hx0 x0 hx0
    have : 0 ≤ V := by linarith
    positivity

/-- **C59 (right tables).** For every built-in function and supported degree for which the quadratic rule is not used
and whose table is right about the trust region, on every trust region: the function is within
`1e-12 * V / k!` of the returned enclosure, where `V` bounds the variation of the `k`-th derivative over the region. -/
theorem C59_truthful {n : FName} {k : ℕ} {x0 a b V : ℝ} (hx0 : x0 ∈ Icc a b) (hdom : Icc a b ⊆ smoothDomain n)
    (h : TableTruthful n k a b)
    (hV : ∀ x ∈ Icc a b, ∀ y ∈ Icc a b, iteratedDeriv k (mathFun n) x - iteratedDeriv k (mathFun n) y ≤ V) :
    BuiltinNear n k x0 a b 0 (V / k.factorial / 10 ^ 12) := by
  have hk := truthful_supported h
  obtain ⟨d, r, h1, h2, h3, h4, h5, h6⟩ := h
  have hD : EqOn (iteratedDeriv k (mathFun n)) (derivFun n k) (Icc a b) := fun x hx =>
    ((C25_derivative_formulas (n := n) (k := k) (g := derivFun n k) (by
      simpa [FunctionId.derivativeId] using getFunction_eq.2 ⟨hk, rfl⟩)).1 x (hdom hx)).symm
  have hcx : Convex ℝ (Icc a b) := convex_Icc a b
  have hch : Chain (derivFun n) k (Icc a b) := fun i hi x hx =>
    (hasDerivAt_derivFun (supportedOrder_mono hk hi) (hdom hx)).hasDerivWithinAt
  obtain ⟨f1, f2, -⟩ := C26_flags (getFunction_eq.2 ⟨hk, rfl⟩) h1
  have hsub : Icc a b ⊆ flagDomain n := by
    cases n with
    | log => exact hdom
    | _ => exact subset_univ _
  refine near_core hk h1 hx0 h3 le_rfl (rho_var hch hx0 (fun x hx y hy => by
    rw [← hD hx, ← hD hy]; exact hV x hx y hy)) ?_ ?_ ?_
  · intro hf x hx y hy hxy
    rw [add_zero]
    refine rho_mono hcx hch ?_ hx0 hx hy hxy
    rcases hf with hf | hf
    · exact (f1 hf).mono hsub
    · exact (h5 hf).congr hD
  · intro hf x hx y hy hxy
    rw [add_zero]
    refine rho_anti hcx hch ?_ hx0 hx hy hxy
    rcases hf with hf | hf
    · exact (f2 hf).mono hsub
    · exact (h4 hf).congr hD
  · intro m1 m2 r' hr' x hx
    rw [h2] at hr'
    cases hr'
    rw [sub_zero, add_zero]
    exact ⟨le_rho hcx hch (fun y hy => by rw [← hD hy]; exact (h6 m1 m2 y hy).1) hx0 hx,
      rho_le hcx hch (fun y hy => by rw [← hD hy]; exact (h6 m1 m2 y hy).2) hx0 hx⟩

/-- Functions and degrees whose table entries are exact (log: on positive regions). -/
def ExactTable (n : FName) (k : ℕ) (a : ℝ) : Prop :=
  n = .exp ∨ (n = .log ∧ 0 < a) ∨ (n = .sigmoid ∧ k ≤ 1) ∨ (n = .softplus ∧ k ≤ 1)

theorem truthful_of_flag {n : FName} {k : ℕ} (hk : supportedOrder n k) {x y : Bool}
    (hd : getFunctionData ⟨n, k⟩ = .ok ⟨[], [], x, y, false⟩) (hxy : x = true ∨ y = true) {a b : ℝ}
    (hdom : Icc a b ⊆ smoothDomain n) : TableTruthful n k a b := by
  obtain ⟨f1, f2, -⟩ := C26_flags (getFunction_eq.2 ⟨hk, rfl⟩) hd
  have hsub : Icc a b ⊆ flagDomain n := by
    cases n with
    | log => exact hdom
    | _ => exact subset_univ _
  have hD : EqOn (derivFun n k) (iteratedDeriv k (mathFun n)) (Icc a b) := fun x hx =>
    ((C25_derivative_formulas (n := n) (k := k) (g := derivFun n k) (by
      simpa [FunctionId.derivativeId] using getFunction_eq.2 ⟨hk, rfl⟩)).1 x (hdom hx))
  refine ⟨_, _, hd, getRange_ok hk hd a b, by simp, ?_, ?_, ?_⟩
  · rw [monotoneOver_nil]; exact fun h => ((f2 h).mono hsub).congr hD
  · rw [monotoneOver_nil]; exact fun h => ((f1 h).mono hsub).congr hD
  · rw [monotoneOver_nil]
    intro h1 h2
    simp only at h1 h2
    rcases hxy with h | h <;> simp_all

theorem truthful_sigmoid1 {a b : ℝ} : TableTruthful .sigmoid 1 a b := by
  have hs : supportedOrder .sigmoid 1 := by simp [supportedOrder]
  have hd : getFunctionData ⟨.sigmoid, 1⟩ = .ok ⟨[], [0], false, false, true⟩ := rfl
  have hmo := C28_monotone_over (d := ⟨[], [0], false, false, true⟩) extrema_sigmoid1 (by simp) (by simp) a b
  have hD : EqOn (derivFun .sigmoid 1) (iteratedDeriv 1 (mathFun .sigmoid)) (Icc a b) := fun x hx =>
    ((C25_derivative_formulas (n := .sigmoid) (k := 1) (g := derivFun .sigmoid 1) (by
      simpa [FunctionId.derivativeId] using getFunction_eq.2 ⟨hs, rfl⟩)).1 x trivial)
  refine ⟨_, _, hd, getRange_ok hs hd a b, by simp, fun h => (hmo.1 h).congr hD, fun h => (hmo.2 h).congr hD, ?_⟩
  intro _ _ x hx
  rw [← hD hx]
  have he := softplus_evenHessian
  have hm : MonotoneOn (sigD 1) (Iic 0) := he.monotone2
  have hA : AntitoneOn (sigD 1) (Ici 0) := he.antitone2
  have hle0 : ∀ y, sigD 1 y ≤ sigD 1 0 := fun y => by
    rcases le_total y 0 with h | h
    · exact hm h (mem_Iic.2 le_rfl) h
    · exact hA (mem_Ici.2 le_rfl) h h
  show minimumValue (sigD 1) a b [] ≤ sigD 1 x ∧ sigD 1 x ≤ maximumValue (sigD 1) a b [0]
  constructor
  · rcases minimumValue_spec (sigD 1) a b [] with ⟨y, hy, -⟩ | ⟨-, h⟩
    · cases hy
    · rw [h]
      rcases le_total x 0 with h0 | h0
      · exact (min_le_left _ _).trans (hm (hx.1.trans h0) h0 hx.1)
      · exact (min_le_right _ _).trans (hA h0 (h0.trans hx.2) hx.2)
  · rcases maximumValue_spec (sigD 1) a b [0] with ⟨y, hy, -, -, h, -⟩ | ⟨h1, h⟩
    · rw [h, List.mem_singleton.1 hy]; exact hle0 x
    · rw [h]
      have := h1 0 (by simp)
      rcases not_and_or.1 this with h2 | h2
      · have h2 := not_le.1 h2
        exact (hA h2.le (h2.le.trans hx.1) hx.1).trans (le_max_left _ _)
      · have h2 := not_le.1 h2
        exact (hm (hx.2.trans h2.le) h2.le hx.2).trans (le_max_right _ _)

theorem truthful_exact {n : FName} {k : ℕ} {a b : ℝ} (h : ExactTable n k a) :
    TableTruthful n k a b ∧ Icc a b ⊆ smoothDomain n := by
  rcases h with rfl | ⟨rfl, hpos⟩ | ⟨rfl, hk⟩ | ⟨rfl, hk⟩
  · exact ⟨truthful_of_flag (n := .exp) (k := k) trivial rfl (Or.inr rfl) (subset_univ _), subset_univ _⟩
  · have hdom : Icc a b ⊆ smoothDomain .log := fun x hx => hpos.trans_le hx.1
    refine ⟨truthful_of_flag (n := .log) (k := k) (x := k % 2 == 1) (y := k % 2 == 0) trivial rfl ?_ hdom, hdom⟩
    rcases Nat.mod_two_eq_zero_or_one k with h | h <;> simp [h]
  · refine ⟨?_, subset_univ _⟩
    have : k = 0 ∨ k = 1 := by omega
    rcases this with rfl | rfl
    · exact truthful_of_flag (n := .sigmoid) (k := 0) (by simp [supportedOrder]) rfl (Or.inr rfl) (subset_univ _)
    · exact truthful_sigmoid1
  · refine ⟨?_, subset_univ _⟩
    have : k = 0 ∨ k = 1 := by omega
    rcases this with rfl | rfl
    · exact truthful_of_flag (n := .softplus) (k := 0) (by simp [supportedOrder]) rfl (Or.inr rfl) (subset_univ _)
    · exact truthful_of_flag (n := .softplus) (k := 1) (by simp [supportedOrder]) rfl (Or.inr rfl) (subset_univ _)

/-- **C59 (exact tables).** exp of every degree, log of every degree on positive regions, sigmoid and softplus of degree
0 and 1, on every trust region. -/
theorem C59_exact {n : FName} {k : ℕ} {x0 a b V : ℝ} (h : ExactTable n k a) (hx0 : x0 ∈ Icc a b)
    (hV : ∀ x ∈ Icc a b, ∀ y ∈ Icc a b, iteratedDeriv k (mathFun n) x - iteratedDeriv k (mathFun n) y ≤ V) :
    BuiltinNear n k x0 a b 0 (V / k.factorial / 10 ^ 12) :=
  C59_truthful hx0 (truthful_exact h).2 (truthful_exact h).1 hV

/-- **C59 (exp).** On every trust region, `exp` is within `1e-12 * (e^b - e^a) / k!` of its enclosure. -/
theorem C59_exp (k : ℕ) {x0 a b : ℝ} (hx0 : x0 ∈ Icc a b) :
    BuiltinNear .exp k x0 a b 0 ((Real.exp b - Real.exp a) / k.factorial / 10 ^ 12) := by
  refine C59_exact (Or.inl rfl) hx0 ?_
  intro x hx y hy
  have e : iteratedDeriv k (mathFun .exp) = Real.exp := by
    show iteratedDeriv k Real.exp = Real.exp
    rw [iteratedDeriv_eq_iterate, Real.iter_deriv_exp]
  rw [e]
  have h1 := Real.exp_le_exp.2 hx.2
  have h2 := Real.exp_le_exp.2 hy.1
  linarith

/-- **C59 (abs).** On every trust region, `abs` is within `2e-12` of its enclosure of degree 1. -/
theorem C59_abs {x0 a b : ℝ} (hx0 : x0 ∈ Icc a b) : BuiltinNear .abs 1 x0 a b 0 (2 / 10 ^ 12) := by
  have hs : supportedOrder .abs 1 := by simp [supportedOrder]
  have hd : getFunctionData ⟨.abs, 1⟩ = .ok ⟨[], [], false, true, false⟩ := rfl
  have hm := abs_rho_mono x0
  have hb : ∀ x, |rho (derivFun .abs) x0 1 x| ≤ 1 := by
    intro x
    by_cases hx : x = x0
    · subst hx
      rw [rho_self]
      show |sgn x / _| ≤ 1
      simp only [Nat.factorial_one, Nat.cast_one, div_one, sgn]
      split_ifs <;> simp
    · have e : rho (derivFun .abs) x0 1 x = (|x| - |x0|) / (x - x0) := by
        rw [rho, if_neg hx]; simp [derivFun]
      rw [e, abs_div, div_le_one (abs_pos.2 (sub_ne_zero.2 hx))]
      exact abs_abs_sub_abs_le_abs_sub x x0
  refine near_core hs hd hx0 (by simp) le_rfl (fun x _ y _ => ?_) ?_ ?_ ?_
  · have h1 := abs_le.1 (hb x)
    have h2 := abs_le.1 (hb y)
    linarith
  · intro _ x _ y _ hxy
    have := hm hxy
    linarith
  · rw [monotoneOver_nil]
    intro h
    simp at h
  · rw [monotoneOver_nil]
    intro _ h
    simp at h

/-- **C59 (rounded tables).** sigmoid of degree 2 and 3, softplus of degree 3 and 4, swish of degree 0, 1 and 2, on every
trust region: the final coefficient is right up to `1e-12`, and the value up to `1e-12 * V / k!`. -/
theorem C59_rounded {n : FName} {k : ℕ} (h : RoundedTable n k) {x0 a b V : ℝ} (hx0 : x0 ∈ Icc a b)
    (hV : ∀ x ∈ Icc a b, ∀ y ∈ Icc a b, iteratedDeriv k (mathFun n) x - iteratedDeriv k (mathFun n) y ≤ V) :
    BuiltinNear n k x0 a b (1 / 10 ^ 12) (V / k.factorial / 10 ^ 12) := by
  obtain ⟨mi, ma, d1, d2, h⟩ := near_table h
  obtain ⟨f', hdf, hL⟩ := h.deriv
  have hk := h.sup
  have hne := h.ne
  have hab : a ≤ b := hx0.1.trans hx0.2
  have haI : a ∈ Icc a b := left_mem_Icc.2 hab
  have hbI : b ∈ Icc a b := right_mem_Icc.2 hab
  have hcx : Convex ℝ (Icc a b) := convex_Icc a b
  have hdom : Icc a b ⊆ smoothDomain n := by rw [h.smooth]; exact subset_univ _
  have hD : EqOn (iteratedDeriv k (mathFun n)) (derivFun n k) (Icc a b) := fun x hx =>
    ((C25_derivative_formulas (n := n) (k := k) (g := derivFun n k) (by
      simpa [FunctionId.derivativeId] using getFunction_eq.2 ⟨hk, rfl⟩)).1 x (hdom hx)).symm
  have hch : Chain (derivFun n) k (Icc a b) := fun i hi x hx =>
    (hasDerivAt_derivFun (supportedOrder_mono hk hi) (hdom hx)).hasDerivWithinAt
  have hc : Continuous (derivFun n k) := continuous_iff_continuousAt.2 fun x => (hdf x).continuousAt
  set g : ℝ → ℝ := fun x => derivFun n k (shift d1 d2 x) with hgdef
  have hg : Continuous g := hc.comp (shift_continuous d1 d2)
  have hη : ∀ x ∈ Icc a b, |derivFun n k x - g x| ≤ 4 / 10 ^ 13 := fun x _ => by
    refine (near_of_deriv hdf hL _ _).trans ?_
    have := shift_near h.left h.right x
    rw [abs_sub_comm]
    linarith
  have hE := h.ext.comp h.mono
  have hmin : ∀ m ∈ mi, ∀ x, g m ≤ g x := fun m hm x => h.min m hm _
  have hmax : ∀ m ∈ ma, ∀ x, g x ≤ g m := fun m hm x => h.max m hm _
  have hfac : 2 * (4 / 10 ^ 13 : ℝ) / k.factorial ≤ 1 / 10 ^ 12 := by
    have : (1 : ℝ) ≤ k.factorial := by exact_mod_cast Nat.factorial_pos k
    rw [div_le_iff₀ (by linarith)]
    linarith
  obtain ⟨hdec, hinc⟩ := C28_monotone_over (d := ⟨mi, ma, false, false, false⟩) hE (by simp) (by simp) a b
  refine near_core hk h.data hx0 (by simp) (by norm_num) (rho_var hch hx0 (fun x hx y hy => by
    rw [← hD hx, ← hD hy]; exact hV x hx y hy)) ?_ ?_ ?_
  · intro hf x hx y hy hxy
    have := rho_nearly_mono hch hg hη (hinc (by simpa using hf)) hx0 hx hy hxy
    linarith
  · intro hf x hx y hy hxy
    have := rho_nearly_anti hch hg hη (hdec (by simpa using hf)) hx0 hx hy hxy
    linarith
  · intro _ _ r hr x hx
    rw [getRange_ok hk h.data] at hr
    cases hr
    have lo : ∀ y ∈ Icc a b, minimumValue (derivFun n k) a b mi - 2 * (4 / 10 ^ 13) ≤ derivFun n k y := by
      intro y hy
      have hy' := abs_le.1 (hη y hy)
      rcases minimumValue_spec (derivFun n k) a b mi with ⟨m, hm, m1, m2, h, -⟩ | ⟨hno, h⟩
      · have := abs_le.1 (hη m ⟨m1, m2⟩)
        have := hmin m hm y
        rw [h]
        linarith
      · rw [h]
        have hA := abs_le.1 (hη a haI)
        have hB := abs_le.1 (hη b hbI)
        rcases hE.min_at_ends hne hmax hno hy with h' | h'
        · have := min_le_left (derivFun n k a) (derivFun n k b)
          linarith
        · have := min_le_right (derivFun n k a) (derivFun n k b)
          linarith
    have hi : ∀ y ∈ Icc a b, derivFun n k y ≤ maximumValue (derivFun n k) a b ma + 2 * (4 / 10 ^ 13) := by
      intro y hy
      have hy' := abs_le.1 (hη y hy)
      rcases maximumValue_spec (derivFun n k) a b ma with ⟨m, hm, m1, m2, h, -⟩ | ⟨hno, h⟩
      · have := abs_le.1 (hη m ⟨m1, m2⟩)
        have := hmax m hm y
        rw [h]
        linarith
      · rw [h]
        have hA := abs_le.1 (hη a haI)
        have hB := abs_le.1 (hη b hbI)
        rcases hE.max_at_ends hne hmin hno hy with h' | h'
        · have := le_max_left (derivFun n k a) (derivFun n k b)
          linarith
        · have := le_max_right (derivFun n k a) (derivFun n k b)
          linarith
    have r1 := le_rho hcx hch lo hx0 hx
    have r2 := rho_le hcx hch hi hx0 hx
    rw [sub_div] at r1
    rw [add_div] at r2
    constructor <;> simp only <;> linarith

/-- the ratio near `x0` -/
theorem softplus_ratio_near (x0 e : ℝ) :
    |rho (derivFun .softplus) x0 2 e - rho (derivFun .softplus) x0 2 x0| ≤ |e - x0| / 24 := by
  by_cases he : e = x0
  · subst he; simp
  have hb : ∀ x, |derivFun .softplus 3 x| ≤ 1 / 4 := by
    intro x
    show |sigD 2 x| ≤ 1 / 4
    have h1 := sigmoid_pos x
    have h2 := sigmoid_lt_one x
    simp only [sigD, sigmoid_neg]
    rw [abs_mul]
    have h3 : |sigmoid x * (1 - sigmoid x)| ≤ 1 / 4 := by
      rw [abs_of_nonneg (mul_nonneg h1.le (by linarith))]
      nlinarith [sq_nonneg (sigmoid x - 1 / 2)]
    have h4 : |1 - 2 * sigmoid x| ≤ 1 := abs_le.2 ⟨by linarith, by linarith⟩
    calc |sigmoid x * (1 - sigmoid x)| * |1 - 2 * sigmoid x| ≤ 1 / 4 * 1 := by gcongr
      _ = 1 / 4 := mul_one _
  have hch : Chain (derivFun .softplus) 3 univ := fun i hi x _ =>
    (hasDerivAt_derivFun (n := .softplus) (by simp [supportedOrder]; omega) trivial).hasDerivWithinAt
  have r1 := rho_le convex_univ hch (fun x _ => (abs_le.1 (hb x)).2) (mem_univ x0) (mem_univ e)
  have r2 := le_rho convex_univ hch (fun x _ => (abs_le.1 (hb x)).1) (mem_univ x0) (mem_univ e)
  have hf : ((3 : ℕ).factorial : ℝ) = 6 := by norm_num [Nat.factorial]
  rw [hf] at r1 r2
  have s2 := rho_spec (derivFun .softplus) x0 2 e
  have s3 := rho_spec (derivFun .softplus) x0 3 e
  rw [Finset.sum_range_succ] at s3
  rw [rho_self]
  have hd : (e - x0) ^ 2 ≠ 0 := pow_ne_zero _ (sub_ne_zero.2 he)
  have key : rho (derivFun .softplus) x0 2 e - derivFun .softplus 2 x0 / (2 : ℕ).factorial =
      rho (derivFun .softplus) x0 3 e * (e - x0) := by
    apply mul_right_cancel₀ hd
    linear_combination s3 - s2
  rw [key, abs_mul]
  have : |rho (derivFun .softplus) x0 3 e| ≤ 1 / 24 := abs_le.2 ⟨by linarith, by linarith⟩
  calc |rho (derivFun .softplus) x0 3 e| * |e - x0| ≤ 1 / 24 * |e - x0| := by gcongr
    _ = |e - x0| / 24 := by ring

/-- **C59 (softplus of degree 2).** On every trust region, the enclosure is right once the final interval is widened
by `1e-7`. -/
theorem C59_softplus2 {x0 a b : ℝ} (hx0 : x0 ∈ Icc a b) : BuiltinApprox .softplus 2 x0 a b (1 / 10 ^ 7) := by
  have hk : supportedOrder .softplus 2 := by simp [supportedOrder]
  have hd : getFunctionData ⟨.softplus, 2⟩ = .ok ⟨[], [0], false, false, true⟩ := rfl
  have hab : a ≤ b := hx0.1.trans hx0.2
  have hE := softplus_evenHessian
  obtain ⟨u1, u2⟩ := hE.unimodal x0
  have hcap : ∀ e, |capRho (derivFun .softplus) x0 2 e - rho (derivFun .softplus) x0 2 e| ≤ 1 / 10 ^ 7 := by
    intro e
    have h0 := capTheta_nonneg x0 2 e
    have h1 := capTheta_le x0 2 e
    have e1 : capRho (derivFun .softplus) x0 2 e - rho (derivFun .softplus) x0 2 e =
        -((1 - capTheta x0 2 e) * (rho (derivFun .softplus) x0 2 e - rho (derivFun .softplus) x0 2 x0)) := by
      unfold capRho; ring
    rw [e1, abs_neg, abs_mul]
    by_cases ht : capTheta x0 2 e = 1
    · rw [ht]; norm_num
    · have hs := small_of_capTheta ht
      have hsm : |e - x0| ≤ 1 / 10 ^ 6 := by
        refine le_of_sq_le_sq ?_ (by norm_num)
        norm_num at hs ⊢
        linarith
      have h2 := softplus_ratio_near x0 e
      have h3 : |1 - capTheta x0 2 e| ≤ 1 := abs_le.2 ⟨by linarith, by linarith⟩
      calc |1 - capTheta x0 2 e| * |rho (derivFun .softplus) x0 2 e - rho (derivFun .softplus) x0 2 x0|
          ≤ 1 * ((1 / 10 ^ 6) / 24) := by
            refine mul_le_mul h3 (h2.trans ?_) (abs_nonneg _) zero_le_one
            gcongr
        _ ≤ 1 / 10 ^ 7 := by norm_num
  have key : ∀ x ∈ Icc a b, min (rho (derivFun .softplus) x0 2 a) (rho (derivFun .softplus) x0 2 b) ≤
      rho (derivFun .softplus) x0 2 x ∧
      rho (derivFun .softplus) x0 2 x ≤ rho (derivFun .softplus) x0 2 (clip (-x0) a b) := by
    intro x hx
    constructor
    · rcases le_total x (-x0) with h | h
      · exact (min_le_left _ _).trans (u1 (hx.1.trans h) h hx.1)
      · exact (min_le_right _ _).trans (u2 h (h.trans hx.2) hx.2)
    · unfold clip
      rcases le_total (-x0) a with h | h
      · rw [max_eq_right h, min_eq_left hab]
        exact u2 h (h.trans hx.1) hx.1
      · rw [max_eq_left h]
        rcases le_total (-x0) b with h' | h'
        · rw [min_eq_left h']
          rcases le_total x (-x0) with h'' | h''
          · exact u1 h'' (mem_Iic.2 le_rfl) h''
          · exact u2 (mem_Ici.2 le_rfl) h'' h''
        · rw [min_eq_right h']
          exact u1 (hx.2.trans h') h' hx.2
  unfold BuiltinApprox
  rw [elementwise_cap hk hd (getRange_ok hk hd a b), ← derivFun_zero]
  simp only [Bool.or_self, Bool.false_eq_true, if_false, and_self, if_true]
  refine ⟨((taylorCoeffs (derivFun .softplus) 2 x0).take 2, (min (capRho (derivFun .softplus) x0 2 a)
    (capRho (derivFun .softplus) x0 2 b), capRho (derivFun .softplus) x0 2 (clip (-x0) a b))), ?_,
    by simp [taylorCoeffs], fun x h1 h2 => ?_⟩
  · unfold sharpQuadratic
    rw [ratio_cap, ratio_cap, ratio_cap]
    rfl
  · obtain ⟨k1, k2⟩ := key x ⟨h1, h2⟩
    have ca := abs_le.1 (hcap a)
    have cb := abs_le.1 (hcap b)
    have cc := abs_le.1 (hcap (clip (-x0) a b))
    refine has_of_rho (l := min _ _ - 1 / 10 ^ 7) (u := _ + 1 / 10 ^ 7) ?_ (by linarith)
    rcases min_le_iff.1 k1 with h | h
    · have := min_le_left (capRho (derivFun .softplus) x0 2 a) (capRho (derivFun .softplus) x0 2 b)
      linarith
    · have := min_le_right (capRho (derivFun .softplus) x0 2 a) (capRho (derivFun .softplus) x0 2 b)
      linarith

/-- C59 on regions of width 2e-9 -/
example : BuiltinNear .sigmoid 2 0 (-(1 / 10 ^ 9)) (1 / 10 ^ 9) (1 / 10 ^ 12) (2 / (2).factorial / 10 ^ 12) ∧
    BuiltinApprox .softplus 2 0 (-(1 / 10 ^ 9)) (1 / 10 ^ 9) (1 / 10 ^ 7) := by
  refine ⟨C59_rounded (Or.inl ⟨rfl, Or.inl rfl⟩) (by norm_num) ?_, C59_softplus2 (by norm_num)⟩
  intro x _ y _
  have e : ∀ z, iteratedDeriv 2 (mathFun .sigmoid) z = sigD 2 z := fun z =>
    ((C25_derivative_formulas (n := .sigmoid) (k := 2) (g := derivFun .sigmoid 2) (by
      simpa [FunctionId.derivativeId] using getFunction_eq.2 ⟨by simp [supportedOrder], rfl⟩)).1 z trivial).symm
  have hb : ∀ z, |sigD 2 z| ≤ 1 := by
    intro z
    have h1 := sigmoid_pos z
    have h2 := sigmoid_lt_one z
    simp only [sigD, sigmoid_neg]
    rw [abs_le]
    constructor <;> nlinarith [mul_pos h1 (by linarith : 0 < 1 - sigmoid z)]
  rw [e, e]
  have := abs_le.1 (hb x)
  have := abs_le.1 (hb y)
  linarith

/-! ### `pow_enclosure` -/

/-- the interval of `pow_enclosure` before selecting a case -/
theorem powEnclosure_cap {p : Expo ℝ} {x0 a b : ℝ} {k : ℕ} (hfin : powFinite p k x0 a b)
    {rp : ℤ}
    (hrp : powKthDerivSign 1 p (k + 1) = .ok rp) :
    (∀ q, p = .frac q → powEnclosure (fun x p : ℝ => x ^ p) p x0 a b k =
      .ok ((taylorCoeffs (powD p) k x0).take k,
        if rp ≥ 0 then (capRho (powD p) x0 k a, capRho (powD p) x0 k b)
        else (capRho (powD p) x0 k b, capRho (powD p) x0 k a))) ∧
    (∀ n rn, p = .int n → powKthDerivSign (-1) p (k + 1) = .ok rn →
      ∀ ip iN : ℝ × ℝ, ip = (if rp ≥ 0 then (capRho (powD p) x0 k a, capRho (powD p) x0 k b)
        else (capRho (powD p) x0 k b, capRho (powD p) x0 k a)) →
        iN = (if rn ≥ 0 then (capRho (powD p) x0 k a, capRho (powD p) x0 k b)
        else (capRho (powD p) x0 k b, capRho (powD p) x0 k a)) →
      powEnclosure (fun x p : ℝ => x ^ p) p x0 a b k = .ok ((taylorCoeffs (powD p) k x0).take k,
        if a ≥ 0 then ip else if b ≤ 0 then iN else (min ip.1 iN.1, max ip.2 iN.2))) := by
  have hs := fun inc => sharp_cap (powD p) k x0 a b inc
  rw [powD_zero, ← powCoeffs_eq] at hs
  constructor
  · rintro q rfl
    unfold powEnclosure
    simp only [powShift_zero, hs, hrp, py_ok_bind]
    rw [if_neg (not_not.2 hfin)]
    rw [py_pure_eq]
    by_cases h : rp ≥ 0
    · simp only [if_pos h]; rfl
    · simp only [if_neg h]; rfl
  · rintro n rn rfl hrn ip iN rfl rfl
    unfold powEnclosure
    simp only [powShift_zero, hs, hrp, py_ok_bind, hrn]
    rw [if_neg (not_not.2 hfin)]
    rw [py_pure_eq]
    by_cases h : rp ≥ 0 <;> by_cases h' : rn ≥ 0 <;> by_cases h1 : a ≥ 0 <;> by_cases h2 : b ≤ 0 <;>
      simp only [h, h', h1, h2, if_true, if_false] <;> rfl

/-- on the regions of C34 the ratio is monotone, and `pow_enclosure` uses the right case -/
theorem pow_mono {p : Expo ℝ} {k : ℕ} {x0 a b : ℝ} (hx0 : x0 ∈ Icc a b) (hreg : PowRegion p k a b)
    (hfin : powFinite p k x0 a b) :
    ∃ inc : Bool, (if inc then MonotoneOn (rho (powD p) x0 k) (Icc a b) else AntitoneOn (rho (powD p) x0 k) (Icc a b)) ∧
      powEnclosure (fun x p : ℝ => x ^ p) p x0 a b k = .ok ((taylorCoeffs (powD p) k x0).take k,
        if inc then (capRho (powD p) x0 k a, capRho (powD p) x0 k b)
        else (capRho (powD p) x0 k b, capRho (powD p) x0 k a)) := by
  have hab : a ≤ b := hx0.1.trans hx0.2
  obtain ⟨rp, hrp⟩ := (C35_errors 1 p (k + 1)).2.2.1
  obtain ⟨e1, e2⟩ := powEnclosure_cap hfin hrp
  cases p with
  | frac q =>
    rw [e1 q rfl]
    have hmono : (0 ≤ rp → MonotoneOn (rho (powD (.frac q)) x0 k) (Icc a b)) ∧
        (¬ 0 ≤ rp → AntitoneOn (rho (powD (.frac q)) x0 k) (Icc a b)) := by
      rcases hreg with h | ⟨rfl, hq⟩
      · have hok : ∀ x ∈ Icc a b, powOk (.frac q) x := fun x hx => h.trans_le hx.1
        obtain ⟨m1, m2⟩ := powD_mono_pos (k := k) (convex_Icc a b) hok (fun x hx => h.le.trans hx.1) hrp
        exact ⟨fun h => rho_mono (convex_Icc a b) (powChain hok k) (m1 h) hx0,
          fun h => rho_anti (convex_Icc a b) (powChain hok k) (m2 h) hx0⟩
      · have hok : ∀ x ∈ Ioc 0 b, powOk (.frac q) x := fun x hx => hx.1
        obtain ⟨m1, m2⟩ := powD_mono_pos (k := k) (convex_Ioc 0 b) hok (fun x hx => hx.1.le) hrp
        have hx0' : 0 < x0 := hfin.1
        have hx : x0 ∈ Ioc 0 b := ⟨hx0', hx0.2⟩
        have hc : ContinuousWithinAt (powD (.frac q) 0) (Ioi 0) 0 := by
          rw [powD_zero]
          exact (Real.continuousAt_rpow_const 0 q (Or.inr hq.le)).continuousWithinAt
        obtain ⟨x1, x2⟩ := rho_extend (D := powD (.frac q)) (k := k) (b := b) hx0' hc
        exact ⟨fun h => x1 (rho_mono (convex_Ioc 0 b) (powChain hok k) (m1 h) hx),
          fun h => x2 (rho_anti (convex_Ioc 0 b) (powChain hok k) (m2 h) hx)⟩
    split_ifs with h
    · exact ⟨true, hmono.1 h, rfl⟩
    · exact ⟨false, hmono.2 h, rfl⟩
  | int n =>
    obtain ⟨rn, hrn⟩ := (C35_errors 1 (.int n) (k + 1)).2.2.2 n
    rw [e2 n rn rfl hrn _ _ rfl rfl]
    have hok : ∀ x ∈ Icc a b, powOk (.int n) x := by
      intro x hx
      rcases hreg with h | h | h
      · exact Or.inr (h.trans_le hx.1).ne'
      · exact Or.inr (hx.2.trans_lt h).ne
      · exact Or.inl h.1
    have hch := powChain hok k
    have hcx : Convex ℝ (Icc a b) := convex_Icc a b
    by_cases h1 : a ≥ 0
    · rw [if_pos h1]
      split_ifs with h2
      · exact ⟨true, rho_mono hcx hch
          ((powD_mono_pos hcx hok (fun x hx => h1.trans hx.1) hrp).1 h2) hx0, rfl⟩
      · exact ⟨false, rho_anti hcx hch
          ((powD_mono_pos hcx hok (fun x hx => h1.trans hx.1) hrp).2 h2) hx0, rfl⟩
    rw [if_neg h1]
    by_cases h3 : b ≤ 0
    · rw [if_pos h3]
      split_ifs with h4
      · exact ⟨true, rho_mono hcx hch
          ((powD_mono_neg hcx hok (fun x hx => hx.2.trans h3) hrn).1 h4) hx0, rfl⟩
      · exact ⟨false, rho_anti hcx hch
          ((powD_mono_neg hcx hok (fun x hx => hx.2.trans h3) hrn).2 h4) hx0, rfl⟩
    rw [if_neg h3]
    · -- the region contains 0 in its interior
      have hn : 0 ≤ n ∧ (n ≤ k ∨ (n - k) % 2 = 1) := by
        rcases hreg with h | h | ⟨h, h' | h' | h'⟩
        · exact absurd h.le h1
        · exact absurd h.le h3
        · exact absurd h' h1
        · exact absurd h' h3
        · exact ⟨h, h'⟩
      have hsame : (0 ≤ rp ↔ 0 ≤ rn) := by
        have s1 := powD_sign_pos (p := .int n) (k := k + 1) (x := 1) one_pos
        have s2 := powD_sign_neg (n := n) (k := k + 1) (x := -1) (by norm_num)
        rw [hrp] at s1
        rw [hrn] at s2
        have s1 := Except.ok.inj s1
        have s2 := Except.ok.inj s2
        rcases hn.2 with h | h
        · obtain ⟨m, rfl⟩ := Int.eq_ofNat_of_zero_le hn.1
          have h0 : ∀ y, powD (.int m) (k + 1) y = 0 := fun y => by
            simp only [powD, Expo.val]
            rw [fallProd_nat_zero m (k + 1) (by omega), zero_mul]
          rw [h0] at s1 s2
          rw [s1, s2]
        · have h0 : powD (.int n) (k + 1) (-1) = powD (.int n) (k + 1) 1 := by
            simp only [powD, powShift, one_zpow]
            rw [Even.neg_one_zpow (Int.even_iff.2 (by push_cast; omega))]
          rw [h0, ← s1] at s2
          rw [s2]
      have hokp : ∀ x ∈ Icc 0 b, powOk (.int n) x := fun x _ => Or.inl hn.1
      have hokn : ∀ x ∈ Icc a 0, powOk (.int n) x := fun x _ => Or.inl hn.1
      obtain ⟨p1, p2⟩ := powD_mono_pos (k := k) (convex_Icc 0 b) hokp (fun x hx => hx.1) hrp
      obtain ⟨n1, n2⟩ := powD_mono_neg (k := k) (convex_Icc a 0) hokn (fun x hx => hx.2) hrn
      have hu : Icc a b = Icc a 0 ∪ Icc 0 b :=
        (Icc_union_Icc_eq_Icc (not_le.1 h1).le (not_le.1 h3).le).symm
      by_cases h : rp ≥ 0
      · have hm : MonotoneOn (powD (.int n) k) (Icc a b) := by
          rw [hu]
          exact (n1 (hsame.1 h)).union_right (p1 h) (isGreatest_Icc (not_le.1 h1).le)
            (isLeast_Icc (not_le.1 h3).le)
        rw [if_pos h, if_pos (hsame.1 h), min_self, max_self]
        exact ⟨true, rho_mono hcx hch hm hx0, rfl⟩
      · have h' : ¬ rn ≥ 0 := fun h' => h (hsame.2 h')
        have hm : AntitoneOn (powD (.int n) k) (Icc a b) := by
          rw [hu]
          exact (n2 h').union_right (p2 h) (isGreatest_Icc (not_le.1 h1).le)
            (isLeast_Icc (not_le.1 h3).le)
        rw [if_neg h, if_neg h', min_self, max_self]
        exact ⟨false, rho_anti hcx hch hm hx0, rfl⟩


/-- **C59 (powers).** On the trust regions of C34, however small, and if moreover 0 is not the left end of the region of
a non-integer power: `x ** p` is within `1e-12 * V / k!` of the enclosure that `pow_enclosure` returns. -/
theorem C59_pow {p : Expo ℝ} {k : ℕ} {x0 a b V : ℝ} (hx0 : x0 ∈ Icc a b) (hreg : PowRegion p k a b)
    (h0 : ∀ q, p = .frac q → 0 < a) (hfin : powFinite p k x0 a b)
    (hV : ∀ x ∈ Icc a b, ∀ y ∈ Icc a b, iteratedDeriv k (powFun p) x - iteratedDeriv k (powFun p) y ≤ V) :
    ∃ s, powEnclosure (fun x p : ℝ => x ^ p) p x0 a b k = .ok s ∧ s.1.length = k ∧ s.2.1 ≤ s.2.2 ∧
      ∀ x, a ≤ x → x ≤ b → ∃ w, SEncl.Has s (x - x0) w ∧ |powFun p x - w| ≤ V / k.factorial / 10 ^ 12 := by
  have hok : ∀ x ∈ Icc a b, powOk p x := by
    intro x hx
    cases p with
    | frac q => exact (h0 q rfl).trans_le hx.1
    | int n =>
      rcases hreg with h | h | h
      · exact Or.inr (h.trans_le hx.1).ne'
      · exact Or.inr (hx.2.trans_lt h).ne
      · exact Or.inl h.1
  have hopen : IsOpen {x | powOk p x} := by
    cases p with
    | frac q => exact isOpen_Ioi
    | int n =>
      by_cases hn : 0 ≤ n
      · have : {x : ℝ | powOk (.int n) x} = univ := eq_univ_of_forall fun x => Or.inl hn
        rw [this]; exact isOpen_univ
      · have : {x : ℝ | powOk (.int n) x} = {0}ᶜ := by
          ext x
          simp [powOk, hn]
        rw [this]; exact isOpen_compl_singleton
  have hD : ∀ x ∈ Icc a b, iteratedDeriv k (powFun p) x = powD p k x := fun x hx => by
    rw [← powD_zero]
    exact iteratedDeriv_chain hopen (fun i _ y hy => hasDerivAt_powD hy i) k le_rfl x (hok x hx)
  have hab : a ≤ b := hx0.1.trans hx0.2
  have haI : a ∈ Icc a b := left_mem_Icc.2 hab
  have hbI : b ∈ Icc a b := right_mem_Icc.2 hab
  have hl : ((taylorCoeffs (powD p) k x0).take k).length = k := by simp [taylorCoeffs]
  have hv := rho_var (powChain hok k) hx0 (V := V) (fun x hx y hy => by
    rw [← hD x hx, ← hD y hy]; exact hV x hx y hy)
  have t0 := capTheta_nonneg x0 k a
  have u0 := capTheta_nonneg x0 k b
  obtain ⟨inc, hm, he⟩ := pow_mono hx0 hreg hfin
  refine ⟨_, he, hl, ?_⟩
  rw [← powD_zero]
  cases inc with
  | true =>
    simp only [if_true] at hm
    constructor
    · have h1 := mul_nonpos_of_nonneg_of_nonpos t0 (sub_nonpos.2 (hm haI hx0 hx0.1))
      have h2 := mul_nonneg u0 (sub_nonneg.2 (hm hx0 hbI hx0.2))
      simp only [if_true, capRho]
      linarith
    · intro x h1 h2
      obtain ⟨r, r1, r2, r3⟩ := cap_core (ρ := rho (powD p) x0 k) (k := k) hx0 le_rfl
        (fun x hx y hy h => by have := hm hx hy h; linarith) hv ⟨h1, h2⟩
      exact near_of_ratio (by simpa [capRho] using r1) (by simpa [capRho] using r2) r3
  | false =>
    simp only [Bool.false_eq_true, if_false] at hm
    constructor
    · have h1 := mul_nonneg t0 (sub_nonneg.2 (hm haI hx0 hx0.1))
      have h2 := mul_nonpos_of_nonneg_of_nonpos u0 (sub_nonpos.2 (hm hx0 hbI hx0.2))
      simp only [Bool.false_eq_true, if_false, capRho]
      linarith
    · intro x h1 h2
      obtain ⟨r, r1, r2, r3⟩ := cap_core_anti (ρ := rho (powD p) x0 k) (k := k) hx0 le_rfl
        (fun x hx y hy h => by have := hm hx hy h; linarith) hv ⟨h1, h2⟩
      exact near_of_ratio (by simpa [capRho] using r1) (by simpa [capRho] using r2) r3

/-- C59 for the square about 1, of degree 1, with a region that is tiny on one side -/
example : ∃ s, powEnclosure (fun x p : ℝ => x ^ p) (.int 2) 1 0 (1 + 1 / 10 ^ 13) 1 = .ok s ∧
    ∀ x, 0 ≤ x → x ≤ 1 + 1 / 10 ^ 13 → ∃ w, SEncl.Has s (x - 1) w ∧ |x ^ (2 : ℤ) - w| ≤ 4 / (1).factorial / 10 ^ 12 := by
  obtain ⟨s, h1, -, -, h2⟩ := C59_pow (p := .int 2) (k := 1) (x0 := 1) (a := 0) (b := 1 + 1 / 10 ^ 13) (V := 4)
    (by constructor <;> norm_num) (Or.inr (Or.inr ⟨by norm_num, Or.inl le_rfl⟩)) (by simp) (by simp [powFinite]) (by
      intro x hx y hy
      have e : ∀ z : ℝ, iteratedDeriv 1 (powFun (.int 2)) z = 2 * z := by
        intro z
        rw [iteratedDeriv_one]
        show deriv (fun x : ℝ => x ^ (2 : ℤ)) z = _
        rw [deriv_zpow]
        norm_num
      rw [e, e]
      have h1 := hx.2
      have h2 := hy.1
      norm_num at h1
      linarith)
  exact ⟨s, h1, h2⟩

end AB
