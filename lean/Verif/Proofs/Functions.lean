import Verif.Spec.Functions
import Verif.Proofs.Taylor
import Verif.Proofs.Interval
import Mathlib.Analysis.SpecialFunctions.ExpDeriv
import Mathlib.Analysis.SpecialFunctions.Log.Deriv
import Mathlib.Analysis.Calculus.IteratedDeriv.Defs
import Mathlib.Analysis.Calculus.Deriv.ZPow
import Mathlib.Analysis.Calculus.Deriv.Abs

/-! Derivatives of the built-in functions. -/

namespace AB
open EF Set

theorem sigmoid_eq (x : ℝ) : sigmoid x = 1 / (1 + Real.exp (-x)) := by
  unfold sigmoid
  split_ifs with h
  · rfl
  · rw [Real.exp_neg]
    have := Real.exp_pos x
    field_simp
    ring

theorem sigmoid_neg (x : ℝ) : sigmoid (-x) = 1 - sigmoid x := by
  rw [sigmoid_eq, sigmoid_eq, neg_neg, Real.exp_neg]
  have := Real.exp_pos x
  have h2 : (1 + Real.exp x) ≠ 0 := by positivity
  have h3 : (Real.exp x + 1) ≠ 0 := by positivity
  field_simp
  ring

theorem sigmoid_pos (x : ℝ) : 0 < sigmoid x := by rw [sigmoid_eq]; positivity

theorem sigmoid_lt_one (x : ℝ) : sigmoid x < 1 := by
  have := sigmoid_pos (-x)
  rw [sigmoid_neg] at this
  linarith

theorem hasDerivAt_sigmoid (x : ℝ) : HasDerivAt sigmoid (sigmoid x * (1 - sigmoid x)) x := by
  have h : HasDerivAt (fun x => 1 / (1 + Real.exp (-x)))
      ((0 * (1 + Real.exp (-x)) - 1 * (-Real.exp (-x))) / (1 + Real.exp (-x)) ^ 2) x := by
    refine HasDerivAt.fun_div (hasDerivAt_const x 1) ?_ (by positivity)
    have := (((hasDerivAt_id x).neg).exp).const_add 1
    simpa using this
  rw [show sigmoid = fun x => 1 / (1 + Real.exp (-x)) from funext sigmoid_eq]
  refine h.congr_deriv ?_
  have : (1 + Real.exp (-x)) ≠ 0 := by positivity
  field_simp
  ring

theorem softplus_eq (x : ℝ) : softplus x = Real.log (1 + Real.exp x) := by
  unfold softplus
  rcases le_total 0 x with h | h
  · rw [abs_of_nonneg h, max_eq_left h]
    have h1 : 1 + Real.exp x = Real.exp x * (1 + Real.exp (-x)) := by
      rw [mul_add, ← Real.exp_add]; simp; ring
    rw [h1, Real.log_mul (Real.exp_pos x).ne' (by positivity), Real.log_exp]
    ring
  · rw [abs_of_nonpos h, max_eq_right h, neg_neg, add_zero]

theorem hasDerivAt_softplus (x : ℝ) : HasDerivAt softplus (sigmoid x) x := by
  rw [show softplus = fun x => Real.log (1 + Real.exp x) from funext softplus_eq]
  have h := ((Real.hasDerivAt_exp x).const_add 1).log (by positivity)
  refine h.congr_deriv ?_
  rw [sigmoid_eq, Real.exp_neg]
  have := Real.exp_pos x
  field_simp
  ring

/-- the derivatives of the sigmoid, as polynomials in the sigmoid -/
noncomputable def sigD : ℕ → ℝ → ℝ
  | 0, x => sigmoid x
  | 1, x => sigmoid x * sigmoid (-x)
  | 2, x => sigmoid x * sigmoid (-x) * (1 - 2 * sigmoid x)
  | 3, x => sigmoid x * sigmoid (-x) * ((1 - 2 * sigmoid x) ^ 2 - 2 * sigmoid x * sigmoid (-x))
  | 4, x => sigmoid x * sigmoid (-x) * (1 - 2 * sigmoid x) *
        ((1 - 2 * sigmoid x) ^ 2 - 2 * sigmoid x * sigmoid (-x)) +
      sigmoid x * sigmoid (-x) * (-4 * (1 - 2 * sigmoid x) * sigmoid x * sigmoid (-x) -
        2 * sigmoid x * sigmoid (-x) * (1 - 2 * sigmoid x))
  | _ + 5, _ => 0

theorem sigmoidDerivative_eq {k : ℕ} {g : ℝ → ℝ} : sigmoidDerivative k = .ok g ↔ k ≤ 4 ∧ g = sigD k := by
  unfold sigmoidDerivative
  match k with
  | 0 => simp [sigD, funext_iff, eq_comm]
  | 1 => simp [sigD, funext_iff, eq_comm]
  | 2 => simp [sigD, funext_iff, eq_comm]
  | 3 => simp [sigD, funext_iff, eq_comm]
  | 4 => simp [sigD, funext_iff, eq_comm]
  | k + 5 => simp

theorem hasDerivAt_sigD {k : ℕ} (hk : k < 4) (x : ℝ) : HasDerivAt (sigD k) (sigD (k + 1) x) x := by
  have hs := hasDerivAt_sigmoid x
  have e : ∀ k, sigD k = fun x => match k with
      | 0 => sigmoid x
      | 1 => sigmoid x * (1 - sigmoid x)
      | 2 => sigmoid x * (1 - sigmoid x) * (1 - 2 * sigmoid x)
      | 3 => sigmoid x * (1 - sigmoid x) * ((1 - 2 * sigmoid x) ^ 2 - 2 * sigmoid x * (1 - sigmoid x))
      | 4 => sigmoid x * (1 - sigmoid x) * (1 - 2 * sigmoid x) *
        ((1 - 2 * sigmoid x) ^ 2 - 2 * sigmoid x * (1 - sigmoid x)) +
      sigmoid x * (1 - sigmoid x) * (-4 * (1 - 2 * sigmoid x) * sigmoid x * (1 - sigmoid x) -
        2 * sigmoid x * (1 - sigmoid x) * (1 - 2 * sigmoid x))
      | _ + 5 => 0 := by
    intro k
    funext x
    match k with
    | 0 | 1 | 2 | 3 | 4 | k + 5 => simp only [sigD, sigmoid_neg]
  have h1 : HasDerivAt (fun x => sigmoid x * (1 - sigmoid x))
      (sigmoid x * (1 - sigmoid x) * (1 - 2 * sigmoid x)) x :=
    (hs.fun_mul (hs.const_sub 1)).congr_deriv (by ring)
  have h12 : HasDerivAt (fun x => 1 - 2 * sigmoid x) (-(2 * (sigmoid x * (1 - sigmoid x)))) x :=
    ((hs.const_mul 2).const_sub 1)
  match k with
  | 0 => rw [e, e]; exact hs
  | 1 => rw [e, e]; exact h1
  | 2 => rw [e, e]; exact (h1.fun_mul h12).congr_deriv (by ring)
  | 3 =>
    rw [e, e]
    have h2 : HasDerivAt (fun x => (1 - 2 * sigmoid x) ^ 2 - 2 * sigmoid x * (1 - sigmoid x))
        (2 * (1 - 2 * sigmoid x) * (-(2 * (sigmoid x * (1 - sigmoid x)))) -
          2 * (sigmoid x * (1 - sigmoid x) * (1 - 2 * sigmoid x))) x := by
      have := (h12.fun_pow 2).fun_sub (h1.const_mul 2)
      simp only [← mul_assoc] at this
      refine this.congr_deriv ?_
      push_cast
      ring
    exact (h1.fun_mul h2).congr_deriv (by ring)
  | k + 4 => omega

theorem iteratedDeriv_chain {D : ℕ → ℝ → ℝ} {s : Set ℝ} (hs : IsOpen s) {n : ℕ}
    (h : ∀ i < n, ∀ x ∈ s, HasDerivAt (D i) (D (i + 1) x) x) :
    ∀ k ≤ n, ∀ x ∈ s, iteratedDeriv k (D 0) x = D k x := by
  intro k
  induction k with
  | zero => intro _ x _; simp
  | succ k ih =>
    intro hk x hx
    rw [iteratedDeriv_succ]
    have : iteratedDeriv k (D 0) =ᶠ[nhds x] D k :=
      Filter.eventually_of_mem (hs.mem_nhds hx) fun y hy => ih (by omega) y hy
    rw [this.deriv_eq]
    exact (h k hk x hx).deriv

/-- the derivatives of the swish function -/
noncomputable def swishD (k : ℕ) (x : ℝ) : ℝ := k * sigD (k - 1) x + x * sigD k x

theorem hasDerivAt_swishD {k : ℕ} (hk : k < 4) (x : ℝ) : HasDerivAt (swishD k) (swishD (k + 1) x) x := by
  have h1 := hasDerivAt_sigD hk x
  have h2 := (hasDerivAt_id x).fun_mul h1
  rcases Nat.eq_zero_or_pos k with rfl | hk0
  · have : swishD 0 = fun x => id x * sigD 0 x := by funext x; simp [swishD]
    rw [this]
    refine h2.congr_deriv ?_
    simp [swishD]
  · have h3 := (hasDerivAt_sigD (k := k - 1) (by omega) x).const_mul (k : ℝ)
    refine (h3.fun_add h2).congr_deriv ?_
    rw [Nat.sub_add_cancel hk0]
    simp only [swishD, Nat.add_sub_cancel, id]
    push_cast
    ring

/-- all the derivatives, by name -/
noncomputable def derivFun : FName → ℕ → ℝ → ℝ
  | .abs, 0 => fun x => |x|
  | .abs, 1 => sgn
  | .abs, _ => fun _ => 0
  | .exp, _ => Real.exp
  | .log, 0 => Real.log
  | .log, k + 1 => fun x => (if (k + 1) % 2 = 0 then -1 else 1) * (k.factorial : ℝ) * x ^ (-(k + 1 : ℤ))
  | .sigmoid, k => sigD k
  | .softplus, 0 => softplus
  | .softplus, k + 1 => sigD k
  | .swish, k => swishD k
  | .other _, _ => fun _ => 0

theorem getFunction_eq {n : FName} {k : ℕ} {g : ℝ → ℝ} :
    getFunction ⟨n, k⟩ = .ok g ↔ supportedOrder n k ∧ g = derivFun n k := by
  unfold getFunction
  match n, k with
  | .abs, 0 => simp [supportedOrder, derivFun, eq_comm]
  | .abs, 1 => simp [supportedOrder, derivFun, eq_comm]
  | .abs, k + 2 => simp [supportedOrder]
  | .exp, k => simp [supportedOrder, derivFun, eq_comm]
  | .log, 0 => simp [supportedOrder, derivFun, eq_comm]
  | .log, k + 1 => simp [supportedOrder, derivFun, eq_comm]
  | .sigmoid, k => simp only [sigmoidDerivative_eq, supportedOrder, derivFun]
  | .softplus, 0 => simp [softplusDerivative, supportedOrder, derivFun, eq_comm]
  | .softplus, k + 1 =>
    simp only [softplusDerivative, supportedOrder, derivFun, Nat.add_eq_zero_iff, one_ne_zero, and_false,
      if_false, Nat.add_sub_cancel, sigmoidDerivative_eq]
    simp [Nat.lt_succ_iff]
  | .swish, 0 =>
    simp only [swishDerivative, if_true, supportedOrder, derivFun, py_pure]
    have : swish = swishD 0 := by funext x; simp [swish, swishD, sigD]
    rw [this]
    simp [eq_comm]
  | .swish, k + 1 =>
    simp only [swishDerivative, supportedOrder, derivFun, Nat.add_eq_zero_iff, one_ne_zero, and_false,
      if_false, Nat.add_sub_cancel, py_bind_ok, sigmoidDerivative_eq, py_pure]
    constructor
    · rintro ⟨s0, ⟨-, rfl⟩, s1, ⟨h, rfl⟩, rfl⟩
      exact ⟨h, by funext x; simp [swishD]⟩
    · rintro ⟨h, rfl⟩
      exact ⟨_, ⟨by omega, rfl⟩, _, ⟨h, rfl⟩, by funext x; simp [swishD]⟩
  | .other _, k => simp [supportedOrder]

theorem derivFun_zero (n : FName) : derivFun n 0 = mathFun n := by
  match n with
  | .abs | .exp | .log | .other _ => rfl
  | .sigmoid => funext x; simp [derivFun, sigD, mathFun, sigmoid_eq]
  | .softplus => funext x; simp [derivFun, mathFun, softplus_eq]
  | .swish => funext x; simp [derivFun, swishD, sigD, mathFun, sigmoid_eq, div_eq_mul_inv]

theorem isOpen_smoothDomain (n : FName) : IsOpen (smoothDomain n) := by
  match n with
  | .abs => exact isOpen_ne
  | .log => exact isOpen_lt continuous_const continuous_id
  | .exp | .sigmoid | .softplus | .swish | .other _ => exact isOpen_univ

theorem hasDerivAt_derivFun {n : FName} {k : ℕ} (hk : supportedOrder n (k + 1)) {x : ℝ}
    (hx : x ∈ smoothDomain n) : HasDerivAt (derivFun n k) (derivFun n (k + 1) x) x := by
  match n, k with
  | .abs, 0 =>
    rcases lt_or_gt_of_ne (show x ≠ 0 from hx) with h | h
    · refine (hasDerivAt_abs_neg h).congr_deriv ?_
      simp [derivFun, sgn, h, not_lt.2 h.le]
    · refine (hasDerivAt_abs_pos h).congr_deriv ?_
      simp [derivFun, sgn, h]
  | .abs, k + 1 => simp [supportedOrder] at hk
  | .exp, k => exact Real.hasDerivAt_exp x
  | .log, 0 =>
    refine (Real.hasDerivAt_log (show 0 < x from hx).ne').congr_deriv ?_
    simp [derivFun]
  | .log, k + 1 =>
    have hx : 0 < x := hx
    have := (hasDerivAt_zpow (-(k + 1 : ℤ)) x (Or.inl hx.ne')).const_mul
      ((if (k + 1) % 2 = 0 then -1 else 1) * (k.factorial : ℝ))
    refine this.congr_deriv ?_
    simp only [derivFun]
    rw [Nat.factorial_succ]
    have e : (-(((k + 1 : ℕ) : ℤ) + 1)) = -(k + 1 : ℤ) - 1 := by push_cast; ring
    rw [e]
    have : (if (k + 1 + 1) % 2 = 0 then (-1 : ℝ) else 1) = - (if (k + 1) % 2 = 0 then (-1 : ℝ) else 1) := by
      rcases Nat.mod_two_eq_zero_or_one (k + 1) with h | h
      · rw [if_pos h, if_neg (by omega)]; ring
      · rw [if_pos (show (k + 1 + 1) % 2 = 0 by omega), if_neg (show ¬ (k + 1) % 2 = 0 by omega)]
    rw [this]
    push_cast
    ring
  | .sigmoid, k => exact hasDerivAt_sigD (by simpa [supportedOrder] using hk) x
  | .softplus, 0 => exact hasDerivAt_softplus x
  | .softplus, k + 1 => exact hasDerivAt_sigD (by simp [supportedOrder] at hk; omega) x
  | .swish, k => exact hasDerivAt_swishD (by simpa [supportedOrder] using hk) x
  | .other _, k => exact absurd hk (by simp [supportedOrder])

end AB
