/-
C25, C26: the built-in functions, their derivatives and their monotonicity flags
(/repo/autobound/elementwise_functions.py:122-176, 262-356).
-/
import Verif.Proofs.Functions

namespace AB
open EF Set

/-- **C25.** `get_function(id.derivative_id(k))` is the `k`-th derivative of the mathematical function,
at every point of the open set where it is smooth; order 0 is the function itself at every real. -/
theorem C25_derivative_formulas {n : FName} {k : ℕ} {g : ℝ → ℝ}
    (h : getFunction (FunctionId.derivativeId ⟨n, 0⟩ k) = .ok g) :
    (∀ x ∈ smoothDomain n, g x = iteratedDeriv k (mathFun n) x) ∧ (k = 0 → g = mathFun n) := by
  have h : getFunction ⟨n, k⟩ = .ok g := by simpa [FunctionId.derivativeId] using h
  obtain ⟨hs, rfl⟩ := getFunction_eq.1 h
  refine ⟨fun x hx => ?_, fun h0 => by rw [h0, derivFun_zero]⟩
  rw [← derivFun_zero]
  refine (iteratedDeriv_chain (D := derivFun n) (isOpen_smoothDomain n) (n := k) (fun i hi y hy =>
    hasDerivAt_derivFun ?_ hy) k le_rfl x hx).symm
  cases n <;> simp only [supportedOrder] at hs ⊢ <;> omega

/-- **C25 (coverage).** The supported orders are exactly the documented ones, and any other order
raises `NotImplementedError`. -/
theorem C25_supported (n : FName) (k : ℕ) :
    (supportedOrder n k → ∃ g, getFunction ⟨n, k⟩ = .ok g) ∧
    (¬ supportedOrder n k → getFunction ⟨n, k⟩ = .error .notImplemented) := by
  refine ⟨fun h => ?_, fun h => ?_⟩
  · exact ⟨_, getFunction_eq.2 ⟨h, rfl⟩⟩
  · have hsig : ∀ k, ¬ k ≤ 4 → sigmoidDerivative k = .error .notImplemented := by
      intro k hk
      match k with
      | 0 | 1 | 2 | 3 | 4 => omega
      | k + 5 => rfl
    unfold getFunction
    match n, k with
    | .abs, 0 | .abs, 1 => simp [supportedOrder] at h
    | .abs, k + 2 => rfl
    | .exp, k | .log, k => simp [supportedOrder] at h
    | .sigmoid, k => exact hsig k h
    | .softplus, 0 => simp [supportedOrder] at h
    | .softplus, k + 1 =>
      simp only [softplusDerivative]
      exact hsig k (by simp [supportedOrder] at h; omega)
    | .swish, 0 => simp [supportedOrder] at h
    | .swish, k + 1 =>
      simp only [supportedOrder] at h
      simp only [swishDerivative, Nat.add_eq_zero_iff, one_ne_zero, and_false, if_false,
        Nat.add_sub_cancel, hsig (k + 1) h]
      rcases Nat.lt_or_ge 4 k with h' | h'
      · rw [hsig k (by omega)]; rfl
      · rw [sigmoidDerivative_eq.2 ⟨h', rfl⟩]; rfl
    | .other _, k => rfl

/-- C25 covers e.g. the fourth derivative of the swish function. -/
example : ∃ g, getFunction (SWISH.derivativeId 4) = .ok g ∧
    ∀ x, g x = iteratedDeriv 4 (fun x => x / (1 + Real.exp (-x))) x := by
  obtain ⟨g, hg⟩ := show ∃ g, getFunction ⟨.swish, 4⟩ = .ok g by
    exact (C25_supported .swish 4).1 (by simp [supportedOrder])
  exact ⟨g, hg, fun x => (C25_derivative_formulas (n := .swish) (k := 4) hg).1 x trivial⟩

/-- The set on which the monotonicity flags are meant: the domain of the function. -/
def flagDomain : FName → Set ℝ
  | .log => {x | 0 < x}
  | _ => univ

theorem sigmoid_strictMono : StrictMono sigmoid := by
  intro x y h
  rw [sigmoid_eq, sigmoid_eq]
  have := Real.exp_lt_exp.2 (neg_lt_neg h)
  have h1 := Real.exp_pos (-y)
  apply one_div_lt_one_div_of_lt <;> linarith

theorem softplus_strictMono : StrictMono softplus := by
  intro x y h
  rw [softplus_eq, softplus_eq]
  have := Real.exp_lt_exp.2 h
  have h1 := Real.exp_pos x
  apply Real.log_lt_log <;> linarith

theorem sgn_mono : Monotone (sgn : ℝ → ℝ) := by
  intro x y h
  unfold sgn
  split_ifs <;> first | linarith | (exfalso; linarith)

theorem zpow_neg_anti (k : ℕ) : AntitoneOn (fun x : ℝ => x ^ (-(k + 1 : ℤ))) {x | 0 < x} := by
  intro x hx y hy h
  have hx : 0 < x := hx
  simp only
  rw [zpow_neg, zpow_neg]
  have e : ∀ z : ℝ, z ^ (k + 1 : ℤ) = z ^ (k + 1) := fun z => by
    rw [← zpow_natCast]; push_cast; rfl
  rw [e, e]
  gcongr

/-- **C26.** Whenever `get_function_data` reports a monotonicity or symmetry flag for a supported
function id, the function really has the property on its domain. -/
theorem C26_flags {n : FName} {k : ℕ} {g : ℝ → ℝ} {d : FunctionData ℝ}
    (hg : getFunction ⟨n, k⟩ = .ok g) (hd : getFunctionData ⟨n, k⟩ = .ok d) :
    (d.increasing = true → MonotoneOn g (flagDomain n)) ∧
    (d.decreasing = true → AntitoneOn g (flagDomain n)) ∧
    (d.evenSymmetric = true → ∀ x, g (-x) = g x) := by
  obtain ⟨hs, rfl⟩ := getFunction_eq.1 hg
  have hsig0 : sigD 0 = sigmoid := by funext x; rfl
  have hsp : ∀ k, softplusData k = .ok d →
      (d.increasing = true → k = 0 ∨ k = 1) ∧ (d.decreasing = true → False) ∧
      (d.evenSymmetric = true → k = 2) := by
    intro k hk
    unfold softplusData at hk
    match k with
    | 0 | 1 | 2 | 3 | 4 | 5 => cases hk; simp
    | k + 6 => cases hk
  have heven : ∀ x, sigD 1 (-x) = sigD 1 x := fun x => by simp only [sigD, neg_neg]; ring
  match n, k with
  | .abs, 0 =>
    cases hd
    simp [derivFun]
  | .abs, 1 =>
    cases hd
    simp only [true_imp_iff, Bool.false_eq_true, false_imp_iff, and_true]
    exact sgn_mono.monotoneOn _
  | .abs, k + 2 => cases hd
  | .exp, k =>
    cases hd
    simp only [true_imp_iff, Bool.false_eq_true, false_imp_iff, and_true]
    exact Real.exp_monotone.monotoneOn _
  | .log, 0 =>
    cases hd
    simp only [Bool.false_eq_true, false_imp_iff, and_true]
    refine ⟨fun _ x hx y _ h => Real.log_le_log hx h, by simp⟩
  | .log, k + 1 =>
    cases hd
    simp only [Bool.false_eq_true, false_imp_iff, and_true, beq_iff_eq]
    have := zpow_neg_anti k
    have hf : (0 : ℝ) ≤ k.factorial := by positivity
    constructor
    · intro hk x hx y hy h
      have := this hx hy h
      simp only [derivFun, if_pos hk] at this ⊢
      nlinarith
    · intro hk x hx y hy h
      have := this hx hy h
      simp only [derivFun, if_neg (show ¬ (k + 1) % 2 = 0 by omega)] at this ⊢
      nlinarith
  | .sigmoid, k =>
    obtain ⟨h1, h2, h3⟩ := hsp (1 + k) hd
    refine ⟨fun h => ?_, fun h => (h2 h).elim, fun h => ?_⟩
    · obtain rfl : k = 0 := by have := h1 h; omega
      exact sigmoid_strictMono.monotone.monotoneOn _
    · obtain rfl : k = 1 := by have := h3 h; omega
      exact heven
  | .softplus, k =>
    obtain ⟨h1, h2, h3⟩ := hsp k hd
    refine ⟨fun h => ?_, fun h => (h2 h).elim, fun h => ?_⟩
    · rcases h1 h with rfl | rfl
      · exact softplus_strictMono.monotone.monotoneOn _
      · exact sigmoid_strictMono.monotone.monotoneOn _
    · obtain rfl := h3 h
      exact heven
  | .swish, k =>
    have : getFunctionData ⟨.swish, k⟩ = swishData k := rfl
    rw [this] at hd
    unfold swishData at hd
    match k with
    | 0 | 1 | 2 | 3 | 4 | 5 => cases hd; simp
    | k + 6 => cases hd
  | .other _, k => cases hd

/-- C26 applies e.g. to the third derivative of `log`, flagged as decreasing. -/
example : ∃ g d, getFunction ⟨.log, 3⟩ = .ok g ∧ getFunctionData ⟨.log, 3⟩ = .ok d ∧
    d.decreasing = true ∧ d.increasing = false ∧ AntitoneOn g {x | 0 < x} :=
  ⟨_, _, rfl, rfl, rfl, rfl, (C26_flags (n := .log) (k := 3) rfl rfl).2.1 rfl⟩

end AB
