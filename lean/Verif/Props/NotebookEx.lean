/-
Concrete cases of the hypotheses of C66, C67 and C68.
-/
import Verif.Props.Integral
import Verif.Props.SafeRate
import Verif.Props.RealLib

set_option linter.unusedSectionVars false

namespace AB
namespace NB
open JB

/-! ### bounding_integrals.ipynb: `x**4` over `[0, 1]` -/

/-- The program `lambda x: x**4`. -/
def exP4 : Jaxpr ℝ where
  constvars := []
  invars := [0]
  outvars := [.var 1]
  eqns := [⟨.integerPow 4, [.var 0], [1]⟩]

theorem exP4_computes (a b : ℝ) : Computes polySem exP4 [] (fun x => x ^ 4) a b where
  eval x _ _ := by
    refine ⟨_, _, rfl, ?_, rfl, rfl, ?_⟩
    · intro va hva
      rcases List.mem_cons.1 hva with e | hva
      · rw [e]; exact ⟨[], .nil⟩
      · rw [List.mem_singleton.1 hva]; exact ⟨[], .nil⟩
    · exact zpow_natCast x 4
  fits x _ _ := ⟨by decide, _, countsFit_trivial _, fun _ _ _ _ _ => trivial, fun _ _ => trivial⟩

theorem exP4_int (a b : ℝ) : IntervalIntegrable (fun x : ℝ => x ^ 4) MeasureTheory.volume a b :=
  (continuous_pow 4).intervalIntegrable a b

/-- C66 for `x**4` over `[0, 1]`, degree 2: the bounds enclose `∫ x^4 = 1/5`. -/
theorem C66_instance : ∃ l u, integralBoundV0 polyLib exP4 [] 0 1 2 = .ok (l, u) ∧ l ≤ 1 / 5 ∧ 1 / 5 ≤ u := by
  obtain ⟨⟨l, u⟩, h⟩ := exists_of_isOk (show isOk (integralBoundV0 polyLib exP4 [] 0 1 2) = true by
    with_unfolding_all rfl)
  have := C66_v0 polyLib_sound polyLib_arr zero_le_one (exP4_computes 0 1) (exP4_int 0 1) h
  rw [integral_pow] at this
  norm_num at this
  exact ⟨l, u, h, by norm_num; exact this.1, by norm_num; exact this.2⟩

/-- With degree 4 both bounds are `1/5`, on one region and on a grid of 3 cells. -/
theorem C66_exact_instance : integralBoundV0 polyLib exP4 [] 0 1 4 = .ok (1 / 5, 1 / 5) ∧
    integralBoundV1 polyLib exP4 [] 0 1 4 3 = .ok (1 / 5, 1 / 5) := by
  have hpoly : PolyProgram (fun v => if v = 0 then 1 else 4) (4 : ℤ).toNat exP4 := by
    refine ⟨fun v => ?_, fun v hv => ?_, fun eqn he => Or.inr ?_⟩
    · dsimp only; split_ifs <;> decide
    · obtain rfl : v = 0 := by simpa [exP4] using hv
      decide
    · obtain rfl := List.mem_singleton.1 he
      exact ⟨by decide, by show (4 : ℤ) * (1 : ℕ) ≤ (4 : ℕ); decide⟩
  have hi : ∫ x in (0 : ℝ)..1, x ^ 4 = 1 / 5 := by rw [integral_pow]; norm_num
  constructor
  · obtain ⟨⟨l, u⟩, h⟩ := exists_of_isOk (show isOk (integralBoundV0 polyLib exP4 [] 0 1 4) = true by
      with_unfolding_all rfl)
    obtain ⟨e1, e2⟩ := C66_v0_exact polyLib_sound polyLib_arr zero_le_one (exP4_computes 0 1) hpoly h
    rw [h, e1, e2, hi]
  · obtain ⟨⟨l, u⟩, h⟩ := exists_of_isOk (show isOk (integralBoundV1 polyLib exP4 [] 0 1 4 3) = true by
      with_unfolding_all rfl)
    obtain ⟨e1, e2⟩ := C66_v1_exact polyLib_sound polyLib_arr zero_le_one (exP4_computes 0 1) (exP4_int 0 1) hpoly h
    rw [h, e1, e2, hi]

/-- With degree 2 the bounds of `∫_0^1 x^4` are not exact: 5/48 and 7/24 (the same computation over ℚ). -/
example : integralBoundV0 polyLib (⟨[], [0], [.var 1], [⟨.integerPow 4, [.var 0], [1]⟩]⟩ : Jaxpr ℚ) [] 0 1 2 =
    .ok (5 / 48, 7 / 24) := by decide +kernel

/-! ### safe_learning_rates.ipynb: the loss `(x - 3)^4` -/

/-- Tracing `eta ↦ (x + eta*v - 3)**4`. -/
def exLoss : TracedLoss ℚ ℚ where
  jaxpr x v := ⟨[], [0], [.var 4], [
    ⟨.mul, [.var 0, .lit (ND.scalar v)], [1]⟩,
    ⟨.add, [.lit (ND.scalar x), .var 1], [2]⟩,
    ⟨.sub, [.var 2, .lit (ND.scalar 3)], [3]⟩,
    ⟨.integerPow 4, [.var 3], [4]⟩]⟩
  consts _ _ := []

theorem exLoss_traces (dir : ℚ → ℚ) : TracesAll polySem exLoss (fun x => (x - 3) ^ 4) dir := by
  intro x m _
  refine ⟨fun t _ _ => ⟨_, _, rfl, ?_, rfl, rfl, ?_⟩, fun t _ _ => ⟨fun v _ h => absurd h List.not_mem_nil, _,
    countsFit_trivial _, ?_⟩⟩
  · intro va hva
    have : va.2.shape = [] := by
      rcases List.mem_cons.1 hva with e | hva
      · exact congrArg (fun v => v.2.shape) e
      rcases List.mem_cons.1 hva with e | hva
      · exact congrArg (fun v => v.2.shape) e
      rcases List.mem_cons.1 hva with e | hva
      · exact congrArg (fun v => v.2.shape) e
      rcases List.mem_cons.1 hva with e | hva
      · exact congrArg (fun v => v.2.shape) e
      · exact congrArg (fun v => v.2.shape) (List.mem_singleton.1 hva)
    rw [this]
    exact ⟨[], .nil⟩
  · show (x + t * dir x - 3) ^ (4 : ℤ) = (x + t • dir x - 3) ^ 4
    rw [smul_eq_mul]
    exact zpow_natCast _ 4
  · refine ⟨fun _ _ _ _ _ => trivial, fun v1 h1 => ?_⟩
    cases h1
    refine ⟨fun _ a o ha ho => ?_, fun v2 h2 => ?_⟩
    · cases ha; cases ho
      exact ⟨Or.inr (Or.inl rfl), Or.inr (Or.inl rfl)⟩
    cases h2
    refine ⟨fun _ a o ha ho => ?_, fun v3 h3 => ?_⟩
    · cases ha; cases ho
      exact ⟨Or.inr (Or.inl rfl), Or.inr (Or.inl rfl)⟩
    cases h3
    exact ⟨fun _ _ _ _ _ => trivial, fun _ _ => trivial⟩

/-- `-grad(loss)` for `exLoss`. -/
def exDir (x : ℚ) : ℚ := -(4 * (x - 3) ^ 3)

/-- Three steps of the SafeRate optimizer on `(x - 3)^4` from `x = 1` with initial maximum learning rate `1/8`. -/
theorem C68_instance : ∃ s3, runOptimizer polyLib exLoss exDir 3 (initState 1 (1/8)) = .ok s3 ∧
    (s3.x - 3) ^ 4 ≤ (1 - 3) ^ 4 ∧ 0 < s3.maxEta := by
  obtain ⟨s, h⟩ := ok_of_isSome
    (show (runOptimizer polyLib exLoss exDir 3 (initState 1 (1/8))).toOption.isSome = true by decide +kernel)
  obtain ⟨h1, -, -⟩ := C68_optimizer (s := initState 1 (1/8)) polyLib_sound polyLib_arr (exLoss_traces exDir) (by norm_num) 0 3 rfl h
  obtain ⟨-, h2, -⟩ := C68_optimizer polyLib_sound polyLib_arr (exLoss_traces exDir) (by norm_num) 3 0 h h
  exact ⟨s, h, h1, h2⟩

/-- The first step: learning rate, new point and new maximum learning rate. -/
example : ((runOptimizer polyLib exLoss exDir 1 (initState 1 (1/8))).toOption.map fun s => (s.eta, s.x, s.maxEta)) =
    some (1 / 80, 7 / 5, 1 / 16) := by decide +kernel

/-- C67 on `x**2 - 3*x` over `[0, 1]` and `[0, 2]`: the minimum is at the boundary or inside. -/
example : minimize1dQuadratic (-3 : ℚ) 1 0 1 = 1 ∧ minimize1dQuadratic (-3 : ℚ) 1 0 2 = 3 / 2 ∧
    minimize1dQuadratic (1 : ℚ) (-1) 0 2 = 2 ∧ minimize1dQuadratic (1 : ℚ) 0 0 2 = 0 := by decide +kernel

end NB
end AB
