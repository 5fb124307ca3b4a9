/-
Specification vocabulary for C82: the calls of the enclosure generators whose error (through the cap in
`taylor_remainder_ratio` and the rounded constants in the tables) is known to be at most `ε`.
-/
import Verif.Spec.TableLib
import Verif.Spec.Approx
import Verif.Props.Cap

namespace AB
open PE EF Set

/-- `V` bounds the variation of the `k`-th derivative of `f` over `[a, b]` -/
def Variation (f : ℝ → ℝ) (k : ℕ) (a b V : ℝ) : Prop :=
  ∀ x ∈ Icc a b, ∀ y ∈ Icc a b, iteratedDeriv k f x - iteratedDeriv k f y ≤ V

/-- Calls of `get_elementwise_taylor_enclosure` whose error is at most `ε` by C59: `abs` and `softplus` (whose own rules
are used at degree 1 and 2), functions whose table is right about the region, and functions whose table lists the
extrema rounded (in this case the final interval must be non-empty). -/
def NearCall (ε : ℝ) (n : FName) (x0 a b : ℝ) (k : ℕ) : Prop :=
  1 ≤ k ∧
  ((n = .abs ∧ k = 1 ∧ 2 / 10 ^ 12 ≤ ε) ∨
   (n = .softplus ∧ k = 2 ∧ (b - a) ^ 2 / 10 ^ 7 ≤ ε) ∨
   (∃ V, Variation (mathFun n) k a b V ∧ Icc a b ⊆ smoothDomain n ∧ TableTruthful n k a b ∧
      V / k.factorial / 10 ^ 12 ≤ ε) ∨
   (∃ V, Variation (mathFun n) k a b V ∧ RoundedTable n k ∧ V / k.factorial / 10 ^ 12 + (b - a) ^ k / 10 ^ 12 ≤ ε ∧
      ∃ s, getElementwiseTaylorEnclosure ⟨n, 0⟩ x0 a b k = .ok s ∧ s.2.1 ≤ s.2.2))

/-- Calls of `pow_enclosure` whose error is at most `ε` by C59. -/
def PowNearCall (ε : ℝ) (p : Expo ℝ) (x0 a b : ℝ) (k : ℕ) : Prop :=
  1 ≤ k ∧ PowRegion p k a b ∧ (∀ q, p = .frac q → 0 < a) ∧ powFinite p k x0 a b ∧
    ∃ V, Variation (powFun p) k a b V ∧ V / k.factorial / 10 ^ 12 ≤ ε

namespace JB
open TEA

/-- The real-number tables, restricted to calls whose arguments satisfy `NearCall` / `PowNearCall`. -/
noncomputable def nearLib (ε : ℝ) : Lib ℝ where
  sem := realLib.sem
  gen name := match builtinName name with
    | some n => some (guardGen (NearCall ε n) (elementwiseGen ⟨n, 0⟩))
    | none => (rootExponent name).map fun q =>
        guardGen (PowNearCall ε (.frac q)) (powGen (fun x p : ℝ => x ^ p) (.frac q))
  powGen p := guardGen (PowNearCall ε p) (powGen (fun x p : ℝ => x ^ p) p)
  expo := realLib.expo

end JB
end AB
