/-
Programs without element-wise functions over ℚ: concrete cases of the hypotheses of C42–C48.
-/
import Verif.Props.Static
import Verif.Props.Form
import Mathlib.Algebra.Order.Ring.Rat
import Mathlib.Algebra.Field.Rat

set_option linter.unusedSectionVars false

namespace AB
namespace JB
open TEA Lax
variable {K : Type} [Field K] [LinearOrder K] [IsStrictOrderedRing K]

/-- No element-wise functions (and `pow` is never used). -/
def polySem : Sem K := ⟨fun _ => none, fun _ _ => 1⟩

/-- Empty tables: every enclosure-generating function raises `NotImplementedError`. -/
def polyLib : Lib K := ⟨polySem, fun _ => none, fun _ _ _ _ => .error .notImplemented, fun _ => .int 0⟩

theorem polyLib_sound : LibSound (polyLib : Lib K) polySem where
  fn n f h := by cases h
  pow := rfl
  gen n g h := by cases h
  powInt n _ := ⟨fun _ _ _ _ _ _ _ _ _ _ _ h => (by cases h), fun _ _ _ _ h => (by cases h)⟩
  expoInt p n h x := by cases h; simp [polySem]
  expoFrac p q h := by cases h

theorem polyLib_arr : LibArr (polyLib : Lib K) where
  gen n g h := by cases h
  pow p := by
    intro _ _ _ _ h
    cases h

/-- `f(x) = 2 * sum((A x + c)^2)` for `x` in ℚ², with constants `A` and `c`. -/
def exQuad : Jaxpr ℚ where
  constvars := [1, 2]
  invars := [0]
  outvars := [.var 7]
  eqns := [
    ⟨.dotGeneral [1] [0] [] [], [.var 1, .var 0], [3]⟩,
    ⟨.add, [.var 3, .var 2], [4]⟩,
    ⟨.integerPow 2, [.var 4], [5]⟩,
    ⟨.reduceSum [0], [.var 5], [6]⟩,
    ⟨.mul, [.var 6, .lit (ND.scalar 2)], [7]⟩]

def exA : ND ℚ := ND.mk' [2, 2] [1, -1, 1/2, 3]
def exC : ND ℚ := ND.mk' [2] [0, 1]
def exX0 : ND ℚ := ND.mk' [2] [1, -1/2]
def exLo' : ND ℚ := ND.mk' [2] [0, -1]
def exHi' : ND ℚ := ND.mk' [2] [2, 1/2]

theorem exQuad_fits : ProgramFits polySem exQuad [exA, exC] exX0 := by
  refine ⟨by decide, _, countsFit_trivial _, ?_⟩
  refine ⟨fun _ _ _ _ _ => Or.inl rfl, fun v1 h1 => ?_⟩
  cases h1
  refine ⟨fun _ a o ha ho => ?_, fun v2 h2 => ?_⟩
  · cases ha; cases ho
    exact ⟨Or.inr (Or.inl rfl), Or.inl rfl⟩
  cases h2
  refine ⟨fun _ a o ha ho => ?_, fun v3 h3 => ?_⟩
  · cases ha; cases ho
    trivial
  cases h3
  refine ⟨fun _ a o ha ho => ?_, fun v3 h3 => ?_⟩
  · cases ha; cases ho
    trivial
  cases h3
  refine ⟨fun _ a o ha ho => ?_, fun v3 h3 => trivial⟩
  cases ha; cases ho
  trivial


/-- arrays of the shape of the region that lie in it -/
theorem contains_ex {x : ND ℚ} (hs : x.shape = [2]) (h0 : 0 ≤ x.get [0] ∧ x.get [0] ≤ 2)
    (h1 : -1 ≤ x.get [1] ∧ x.get [1] ≤ 1/2) : (Coef.ivl exLo' exHi').Contains x := by
  refine ⟨hs, fun I hI => ?_⟩
  have hI : ValidIdx [2] I := hI
  cases hI with
  | cons hk h =>
    cases h
    rename_i k
    have : k = 0 ∨ k = 1 := by omega
    rcases this with rfl | rfl
    · exact h0
    · exact h1

theorem exX0_mem : (Coef.ivl exLo' exHi').Contains exX0 :=
  contains_ex rfl (by decide +kernel) (by decide +kernel)

/-- the evaluation at any `x` of the right shape -/
theorem exQuad_eval {x : ND ℚ} (hs : x.shape = [2]) : ∃ vals y, evalEnv polySem exQuad [exA, exC] x = .ok vals ∧
    NonEmptyVals vals ∧ evalJaxpr polySem exQuad [exA, exC] x = .ok y ∧ y.shape = [] := by
  obtain ⟨s, g⟩ := x
  have hs : s = [2] := hs
  subst hs
  refine ⟨_, _, rfl, ?_, rfl, rfl⟩
  have z2 : ValidIdx [2] [0] := .cons (by norm_num) .nil
  have z22 : ValidIdx [2, 2] [0, 0] := .cons (by norm_num) z2
  intro va hva
  rcases hva with _ | ⟨_, hva⟩
  · exact ⟨[], .nil⟩
  rcases hva with _ | ⟨_, hva⟩
  · exact ⟨[], .nil⟩
  rcases hva with _ | ⟨_, hva⟩
  · exact ⟨[0], z2⟩
  rcases hva with _ | ⟨_, hva⟩
  · exact ⟨[0], z2⟩
  rcases hva with _ | ⟨_, hva⟩
  · exact ⟨[0], z2⟩
  rcases hva with _ | ⟨_, hva⟩
  · exact ⟨[0], z2⟩
  rcases hva with _ | ⟨_, hva⟩
  · exact ⟨[0, 0], z22⟩
  rcases hva with _ | ⟨_, hva⟩
  · exact ⟨[0], z2⟩
  cases hva

theorem ok_of_isSome {α : Type} {r : Py α} (h : r.toOption.isSome = true) : ∃ a, r = .ok a := by
  cases r with
  | ok a => exact ⟨a, rfl⟩
  | error e => cases h

/-- The hypotheses of C42, C43 and C44 are met by `taylor_bounds(f, 1, propagate_trust_regions=True)` for
`f(x) = 2 * sum((A x + c)^2)`: the bounds hold for every `x` in the region and are exact at `x0`. -/
theorem exQuad_bounds : ∃ bnd, taylorBounds polyLib exQuad [exA, exC] 1 true exX0 exLo' exHi' = .ok bnd ∧
    (∀ x, (Coef.ivl exLo' exHi').Contains x → ∃ l u y, bnd.lower x = .ok l ∧ bnd.upper x = .ok u ∧
      evalJaxpr polySem exQuad [exA, exC] x = .ok y ∧ l.get [] ≤ y.get [] ∧ y.get [] ≤ u.get []) ∧
    ∃ l u y, bnd.lower exX0 = .ok l ∧ bnd.upper exX0 = .ok u ∧
      evalJaxpr polySem exQuad [exA, exC] exX0 = .ok y ∧ l.Same y ∧ u.Same y := by
  obtain ⟨bnd, hb⟩ := ok_of_isSome
    (show (taylorBounds polyLib exQuad [exA, exC] 1 true exX0 exLo' exHi').toOption.isSome = true by decide +kernel)
  obtain ⟨v0, y0, he0, hn0, hy0, -⟩ := exQuad_eval (x := exX0) rfl
  refine ⟨bnd, hb, fun x hx => ?_, ?_⟩
  · obtain ⟨v, y, he, hn, hy, hys⟩ := exQuad_eval (x := x) hx.1
    obtain ⟨-, l, u, hl, hu, -, -, h⟩ := C42_static polyLib_sound (lo := exLo') (hi := exHi') rfl exX0_mem hx hb exQuad_fits he0 hn0 he hn hy
    obtain ⟨h1, h2⟩ := h [] (by rw [hys]; exact .nil)
    exact ⟨l, u, y, hl, hu, hy, h1, h2⟩
  · obtain ⟨l, u, hl, hu, h1, h2⟩ := C44_static polyLib_sound polyLib_arr (le_refl 1) (lo := exLo') (hi := exHi') rfl exX0_mem
      hb exQuad_fits he0 hn0 hy0
    exact ⟨l, u, y0, hl, hu, hy0, h1, h2⟩

/-- At `x = (0, 1/2)` these bounds are -29 and 47/2, and `f(x) = 13`. -/
example : (do
    let b ← taylorBounds polyLib exQuad [exA, exC] 1 true exX0 exLo' exHi'
    let x : ND ℚ := ND.mk' [2] [0, 1/2]
    return [(← b.lower x).get [], (← evalJaxpr polySem exQuad [exA, exC] x).get [], (← b.upper x).get []] : Py (List ℚ))
    = .ok [-29, 13, 47/2] := by decide +kernel

/-- C47: the hypotheses are met by the same run; all variables have a propagated region. -/
example : ∃ env, taylorEnv polyLib exQuad [exA, exC] 1 true exX0 exLo' exHi' = .ok env ∧
    ∀ x, (Coef.ivl exLo' exHi').Contains x → ∀ v i, env.lookup v = some i →
      ∃ vals r a, evalEnv polySem exQuad [exA, exC] x = .ok vals ∧ i.tr = some r ∧ vals.lookup v = some a ∧
        r.Contains a := by
  obtain ⟨env, hb⟩ := ok_of_isSome
    (show (taylorEnv polyLib exQuad [exA, exC] 1 true exX0 exLo' exHi').toOption.isSome = true by decide +kernel)
  obtain ⟨v0, y0, he0, hn0, hy0, -⟩ := exQuad_eval (x := exX0) rfl
  refine ⟨env, hb, fun x hx v i hv => ?_⟩
  obtain ⟨vs, y, he, hn, hy, hys⟩ := exQuad_eval (x := x) hx.1
  obtain ⟨r, a, h1, h2, h3⟩ := C47_static polyLib_sound (le_refl 1) (lo := exLo') (hi := exHi') rfl exX0_mem hx hb
    exQuad_fits he0 hn0 he hn hv
  exact ⟨vs, r, a, he, h1, h2, h3⟩

/-- C48: `A^2` (variable 3) does not depend on `x`, and is folded. -/
def exFold : Jaxpr ℚ where
  constvars := [1]
  invars := [0]
  outvars := [.var 4]
  eqns := [⟨.integerPow 2, [.var 1], [3]⟩, ⟨.mul, [.var 0, .var 3], [4]⟩]

example : ∃ env a, taylorEnv polyLib exFold [exC] 2 false exX0 exLo' exHi' = .ok env ∧ 3 ∈ constantVars exFold ∧
    env.lookup 3 = some ⟨[.arr a], some (.ivl a a)⟩ ∧ a.shape = [2] ∧ a.get [1] = 1 := by
  obtain ⟨env, hb⟩ := ok_of_isSome
    (show (taylorEnv polyLib exFold [exC] 2 false exX0 exLo' exHi').toOption.isSome = true by decide +kernel)
  obtain ⟨a, h1, h2⟩ := C48_constant_folding (x := exX0) polyLib_sound hb (by decide) rfl
    (show (3 : ℤ) ∈ constantVars exFold by decide)
  cases h2
  exact ⟨env, _, hb, by decide, h1, rfl, by decide +kernel⟩

/-- C46: `f(x) = sort(x) * x`, where `sort` has no enclosure rule, is rejected. -/
def exSort : Jaxpr ℚ where
  constvars := []
  invars := [0]
  outvars := [.var 2]
  eqns := [⟨.other "sort" fun l => .ok l, [.var 0], [1]⟩, ⟨.mul, [.var 1, .var 0], [2]⟩]

example : taylorBounds polyLib exSort [] 2 false exX0 exLo' exHi' = .error .notImplemented := by
  obtain ⟨env, hb⟩ := ok_of_isSome
    (show (taylorEnv polyLib { exSort with eqns := [] } [] 2 false exX0 exLo' exHi').toOption.isSome = true by
      decide +kernel)
  have he := hb
  cases he
  exact C46_program (pre := []) rfl hb rfl ⟨_, List.mem_singleton.2 rfl, rfl⟩ trivial

/-! ### What goes wrong when the conditions are not met -/

/-- `bnd` was returned by `taylor_bounds` with right tables for a region that contains `x0` and `x`, and yet
entry `I` of `f(x)` is outside the bounds (or the bounds have another shape). -/
def UnsoundAt (jaxpr : Jaxpr ℚ) (consts : List (ND ℚ)) (maxDegree : ℤ) (x0 lo hi x : ND ℚ) : Prop :=
  lo.shape = hi.shape ∧ (Coef.ivl lo hi).Contains x0 ∧ (Coef.ivl lo hi).Contains x ∧
  ∃ bnd y l u, taylorBounds polyLib jaxpr consts maxDegree false x0 lo hi = .ok bnd ∧
    evalJaxpr polySem jaxpr consts x = .ok y ∧ bnd.lower x = .ok l ∧ bnd.upper x = .ok u ∧
    ¬ (l.shape = y.shape ∧ u.shape = y.shape ∧
      ∀ I, ValidIdx y.shape I → l.get I ≤ y.get I ∧ y.get I ≤ u.get I)

/-- the executable form of the last part -/
def unsoundCheck (jaxpr : Jaxpr ℚ) (consts : List (ND ℚ)) (maxDegree : ℤ) (x0 lo hi x : ND ℚ) (I : List ℕ) :
    Py Bool := do
  let bnd ← taylorBounds polyLib jaxpr consts maxDegree false x0 lo hi
  let y ← evalJaxpr polySem jaxpr consts x
  let l ← bnd.lower x
  let u ← bnd.upper x
  return decide (l.shape ≠ y.shape ∨ I ∈ idx y.shape ∧ (y.get I < l.get I ∨ u.get I < y.get I))

theorem unsound_of_check {jaxpr : Jaxpr ℚ} {consts : List (ND ℚ)} {maxDegree : ℤ} {x0 lo hi x : ND ℚ}
    {I : List ℕ} (hlh : lo.shape = hi.shape) (h0 : (Coef.ivl lo hi).Contains x0)
    (hx : (Coef.ivl lo hi).Contains x)
    (h : unsoundCheck jaxpr consts maxDegree x0 lo hi x I = .ok true) :
    UnsoundAt jaxpr consts maxDegree x0 lo hi x := by
  simp only [unsoundCheck, py_bind_ok, py_pure, decide_eq_true_eq] at h
  obtain ⟨bnd, hb, y, hy, l, hl, u, hu, h⟩ := h
  refine ⟨hlh, h0, hx, bnd, y, l, u, hb, hy, hl, hu, ?_⟩
  rintro ⟨h1, -, h2⟩
  rcases h with h | ⟨hI, h⟩
  · exact h h1
  · obtain ⟨h3, h4⟩ := h2 I (mem_idx.1 hI)
    rcases h with h | h
    · exact absurd h3 (not_le.2 h)
    · exact absurd h4 (not_le.2 h)

theorem contains_scalar {a b x : ℚ} (h1 : a ≤ x) (h2 : x ≤ b) :
    (Coef.ivl (ND.scalar a) (ND.scalar b)).Contains (ND.scalar x) := ⟨rfl, fun _ _ => ⟨h1, h2⟩⟩

/-- **C42 (the condition on `add` is needed).** `f(x) = sum(c + w * x)` for scalar `x`, where `c` has 2 entries
and `w` has 1: the coefficient of degree 1 keeps one entry, so the sum counts it once.  `f(1) = 5`, and both
bounds are 4. -/
theorem C42_add_counterexample : UnsoundAt
    ⟨[1, 2], [0], [.var 5], [⟨.mul, [.var 0, .var 1], [3]⟩, ⟨.add, [.var 3, .var 2], [4]⟩,
      ⟨.reduceSum [0], [.var 4], [5]⟩]⟩
    [ND.mk' [1] [1], ND.mk' [2] [1, 2]] 2 (ND.scalar 0) (ND.scalar (-1)) (ND.scalar 1) (ND.scalar 1) :=
  unsound_of_check (I := []) rfl (contains_scalar (by norm_num) (by norm_num))
    (contains_scalar (by norm_num) (by norm_num)) (by decide +kernel)

/-- The hypothesis of `C52_form` is met, at degree 1 and with propagated trust regions. -/
theorem C52_instance : ∃ bnd, taylorBounds polyLib exQuad [exA, exC] 1 true exX0 exLo' exHi' = .ok bnd ∧
    bnd.coefficients.length ≤ 2 ∧ ∀ c, bnd.coefficients[1]? = some c → ∃ R, c.shape = R ++ [2] := by
  obtain ⟨bnd, hb⟩ := ok_of_isSome
    (show (taylorBounds polyLib exQuad [exA, exC] 1 true exX0 exLo' exHi').toOption.isSome = true by decide +kernel)
  obtain ⟨-, -, -, -, hl, hc⟩ := C52_form hb
  exact ⟨bnd, hb, by omega, fun c h => hc 1 c h⟩

/-- **C49 (the condition on batch dimensions is needed).** `f(x)_b = (A x)_b * w_b`, written as a `dot_general`
with a batch dimension, for `x` with 2 entries and a matrix `A` that is not symmetric: the pushforward
function moves the wrong axis. -/
theorem C49_batch_counterexample : UnsoundAt
    ⟨[1, 2], [0], [.var 4], [⟨.dotGeneral [1] [0] [] [], [.var 1, .var 0], [3]⟩,
      ⟨.dotGeneral [] [] [0] [0], [.var 3, .var 2], [4]⟩]⟩
    [ND.mk' [2, 2] [0, 1, 0, 0], ND.mk' [2] [1, 1]] 2 exX0 exLo' exHi' (ND.mk' [2] [1, 1/2]) :=
  unsound_of_check (I := [0]) rfl exX0_mem (contains_ex rfl (by decide +kernel) (by decide +kernel))
    (by decide +kernel)

/-- **C50 (the condition on `reshape` is needed).** `f(x) = reshape(w * x, (2, 1))` for `x` of shape `(1,)`: the
reshaped coefficient of degree 1 passes the validation, with the wrong meaning. -/
theorem C50_reshape_counterexample : UnsoundAt
    ⟨[1], [0], [.var 3], [⟨.mul, [.var 0, .var 1], [2]⟩, ⟨.reshape [2, 1], [.var 2], [3]⟩]⟩
    [ND.mk' [2] [1, 2]] 2 (ND.mk' [1] [0]) (ND.mk' [1] [-1]) (ND.mk' [1] [1]) (ND.mk' [1] [1]) := by
  have hc : ∀ x : ℚ, -1 ≤ x → x ≤ 1 → (Coef.ivl (ND.mk' [1] [-1]) (ND.mk' [1] [1])).Contains (ND.mk' [1] [x]) := by
    intro x h1 h2
    refine ⟨rfl, fun I hI => ?_⟩
    have hI : ValidIdx [1] I := hI
    cases hI with
    | cons hk h =>
      cases h
      rename_i k
      have : k = 0 := by omega
      subst this
      exact ⟨h1, h2⟩
  exact unsound_of_check (I := [0, 0]) rfl (hc 0 (by norm_num) (by norm_num)) (hc 1 (by norm_num) (by norm_num))
    (by decide +kernel)

/-- **C50 (the condition on `jit` is needed).** A jitted function is applied to every coefficient as if it were
linear: for `f(x) = jit(square)(x)` about 0 the bounds at `x = 1/2` are both `1/2`, where `f(x) = 1/4`. -/
theorem C50_jit_counterexample : UnsoundAt
    ⟨[], [0], [.var 1], [⟨.jit fun a => .ok (a.map (· ^ 2)), [.var 0], [1]⟩]⟩
    [] 2 (ND.scalar 0) (ND.scalar (-1)) (ND.scalar 1) (ND.scalar (1/2)) :=
  unsound_of_check (I := []) rfl (contains_scalar (by norm_num) (by norm_num))
    (contains_scalar (by norm_num) (by norm_num)) (by decide +kernel)

end JB
end AB
