/-
A concrete case of C54 and C55: a user-defined primitive `my_square` with its own enclosure generator.
-/
import Verif.Props.Register
import Verif.Props.PolyEx
import Verif.Props.RealLib

set_option linter.unusedSectionVars false

namespace AB
namespace JB
open TEA Lax PE

/-- A user-written enclosure generator for `x²`, for degree 1 only: `x² - x0² = (x + x0) (x - x0)`. -/
def squareGen : TEA.Generator ℚ :=
  liftGen (fun _ x => .ok [x ^ 2])
    (fun x0 a b d => if d = 1 then .ok ([x0 ^ 2], (a + x0, b + x0)) else .error .notImplemented)

theorem squareGen_sound : SoundGenerator (fun x : ℚ => x ^ 2) (fun _ => True) squareGen := by
  have h : ScalarSound (fun x : ℚ => x ^ 2) (fun _ x => .ok [x ^ 2])
      (fun x0 a b d => if d = 1 then .ok ([x0 ^ 2], (a + x0, b + x0)) else .error .notImplemented)
      (fun _ _ _ _ => True) := by
    intro x0 a b d s ha hb _ hs
    simp only at hs
    by_cases hd : d = 1
    · subst hd
      rw [if_pos rfl] at hs
      cases hs
      refine ⟨rfl, ?_, ?_, [x0 ^ 2], rfl, ?_⟩
      · show a + x0 ≤ b + x0
        linarith
      · intro x hx1 hx2
        refine ⟨x + x0, ?_, ?_, ?_⟩
        · show a + x0 ≤ x + x0
          linarith
        · show x + x0 ≤ b + x0
          linarith
        · simp
          ring
      · intro i hi
        obtain rfl : i = 0 := by omega
        rfl
    · rw [if_neg hd] at hs
      cases hs
  have := soundGenerator_lift h
  have e : guardGen (fun _ _ _ _ => True) squareGen = squareGen := by
    funext x0 tr d
    unfold guardGen
    rw [if_pos]
    intros
    trivial
  exact e ▸ this

/-- `f(x) = sum(my_square(A x + c))` for `x` in ℚ². -/
def exMySq : Jaxpr ℚ where
  constvars := [1, 2]
  invars := [0]
  outvars := [.var 6]
  eqns := [
    ⟨.dotGeneral [1] [0] [] [], [.var 1, .var 0], [3]⟩,
    ⟨.add, [.var 3, .var 2], [4]⟩,
    ⟨.elementwise "my_square", [.var 4], [5]⟩,
    ⟨.reduceSum [0], [.var 5], [6]⟩]

/-- the tables after registering, and the meaning of the primitive -/
def myLib : Lib ℚ := (polyLib : Lib ℚ).register "my_square" squareGen
def mySem : Sem ℚ := (polySem : Sem ℚ).define "my_square" fun x => x ^ 2

theorem myLib_sound : LibSound myLib mySem :=
  C54_register_sound polyLib_sound squareGen_sound (keepsShape_lift _ _) fun _ h => by cases h

theorem myLib_arr : LibArr myLib where
  gen n g h := by
    replace h : (if n = "my_square" then some squareGen else none) = some g := h
    split_ifs at h
    cases h
    exact arrGen_lift _ _
  pow p := by
    intro _ _ _ _ h
    cases h

theorem exMySq_eval {x : ND ℚ} (hs : x.shape = [2]) : ∃ vals y, evalEnv mySem exMySq [exA, exC] x = .ok vals ∧
    NonEmptyVals vals ∧ evalJaxpr mySem exMySq [exA, exC] x = .ok y ∧ y.shape = [] := by
  obtain ⟨s, g⟩ := x
  have hs : s = [2] := hs
  subst hs
  refine ⟨_, _, rfl, ?_, rfl, rfl⟩
  have z2 : ValidIdx [2] [0] := .cons (by norm_num) .nil
  have z22 : ValidIdx [2, 2] [0, 0] := .cons (by norm_num) z2
  intro va hva
  rcases hva with _ | ⟨_, hva⟩
  · exact ⟨[], .nil⟩
  rcases hva with _ | ⟨_, hva⟩
  · exact ⟨[0], z2⟩
  rcases hva with _ | ⟨_, hva⟩
  · exact ⟨[0], z2⟩
  rcases hva with _ | ⟨_, hva⟩
  · exact ⟨[0], z2⟩
  rcases hva with _ | ⟨_, hva⟩
  · exact ⟨[0], z2⟩
  rcases hva with _ | ⟨_, hva⟩
  · exact ⟨[0, 0], z22⟩
  rcases hva with _ | ⟨_, hva⟩
  · exact ⟨[0], z2⟩
  cases hva

theorem exMySq_fits : ProgramFits mySem exMySq [exA, exC] exX0 := by
  refine ⟨by decide, _, countsFit_trivial _, ?_⟩
  refine ⟨fun _ _ _ _ _ => Or.inl rfl, fun v1 h1 => ?_⟩
  cases h1
  refine ⟨fun _ a o ha ho => ?_, fun v2 h2 => ?_⟩
  · cases ha; cases ho
    exact ⟨Or.inr (Or.inl rfl), Or.inl rfl⟩
  cases h2
  refine ⟨fun _ a o ha ho => ?_, fun v3 h3 => ?_⟩
  · cases ha; cases ho
    trivial
  cases h3
  refine ⟨fun _ a o ha ho => ?_, fun v3 h3 => trivial⟩
  cases ha; cases ho
  trivial

/-- The program is rejected before the primitive is registered; afterwards bounds are returned, they hold for every
`x` in the region, and the remainder lies in `final_interval * (x - x0)`. -/
theorem C54_instance :
    taylorBounds polyLib exMySq [exA, exC] 1 false exX0 exLo' exHi' = .error .notImplemented ∧
    ∃ bnd a b, taylorBounds myLib exMySq [exA, exC] 1 false exX0 exLo' exHi' = .ok bnd ∧
      bnd.finalInterval = .ok (a, b) ∧ bnd.coefficients.length = 2 ∧
      ∀ x, (Coef.ivl exLo' exHi').Contains x → ∃ l u y, bnd.lower x = .ok l ∧ bnd.upper x = .ok u ∧
        evalJaxpr mySem exMySq [exA, exC] x = .ok y ∧ l.get [] ≤ y.get [] ∧ y.get [] ≤ u.get [] := by
  refine ⟨rfl, ?_⟩
  have hl : ((taylorBounds myLib exMySq [exA, exC] 1 false exX0 exLo' exHi').toOption.map
      fun b => b.coefficients.length) = some 2 := by decide +kernel
  cases hb : taylorBounds myLib exMySq [exA, exC] 1 false exX0 exLo' exHi' with
  | error e => rw [hb] at hl; cases hl
  | ok bnd =>
  rw [hb] at hl
  replace hl : bnd.coefficients.length = 2 := Option.some.inj hl
  obtain ⟨v0, y0, he0, hn0, hy0, -⟩ := exMySq_eval (x := exX0) rfl
  obtain ⟨z, n, c, a, b, -, -, -, hfin, -⟩ := C55_final_interval myLib_sound myLib_arr (lo := exLo') (hi := exHi') rfl
    exX0_mem exX0_mem hb exMySq_fits he0 hn0 he0 hn0 hy0
  refine ⟨bnd, a, b, rfl, hfin, hl, fun x hx => ?_⟩
  obtain ⟨v, y, he, hn, hy, hys⟩ := exMySq_eval (x := x) hx.1
  obtain ⟨l, u, hl, hu, -, -, h⟩ := C54_register polyLib_sound squareGen_sound (keepsShape_lift _ _)
    (fun _ h => by cases h) (lo := exLo') (hi := exHi') rfl exX0_mem hx hb exMySq_fits he0 hn0 he hn hy
  obtain ⟨h1, h2⟩ := h [] (by rw [hys]; exact .nil)
  exact ⟨l, u, y, hl, hu, hy, h1, h2⟩

/-- `f(x) = (c + sum(x)) ** 2`, with the square as an element-wise function -/
def exMisaligned : Jaxpr ℚ :=
  ⟨[1], [0], [.var 4], [⟨.reduceSum [0], [.var 0], [2]⟩, ⟨.add, [.var 1, .var 2], [3]⟩, ⟨.elementwise "my_square", [.var 3], [4]⟩]⟩

/-- **C42 (the condition on `add` is needed, II).** `f(x) = square(c + sum(x))`, `x` and `c` with 2 entries, `square` an element-wise
function with a sound rule: the degree-1 coefficient of `c + sum(x)` has the shape of `x` only, and `compose_enclosures` takes its
axis for the axis of `f`.  Nothing is raised; `f(x)_1 = 9` at `x = (1, 0)`, and the upper bound is 8. -/
theorem C42_compose_counterexample : LibSound myLib mySem ∧ ∃ bnd y l u x,
    (Coef.ivl (ND.mk' [2] [-1, -1]) (ND.mk' [2] [1, 1]) : Coef ℚ).Contains x ∧
    taylorBounds myLib exMisaligned [ND.mk' [2] [1, 2]] 1 false (ND.mk' [2] [0, 0]) (ND.mk' [2] [-1, -1]) (ND.mk' [2] [1, 1]) =
      .ok bnd ∧ evalJaxpr mySem exMisaligned [ND.mk' [2] [1, 2]] x = .ok y ∧ bnd.lower x = .ok l ∧ bnd.upper x = .ok u ∧
    l.shape = y.shape ∧ u.shape = y.shape ∧ ValidIdx y.shape [1] ∧ u.get [1] = 8 ∧ y.get [1] = 9 := by
  refine ⟨myLib_sound, ?_⟩
  have hc : (do
      let bnd ← taylorBounds myLib exMisaligned [ND.mk' [2] [1, 2]] 1 false (ND.mk' [2] [0, 0]) (ND.mk' [2] [-1, -1])
        (ND.mk' [2] [1, 1])
      let y ← evalJaxpr mySem exMisaligned [ND.mk' [2] [1, 2]] (ND.mk' [2] [1, 0])
      let l ← bnd.lower (ND.mk' [2] [1, 0])
      let u ← bnd.upper (ND.mk' [2] [1, 0])
      return decide (l.shape = y.shape ∧ u.shape = y.shape ∧ [1] ∈ idx y.shape ∧ u.get [1] = 8 ∧ y.get [1] = 9) : Py Bool) =
      .ok true := by decide +kernel
  simp only [py_bind_ok, py_pure, decide_eq_true_eq] at hc
  obtain ⟨bnd, hb, y, hy, l, hl, u, hu, h1, h2, h3, h4, h5⟩ := hc
  have hx : (Coef.ivl (ND.mk' [2] [-1, -1]) (ND.mk' [2] [1, 1]) : Coef ℚ).Contains (ND.mk' [2] [1, 0]) := by
    refine ⟨rfl, fun I hI => ?_⟩
    have : ∀ J ∈ idx [2], ((ND.mk' [2] [-1, -1] : ND ℚ).get J ≤ (ND.mk' [2] [1, 0]).get J ∧
        (ND.mk' [2] [1, 0] : ND ℚ).get J ≤ (ND.mk' [2] [1, 1]).get J) := by decide +kernel
    exact this I (mem_idx.2 hI)
  exact ⟨bnd, y, l, u, _, hx, hb, hy, hl, hu, h1, h2, mem_idx.1 h3, h4, h5⟩

end JB
end AB
