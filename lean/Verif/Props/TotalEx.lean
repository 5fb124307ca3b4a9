/-
Concrete cases of the hypotheses of C53.
-/
import Verif.Props.TotalStatic
import Verif.Props.PolyEx

set_option linter.unusedSectionVars false

namespace AB
namespace JB
open TEA Lax
variable {K : Type} [Field K] [LinearOrder K] [IsStrictOrderedRing K]

theorem polyLib_full : LibFull (polyLib : Lib K) where
  gen n g h := by cases h
  pow p := by
    intro _ _ _ _ h
    cases h

theorem exQuad_wf : WellFormedProgram exQuad [exA, exC] where
  input := rfl
  output := rfl
  consts := rfl
  once := by decide
  lits := by
    intro eqn he a ha
    simp only [exQuad, List.mem_cons, List.not_mem_nil, or_false] at he
    rcases he with rfl | rfl | rfl | rfl | rfl <;>
      simp only [List.mem_cons, List.not_mem_nil, or_false, reduceCtorEq, Atom.lit.injEq, false_or] at ha
    subst ha
    exact ⟨[], .nil⟩

theorem exQuad_fits' {x : ND ℚ} (hs : x.shape = [2]) : ProgramFits polySem exQuad [exA, exC] x := by
  obtain ⟨s, g⟩ := x
  have hs : s = [2] := hs
  subst hs
  refine ⟨by decide, _, countsFit_trivial _, ?_⟩
  refine ⟨fun _ _ _ _ _ => Or.inl rfl, fun v1 h1 => ?_⟩
  cases h1
  refine ⟨fun _ a o ha ho => ?_, fun v2 h2 => ?_⟩
  · cases ha; cases ho
    exact ⟨Or.inr (Or.inl rfl), Or.inl rfl⟩
  cases h2
  refine ⟨fun _ a o ha ho => ?_, fun v3 h3 => ?_⟩
  · cases ha; cases ho
    trivial
  cases h3
  refine ⟨fun _ a o ha ho => ?_, fun v3 h3 => ?_⟩
  · cases ha; cases ho
    trivial
  cases h3
  refine ⟨fun _ a o ha ho => ?_, fun v3 h3 => trivial⟩
  cases ha; cases ho
  trivial

theorem exQuad_rets {x : ND ℚ} (hs : x.shape = [2]) {d : ℤ} (hd : d ≤ 12) (propagate : Bool) :
    ProgramReturns polyLib polySem exQuad [exA, exC] d propagate x := by
  obtain ⟨s, g⟩ := x
  have hs : s = [2] := hs
  subst hs
  refine ⟨fun a ha => ?_, fun v1 h1 => ?_⟩
  · rw [if_neg (by decide)]
    cases ha
    trivial
  cases h1
  refine ⟨fun a ha => ?_, fun v2 h2 => ?_⟩
  · rw [if_neg (by decide)]
    cases ha
    trivial
  cases h2
  refine ⟨fun a ha => ?_, fun v3 h3 => ?_⟩
  · rw [if_neg (by decide)]
    cases ha
    refine ⟨by decide, fun _ => Or.inr ?_, fun h => absurd h (by decide)⟩
    show 1 + d.toNat * 2 * 1 ≤ 26
    omega
  cases h3
  refine ⟨fun a ha => ?_, fun v3 h3 => ?_⟩
  · rw [if_neg (by decide)]
    cases ha
    trivial
  cases h3
  refine ⟨fun a ha => ?_, fun v3 h3 => trivial⟩
  rw [if_neg (by decide)]
  cases ha
  trivial

/-- `taylor_bounds(f, d, propagate)` returns for `f(x) = 2 * sum((A x + c)^2)`, for every expansion point and every
trust region that contains it, every degree `d ≤ 12`, and with or without propagated trust regions; and the
bounds hold everywhere in the trust region. -/
theorem C53_instance {x0 lo hi : ND ℚ} (hs : x0.shape = [2]) (hlh : lo.shape = hi.shape)
    (h0 : (Coef.ivl lo hi).Contains x0) {d : ℤ} (h1 : 0 ≤ d) (h2 : d ≤ 12) (propagate : Bool) :
    ∃ bnd, taylorBounds polyLib exQuad [exA, exC] d propagate x0 lo hi = .ok bnd ∧
      ∀ x, (Coef.ivl lo hi).Contains x → ∃ l u y, bnd.lower x = .ok l ∧ bnd.upper x = .ok u ∧
        evalJaxpr polySem exQuad [exA, exC] x = .ok y ∧ l.get [] ≤ y.get [] ∧ y.get [] ≤ u.get [] := by
  obtain ⟨v0, y0, he0, hn0, hy0, -⟩ := exQuad_eval hs
  obtain ⟨bnd, hb, h⟩ := C53_static polyLib_sound polyLib_arr polyLib_full h1 hlh (by rw [hs]; simp) h0 exQuad_wf (by
    intro _ eqn he
    simp only [exQuad, List.mem_cons, List.not_mem_nil, or_false] at he
    rcases he with rfl | rfl | rfl | rfl | rfl <;> decide) (exQuad_fits' hs) (exQuad_rets hs h2 propagate) he0 hn0 hy0
  refine ⟨bnd, hb, fun x hx => ?_⟩
  have hxs : x.shape = [2] := hx.1.trans (h0.1.symm.trans hs)
  obtain ⟨v, y, he, hn, hy, hys⟩ := exQuad_eval hxs
  obtain ⟨l, u, hl, hu, -, -, k⟩ := h x y v hx he hn hy
  obtain ⟨k1, k2⟩ := k [] (by rw [hys]; exact .nil)
  exact ⟨l, u, y, hl, hu, hy, k1, k2⟩

/-! ### Programs on which `taylor_bounds` raises: the conditions of C53 are needed -/

/-- **C53 (`pow` and propagated trust regions).** With propagated trust regions an equation `pow` that depends on
the input always raises `NotImplementedError`: the degree-0 computation gives the exponent as an interval. -/
theorem C53_pow_propagate {lib : Lib K} {T T0 : TEA K} {eqn : Eqn K} {a b : Inter K} {la ua lb ub : ND K}
    (hp : eqn.prim = .pow) (ha : a.tr = some (.ivl la ua)) (hb : b.tr = some (.ivl lb ub))
    (hc : [a, b].mapM Inter.constantValue = none) (ho : eqn.outvars.length = 1) {e : Encl K}
    (he : powPush lib T a b = .ok e) :
    eqnOutputs lib T T0 true eqn [a, b] = .error .notImplemented := by
  unfold eqnOutputs
  rw [hc, hp]
  simp only [pushforward, he, py_ok_bind, ho, ne_eq, not_true, if_false, if_true, outRegion, List.mapM_cons,
    List.mapM_nil, ha, hb]
  rfl

/-- `f(x) = x ** 0` for a scalar `x`. -/
def exPow : Jaxpr ℚ where
  constvars := []
  invars := [0]
  outvars := [.var 1]
  eqns := [⟨.integerPow 0, [.var 0], [1]⟩]

/-- `f(x) = x ** 0` with propagated trust regions raises `TypeError`; without, it returns. -/
theorem C53_zero_power_raises :
    taylorBounds polyLib exPow [] 2 true (ND.scalar 1) (ND.scalar 0) (ND.scalar 2) = .error .typeError ∧
    (taylorBounds polyLib exPow [] 2 false (ND.scalar 1) (ND.scalar 0) (ND.scalar 2)).toOption.isSome = true := by
  constructor
  · rfl
  · rfl

/-- `f(x) = broadcast(x, (3,))` for a scalar `x`. -/
def exBid : Jaxpr ℚ where
  constvars := []
  invars := [0]
  outvars := [.var 2]
  eqns := [⟨.mul, [.var 0, .var 0], [1]⟩, ⟨.broadcastInDim [3] [], [.var 1], [2]⟩]

/-- `f(x) = broadcast(x * x, (3,))` at degree 1 raises `AttributeError` (the coefficient of degree 1 is an interval,
which has no attribute `shape`); at degree 2 it returns. -/
theorem C53_broadcast_raises :
    taylorBounds polyLib exBid [] 1 false (ND.scalar 1) (ND.scalar 0) (ND.scalar 2) = .error .attributeError ∧
    (taylorBounds polyLib exBid [] 2 false (ND.scalar 1) (ND.scalar 0) (ND.scalar 2)).toOption.isSome = true := by
  constructor
  · rfl
  · rfl

/-- `f(x) = reshape(x, (2, 1))` for a vector `x`. -/
def exReshape : Jaxpr ℚ where
  constvars := []
  invars := [0]
  outvars := [.var 1]
  eqns := [⟨.reshape [2, 1], [.var 0], [1]⟩]

/-- `f(x) = reshape(x, (2, 1))` for `x` with two entries raises at degree 1, and returns at degree 0. -/
theorem C53_reshape_raises :
    (taylorBounds polyLib exReshape [] 1 false exX0 exLo' exHi').toOption.isSome = false ∧
    (taylorBounds polyLib exReshape [] 0 false exX0 exLo' exHi').toOption.isSome = true := by
  constructor
  · rfl
  · rfl

/-- `f(x) = (x ** 2) ** 13` for a vector `x`. -/
def exLabels : Jaxpr ℚ where
  constvars := []
  invars := [0]
  outvars := [.var 2]
  eqns := [⟨.integerPow 2, [.var 0], [1]⟩, ⟨.integerPow 13, [.var 1], [2]⟩]

/-- `f(x) = (x ** 2) ** 13` for a vector `x` at degree 2: there are not enough `einsum` labels. -/
theorem C53_labels_raises :
    (taylorBounds polyLib exLabels [] 2 false (ND.mk' [1] [1]) (ND.mk' [1] [0]) (ND.mk' [1] [2])).toOption.isSome
      = false := by
  decide +kernel

end JB
end AB
