/-
C89: bounds of different degrees, and of array-valued inputs (/repo/autobound/jax/jax_bound.py:61-212).
-/
import Verif.Props.PolyEx

set_option linter.unusedSectionVars false

namespace AB
variable {K : Type} [Field K] [LinearOrder K] [IsStrictOrderedRing K]
namespace JB

/-- **C89.** Bounds of one program with two settings (any two degrees, `propagate_trust_regions` on or off) on the same or
two different trust regions fit together: at every `x` in both regions, the lower bound of either is at most the upper bound
of the other, and the larger of the two lower and the smaller of the two upper bounds are bounds again. -/
theorem C89_combine {lib : Lib K} {sem : Sem K} (hlib : LibSound lib sem) {jaxpr : Jaxpr K}
    {consts : List (ND K)} {d1 d2 : ℤ} {p1 p2 : Bool} {x1 x2 lo1 hi1 lo2 hi2 x y : ND K} {bnd1 bnd2 : Bounds K}
    (hlh1 : lo1.shape = hi1.shape) (h1 : (Coef.ivl lo1 hi1).Contains x1) (hx1 : (Coef.ivl lo1 hi1).Contains x)
    (hlh2 : lo2.shape = hi2.shape) (h2 : (Coef.ivl lo2 hi2).Contains x2) (hx2 : (Coef.ivl lo2 hi2).Contains x)
    (hb1 : taylorBounds lib jaxpr consts d1 p1 x1 lo1 hi1 = .ok bnd1)
    (hb2 : taylorBounds lib jaxpr consts d2 p2 x2 lo2 hi2 = .ok bnd2)
    (hfit1 : ProgramFits sem jaxpr consts x1) (hfit2 : ProgramFits sem jaxpr consts x2)
    {vals1 : Vals K} (hev1 : evalEnv sem jaxpr consts x1 = .ok vals1) (hne1 : NonEmptyVals vals1)
    {vals2 : Vals K} (hev2 : evalEnv sem jaxpr consts x2 = .ok vals2) (hne2 : NonEmptyVals vals2)
    {vals : Vals K} (hev : evalEnv sem jaxpr consts x = .ok vals) (hne : NonEmptyVals vals)
    (hy : evalJaxpr sem jaxpr consts x = .ok y) :
    ∃ l1 u1 l2 u2, bnd1.lower x = .ok l1 ∧ bnd1.upper x = .ok u1 ∧ bnd2.lower x = .ok l2 ∧ bnd2.upper x = .ok u2 ∧
      ∃ l u, ND.map2 max l1 l2 = .ok l ∧ ND.map2 min u1 u2 = .ok u ∧ l.shape = y.shape ∧ u.shape = y.shape ∧
      ∀ I, ValidIdx y.shape I → l1.get I ≤ u2.get I ∧ l2.get I ≤ u1.get I ∧ l.get I ≤ y.get I ∧ y.get I ≤ u.get I := by
  obtain ⟨-, l1, u1, a1, a2, a3, a4, a5⟩ := C42_static hlib hlh1 h1 hx1 hb1 hfit1 hev1 hne1 hev hne hy
  obtain ⟨-, l2, u2, b1, b2, b3, b4, b5⟩ := C42_static hlib hlh2 h2 hx2 hb2 hfit2 hev2 hne2 hev hne hy
  refine ⟨l1, u1, l2, u2, a1, a2, b1, b2, _, _, ND.map2_same max (a3.trans b3.symm), ND.map2_same min (a4.trans b4.symm), a3, a4,
    fun I hI => ?_⟩
  obtain ⟨c1, c2⟩ := a5 I hI
  obtain ⟨c3, c4⟩ := b5 I hI
  refine ⟨c1.trans c4, c3.trans c2, ?_, ?_⟩
  · show max (l1.bget I) (l2.bget I) ≤ _
    rw [ND.bget_valid _ (show ValidIdx l1.shape I by rw [a3]; exact hI), ND.bget_valid _ (show ValidIdx l2.shape I by rw [b3]; exact hI)]
    exact max_le c1 c3
  · show _ ≤ min (u1.bget I) (u2.bget I)
    rw [ND.bget_valid _ (show ValidIdx u1.shape I by rw [a4]; exact hI), ND.bget_valid _ (show ValidIdx u2.shape I by rw [b4]; exact hI)]
    exact le_min c2 c4

/-- `f(x) = x ** 2`. -/
def exDegSq : Jaxpr ℚ := ⟨[], [0], [.var 1], [⟨.integerPow 2, [.var 0], [1]⟩]⟩

/-- `f(x) = (x ** 2) ** 2`. -/
def exDegSqSq : Jaxpr ℚ := ⟨[], [0], [.var 2], [⟨.integerPow 2, [.var 0], [1]⟩, ⟨.integerPow 2, [.var 1], [2]⟩]⟩

/-- the end points at the first entry -/
def endsAt (p : Jaxpr ℚ) (d : ℤ) (x0 lo hi x : ND ℚ) (I : List ℕ) : Option (ℚ × ℚ) :=
  match taylorBounds polyLib p [] d false x0 lo hi with
  | .ok b => match b.lower x, b.upper x with
    | .ok l, .ok u => some (l.get I, u.get I)
    | _, _ => none
  | .error _ => none

theorem endsAt_some {p : Jaxpr ℚ} {d : ℤ} {x0 lo hi x : ND ℚ} {I : List ℕ} {a b : ℚ} (h : endsAt p d x0 lo hi x I = some (a, b)) :
    ∃ bnd l u, taylorBounds polyLib p [] d false x0 lo hi = .ok bnd ∧ bnd.lower x = .ok l ∧ bnd.upper x = .ok u ∧
      l.get I = a ∧ u.get I = b := by
  unfold endsAt at h
  split at h
  · rename_i bnd hb
    split at h
    · rename_i l u hl hu
      cases h
      exact ⟨bnd, l, u, hb, hl, hu, rfl, rfl⟩
    · cases h
  · cases h

/-- **C89 (a higher degree need not be tighter).** For `f(x) = x ** 2` on the trust region `[-1, 2]`, at `x = -1`, the lower
bound is 0 with `max_degree = 0` and -2 with `max_degree = 1`.  For `f(x) = (x ** 2) ** 2`, `x0 = 1`, the upper bound at
`x = -1` is 37 with `max_degree = 1` and 49 with `max_degree = 2`. -/
theorem C89_degree_counterexample :
    (∃ bnd0 bnd1 l0 l1, taylorBounds polyLib exDegSq [] 0 false (ND.scalar 0) (ND.scalar (-1)) (ND.scalar 2) = .ok bnd0 ∧
      taylorBounds polyLib exDegSq [] 1 false (ND.scalar 0) (ND.scalar (-1)) (ND.scalar 2) = .ok bnd1 ∧
      bnd0.lower (ND.scalar (-1)) = .ok l0 ∧ bnd1.lower (ND.scalar (-1)) = .ok l1 ∧ l0.get [] = 0 ∧ l1.get [] = -2) ∧
    ∃ bnd1 bnd2 u1 u2, taylorBounds polyLib exDegSqSq [] 1 false (ND.scalar 1) (ND.scalar (-1)) (ND.scalar 2) = .ok bnd1 ∧
      taylorBounds polyLib exDegSqSq [] 2 false (ND.scalar 1) (ND.scalar (-1)) (ND.scalar 2) = .ok bnd2 ∧
      bnd1.upper (ND.scalar (-1)) = .ok u1 ∧ bnd2.upper (ND.scalar (-1)) = .ok u2 ∧ u1.get [] = 37 ∧ u2.get [] = 49 := by
  obtain ⟨b0, l0, u0, h0, h1, -, h2, -⟩ := endsAt_some (p := exDegSq) (d := 0) (x0 := ND.scalar 0) (lo := ND.scalar (-1)) (hi := ND.scalar 2)
    (x := ND.scalar (-1)) (I := []) (a := 0) (b := 4) (by decide +kernel)
  obtain ⟨b1, l1, u1, h3, h4, -, h5, -⟩ := endsAt_some (p := exDegSq) (d := 1) (x0 := ND.scalar 0) (lo := ND.scalar (-1)) (hi := ND.scalar 2)
    (x := ND.scalar (-1)) (I := []) (a := -2) (b := 1) (by decide +kernel)
  obtain ⟨c1, m1, v1, k0, -, k1, -, k2⟩ := endsAt_some (p := exDegSqSq) (d := 1) (x0 := ND.scalar 1) (lo := ND.scalar (-1)) (hi := ND.scalar 2)
    (x := ND.scalar (-1)) (I := []) (a := -29) (b := 37) (by decide +kernel)
  obtain ⟨c2, m2, v2, k3, -, k4, -, k5⟩ := endsAt_some (p := exDegSqSq) (d := 2) (x0 := ND.scalar 1) (lo := ND.scalar (-1)) (hi := ND.scalar 2)
    (x := ND.scalar (-1)) (I := []) (a := -15) (b := 49) (by decide +kernel)
  exact ⟨⟨b0, b1, l0, l1, h0, h3, h1, h4, h2, h5⟩, c1, c2, v1, v2, k0, k3, k1, k4, k2, k5⟩

/-- **C89 (arrays).** With `max_degree = 0`, `x ** 2` on `[-1, 2]` has the bounds 0 and 4 if `x` is a scalar, and -2 and 4
if `x` is an array with one entry: for arrays `outer_power` multiplies repeatedly (interval_arithmetic.py:184-186). -/
theorem C89_array_counterexample :
    (∃ bnd l u, taylorBounds polyLib exDegSq [] 0 false (ND.scalar 0) (ND.scalar (-1)) (ND.scalar 2) = .ok bnd ∧
      bnd.lower (ND.scalar (-1)) = .ok l ∧ bnd.upper (ND.scalar (-1)) = .ok u ∧ l.get [] = 0 ∧ u.get [] = 4) ∧
    ∃ bnd l u, taylorBounds polyLib exDegSq [] 0 false (ND.mk' [1] [0]) (ND.mk' [1] [-1]) (ND.mk' [1] [2]) = .ok bnd ∧
      bnd.lower (ND.mk' [1] [-1]) = .ok l ∧ bnd.upper (ND.mk' [1] [-1]) = .ok u ∧ l.get [0] = -2 ∧ u.get [0] = 4 :=
  ⟨endsAt_some (by decide +kernel), endsAt_some (by decide +kernel)⟩

/-- the hypotheses of `C89_combine` are met: the degrees 1 and 2 for `f(x) = 2 * sum((A x + c)^2)` -/
theorem C89_example : ∃ bnd1 bnd2 : Bounds ℚ,
    taylorBounds polyLib exQuad [exA, exC] 1 true exX0 exLo' exHi' = .ok bnd1 ∧
    taylorBounds polyLib exQuad [exA, exC] 0 false exX0 exLo' exHi' = .ok bnd2 ∧
    ∀ x, (Coef.ivl exLo' exHi').Contains x → ∃ l1 u1 l2 u2 y, bnd1.lower x = .ok l1 ∧ bnd1.upper x = .ok u1 ∧
      bnd2.lower x = .ok l2 ∧ bnd2.upper x = .ok u2 ∧ evalJaxpr polySem exQuad [exA, exC] x = .ok y ∧
      l1.get [] ≤ u2.get [] ∧ l2.get [] ≤ u1.get [] ∧ ∃ l u, ND.map2 max l1 l2 = .ok l ∧ ND.map2 min u1 u2 = .ok u ∧
        l.get [] ≤ y.get [] ∧ y.get [] ≤ u.get [] := by
  obtain ⟨bnd1, hb1⟩ := ok_of_isSome
    (show (taylorBounds polyLib exQuad [exA, exC] 1 true exX0 exLo' exHi').toOption.isSome = true by decide +kernel)
  obtain ⟨bnd2, hb2⟩ := ok_of_isSome
    (show (taylorBounds polyLib exQuad [exA, exC] 0 false exX0 exLo' exHi').toOption.isSome = true by decide +kernel)
  obtain ⟨v0, y0, he0, hn0, hy0, -⟩ := exQuad_eval (x := exX0) rfl
  refine ⟨bnd1, bnd2, hb1, hb2, fun x hx => ?_⟩
  obtain ⟨v, y, he, hn, hy, hys⟩ := exQuad_eval (x := x) hx.1
  have hlh : exLo'.shape = exHi'.shape := rfl
  obtain ⟨l1, u1, l2, u2, a1, a2, a3, a4, l, u, hl, hu, hls, hus, h⟩ := C89_combine polyLib_sound hlh exX0_mem hx hlh exX0_mem hx
    hb1 hb2 exQuad_fits exQuad_fits he0 hn0 he0 hn0 he hn hy
  obtain ⟨p1, p2, p3, p4⟩ := h [] (by rw [hys]; exact .nil)
  exact ⟨l1, u1, l2, u2, y, a1, a2, a3, a4, hy, p1, p2, l, u, hl, hu, p3, p4⟩

end JB
end AB
