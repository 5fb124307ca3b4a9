/-
C61: the majorization-minimization step that `taylor_bounds` (/repo/autobound/jax/jax_bound.py:61-212) is made for.
-/
import Verif.Props.RegisterEx
import Verif.Props.Gap

set_option linter.unusedSectionVars false

namespace AB
namespace JB
variable {K : Type} [Field K] [LinearOrder K] [IsStrictOrderedRing K]

/-- **C61 (one step).** Let `max_degree ≥ 1` and let `bnd` be the bounds of `f` about `x0` over the trust region
`[lo, hi]`.  For every `x` in the region and every entry `I` of the output: if `upper(x)[I] ≤ upper(x0)[I]` then
`f(x)[I] ≤ f(x0)[I]`, with `<` if `upper(x)[I] < upper(x0)[I]`; if `lower(x0)[I] ≤ lower(x)[I]` then
`f(x0)[I] ≤ f(x)[I]`, with `<` if `lower(x0)[I] < lower(x)[I]`. -/
theorem C61_step {lib : Lib K} {sem : Sem K} (hlib : LibSound lib sem) (harr : LibArr lib) {jaxpr : Jaxpr K}
    {consts : List (ND K)} {maxDegree : ℤ} (hmd : 1 ≤ maxDegree) {propagate : Bool} {x0 lo hi x y0 y : ND K}
    {bnd : Bounds K} (hlh : lo.shape = hi.shape) (h0 : (Coef.ivl lo hi).Contains x0)
    (hx : (Coef.ivl lo hi).Contains x)
    (hb : taylorBounds lib jaxpr consts maxDegree propagate x0 lo hi = .ok bnd)
    (hfit : ProgramFits sem jaxpr consts x0)
    {vals0 : Vals K} (hev0 : evalEnv sem jaxpr consts x0 = .ok vals0) (hne0 : NonEmptyVals vals0)
    {vals : Vals K} (hev : evalEnv sem jaxpr consts x = .ok vals) (hne : NonEmptyVals vals)
    (hy0 : evalJaxpr sem jaxpr consts x0 = .ok y0) (hy : evalJaxpr sem jaxpr consts x = .ok y) :
    ∃ l u l0 u0, bnd.lower x = .ok l ∧ bnd.upper x = .ok u ∧ bnd.lower x0 = .ok l0 ∧ bnd.upper x0 = .ok u0 ∧
      y.shape = y0.shape ∧ ∀ I, ValidIdx y.shape I →
        (u.get I ≤ u0.get I → y.get I ≤ y0.get I) ∧ (u.get I < u0.get I → y.get I < y0.get I) ∧
        (l0.get I ≤ l.get I → y0.get I ≤ y.get I) ∧ (l0.get I < l.get I → y0.get I < y.get I) := by
  have hok := taylorBoundsOk_of_fits (lib := lib) (maxDegree := maxDegree) hlib (by omega)
    (propagate := propagate) hlh h0 hfit hev0 hne0
  obtain ⟨l, u, hl, hu, -, -, hlu⟩ := C43_lower_upper hlib hlh h0 hx hb hok hev hne hy
  obtain ⟨l0, u0, hl0, hu0, hsl, hsu⟩ := C44_exact_at_x0 hlib harr hmd hlh h0 hb hok hev0 hne0 hy0
  obtain ⟨z, y', -, hy', -, -, -, -, -, -, hs⟩ := taylorBounds_sound hlib hlh h0 hx hb hok hev hne
  obtain ⟨z0, y0', -, hy0', -, -, -, -, -, -, hs0⟩ := taylorBounds_sound hlib hlh h0 h0 hb hok hev0 hne0
  rw [hy] at hy'; cases hy'
  rw [hy0] at hy0'; cases hy0'
  have hsh : y.shape = y0.shape := by
    cases hE : bnd.coefficients with
    | nil => exact absurd hE hs.ne
    | cons c E => exact (hs.head c (by rw [hE]; rfl)).symm.trans (hs0.head c (by rw [hE]; rfl))
  refine ⟨l, u, l0, u0, hl, hu, hl0, hu0, hsh, fun I hI => ?_⟩
  obtain ⟨h1, h2⟩ := hlu I hI
  have e1 : l0.get I = y0.get I := hsl.2 I (by rw [hsl.1, ← hsh]; exact hI)
  have e2 : u0.get I = y0.get I := hsu.2 I (by rw [hsu.1, ← hsh]; exact hI)
  rw [e1, e2]
  exact ⟨fun h => h2.trans h, fun h => h2.trans_lt h, fun h => h.trans h1, fun h => h.trans_le h1⟩

/-- One step of a majorization-minimization method from `x0` to `x`: `taylor_bounds` returns bounds about `x0` over some trust
region that contains `x0` and `x`, and `upper(x)[I] ≤ upper(x0)[I]`. -/
def DescentStep (lib : Lib K) (jaxpr : Jaxpr K) (consts : List (ND K)) (maxDegree : ℤ) (propagate : Bool)
    (I : List ℕ) (x0 x : ND K) : Prop :=
  ∃ lo hi bnd u u0, lo.shape = hi.shape ∧ (Coef.ivl lo hi).Contains x0 ∧ (Coef.ivl lo hi).Contains x ∧
    taylorBounds lib jaxpr consts maxDegree propagate x0 lo hi = .ok bnd ∧
    bnd.upper x = .ok u ∧ bnd.upper x0 = .ok u0 ∧ u.get I ≤ u0.get I

/-- **C61 (any number of steps).** However the trust regions and the next iterates are chosen: along a sequence of
descent steps, the value of `f` never increases. -/
theorem C61_iterates {lib : Lib K} {sem : Sem K} (hlib : LibSound lib sem) (harr : LibArr lib) {jaxpr : Jaxpr K}
    {consts : List (ND K)} {maxDegree : ℤ} (hmd : 1 ≤ maxDegree) {propagate : Bool} {I : List ℕ}
    (x y : ℕ → ND K) (hfit : ∀ n, ProgramFits sem jaxpr consts (x n))
    (hev : ∀ n, ∃ vals, evalEnv sem jaxpr consts (x n) = .ok vals ∧ NonEmptyVals vals)
    (hy : ∀ n, evalJaxpr sem jaxpr consts (x n) = .ok (y n)) (hI : ∀ n, ValidIdx (y n).shape I)
    (hstep : ∀ n, DescentStep lib jaxpr consts maxDegree propagate I (x n) (x (n + 1))) :
    Antitone fun n => (y n).get I := by
  refine antitone_nat_of_succ_le fun n => ?_
  obtain ⟨lo, hi, bnd, u, u0, hlh, h0, hx, hb, hu, hu0, hle⟩ := hstep n
  obtain ⟨vals0, hev0, hne0⟩ := hev n
  obtain ⟨vals, hev1, hne1⟩ := hev (n + 1)
  obtain ⟨l', u', l0', u0', -, hu', -, hu0', -, h⟩ := C61_step hlib harr hmd hlh h0 hx hb (hfit n) hev0 hne0 hev1 hne1
    (hy n) (hy (n + 1))
  rw [hu] at hu'; cases hu'
  rw [hu0] at hu0'; cases hu0'
  exact (h I (hI (n + 1))).1 hle

/-! ### A concrete case -/

/-- The program of C54/C55 about `x0`: the bounds return, and C61 and C62 apply to every `x` in the region. -/
theorem C61_instance :
    ∃ bnd, taylorBounds myLib exMySq [exA, exC] 1 false exX0 exLo' exHi' = .ok bnd ∧
      ∀ x, (Coef.ivl exLo' exHi').Contains x → ∃ l u u0 y y0, bnd.lower x = .ok l ∧ bnd.upper x = .ok u ∧
        bnd.upper exX0 = .ok u0 ∧ evalJaxpr mySem exMySq [exA, exC] x = .ok y ∧
        evalJaxpr mySem exMySq [exA, exC] exX0 = .ok y0 ∧
        (u.get [] ≤ u0.get [] → y.get [] ≤ y0.get []) := by
  cases hb : taylorBounds myLib exMySq [exA, exC] 1 false exX0 exLo' exHi' with
  | error e =>
    have hl : (taylorBounds myLib exMySq [exA, exC] 1 false exX0 exLo' exHi').toOption.isSome = true := by
      decide +kernel
    rw [hb] at hl; cases hl
  | ok bnd =>
  refine ⟨bnd, rfl, fun x hx => ?_⟩
  obtain ⟨v0, y0, he0, hn0, hy0, -⟩ := exMySq_eval (x := exX0) rfl
  obtain ⟨v, y, he, hn, hy, hys⟩ := exMySq_eval (x := x) hx.1
  obtain ⟨l, u, l0, u0, h1, h2, h3, h4, h5, h6⟩ := C61_step myLib_sound myLib_arr le_rfl (lo := exLo') (hi := exHi') rfl
    exX0_mem hx hb exMySq_fits he0 hn0 he hn hy0 hy
  exact ⟨l, u, u0, y, y0, h1, h2, h4, hy, hy0, (h6 [] (by rw [hys]; exact .nil)).1⟩

/-- a region and a point of it at which the upper bound is strictly smaller than at `x0` -/
example : ∃ lo hi x : ND ℚ, (Coef.ivl lo hi).Contains exX0 ∧ (Coef.ivl lo hi).Contains x ∧
    ((do let b ← taylorBounds myLib exMySq [exA, exC] 1 false exX0 lo hi
         let u ← b.upper x
         let u0 ← b.upper exX0
         return decide (u.get [] < u0.get [])) : Py Bool).toOption = some true :=
  ⟨ND.mk' [2] [3/4, -3/4], ND.mk' [2] [5/4, -1/4], ND.mk' [2] [3/4, -1/2], by decide +kernel, by decide +kernel,
    by decide +kernel⟩

/-- C62 on the same program: `upper(x) - lower(x)` at `x = (3/4, -1/2)`, of degree 1 -/
example : ((do let b ← taylorBounds myLib exMySq [exA, exC] 1 false exX0 (ND.mk' [2] [3/4, -3/4]) (ND.mk' [2] [5/4, -1/4])
               let f ← b.finalInterval
               let l ← b.lower (ND.mk' [2] [3/4, -1/2])
               let u ← b.upper (ND.mk' [2] [3/4, -1/2])
               return decide (0 < u.get [] - l.get [] ∧
                 u.get [] - l.get [] = (f.2.get [0] - f.1.get [0]) * |(3/4 : ℚ) - 1| +
                 (f.2.get [1] - f.1.get [1]) * |(-1/2 : ℚ) - (-1/2)|)) : Py Bool).toOption = some true := by
  decide +kernel

end JB
end AB
