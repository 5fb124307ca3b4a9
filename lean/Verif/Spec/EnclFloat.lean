/-
Specification vocabulary for C75: which numbers an interval with infinite or NaN end points contains, and which values a
Taylor enclosure of such intervals contains.  A NaN end point says nothing about its side.
-/
import Verif.Model.EnclFloat
import Mathlib.Algebra.BigOperators.Group.Finset.Basic

namespace AB
variable {K : Type} [Field K] [LinearOrder K]

/-- `x` is NaN or a lower bound of `r`. -/
def Flt.LowOk : Flt K → K → Prop
  | .fin a, r => a ≤ r
  | .pinf, _ => False
  | .ninf, _ => True
  | .nan, _ => True

/-- `x` is NaN or an upper bound of `r`. -/
def Flt.HighOk : Flt K → K → Prop
  | .fin a, r => r ≤ a
  | .pinf, _ => True
  | .ninf, _ => False
  | .nan, _ => True

/-- The end point is infinite or NaN. -/
def Flt.NotFinite : Flt K → Prop
  | .fin _ => False
  | _ => True

/-- The number `r` is in the interval (is the number). -/
def FC.Has : FC K → K → Prop
  | .pt (.fin a), r => a = r
  | .pt .nan, _ => True
  | .pt _, _ => False
  | .iv lo hi, r => lo.LowOk r ∧ hi.HighOk r

/-- The enclosure `E` contains `y` at `z`: some choice of one number in each coefficient makes the polynomial equal
to `y`. -/
def EnclHas (E : List (FC K)) (z y : K) : Prop :=
  ∃ u : ℕ → K, (∀ (i : ℕ) (c : FC K), E[i]? = some c → c.Has (u i)) ∧ y = ∑ i ∈ Finset.range E.length, u i * z ^ i

/-- The enclosure generator `gen`, called for the expansion point `x0` and the region `r`, returns an enclosure of degree at
most `k` that contains `f y` at `y - y0`, for every `y` in `r` and in the domain `D` of `f` (and `y0` the number `x0`; if
`x0` is NaN, and in degree 0, any number). -/
def GenOk (gen : Flt K → Flt K × Flt K → ℕ → Py (List (FC K))) (f : K → K) (D : K → Prop) (k : ℕ) (x0 : Flt K)
    (r : Flt K × Flt K) : Prop :=
  ∀ e, gen x0 r k = .ok e → e.length ≤ k + 1 ∧ ∀ y, D y → (FC.iv r.1 r.2).Has y →
    ∀ y0, (0 < k → (FC.pt x0).Has y0) → EnclHas e (y - y0) (f y)

/-- The numbers of a rank-0 coefficient of the array model (`Model/ND.lean`), as floats. -/
def Coef.toFC : Coef K → FC K
  | .arr a => .pt (.fin (a.get []))
  | .ivl lo hi => .iv (.fin (lo.get [])) (.fin (hi.get []))

/-- Every array in the coefficient has rank 0. -/
def Coef.Rank0 : Coef K → Prop
  | .arr a => a.shape = []
  | .ivl lo hi => lo.shape = [] ∧ hi.shape = []

end AB
