/-
Specification vocabulary for C45: the coefficients of a Taylor enclosure as (multi)linear forms.
-/
import Verif.Spec.Enclosure

namespace AB
variable {K : Type}

/-- The entry at index `L` (after broadcasting) of the degree-`i` coefficient of `E`; 0 if there is no
such coefficient, or if it is an interval. -/
def coefAt [Zero K] (E : Encl K) (i : ℕ) (L : List ℕ) : K :=
  match E[i]? with
  | some (.arr a) => a.bget L
  | _ => 0

/-- `<c_i, v^i>` at output index `I`: the degree-`i` coefficient of `E` contracted `i` times with `v`. -/
def coefForm [CommSemiring K] (E : Encl K) (I : List ℕ) (v : ND K) (i : ℕ) : K :=
  ((idx (List.replicate i v.shape).flatten).map fun J => coefAt E i (I ++ J) * monomialAt v i J).sum

end AB
