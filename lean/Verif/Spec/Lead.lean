/-
Specification for C76: what it means that two lists of coefficients agree below a degree.
-/
import Verif.Model.JaxBound

namespace AB

/-- `Lead d a' a`: two enclosures have the same number of coefficients and the same coefficients of degree
`< d` (only the coefficients from degree `d` on, in practice the final interval, may differ). -/
def Lead {F : Type} (d : ℕ) (a' a : List F) : Prop :=
  a'.length = a.length ∧ ∀ i < d, a'[i]? = a[i]?

namespace JB
variable {K : Type} [Field K] [LinearOrder K]

/-- Two enclosure generators whose coefficients of degree `< d` are those of one Taylor polynomial: they agree
for all trust regions, also when the two regions differ. -/
def LeadGen (d : ℕ) (g' g : TEA.Generator K) : Prop :=
  ∀ x0 r' r e' e, g' x0 r' d = .ok e' → g x0 r d = .ok e → Lead d e' e

/-- Two tables of enclosure generators that implement the same primitives with the same Taylor polynomials. -/
structure LeadLib (d : ℕ) (lib' lib : Lib K) : Prop where
  sem : lib'.sem = lib.sem
  expo : lib'.expo = lib.expo
  gen : ∀ name g' g, lib'.gen name = some g' → lib.gen name = some g → LeadGen d g' g
  pow : ∀ p, LeadGen d (lib'.powGen p) (lib.powGen p)

end JB
end AB
