/-
`jax.lax.conv_general_dilated_p`: the convolution that jax_bound.py:360-393 applies.  Like `Model/Lax.lean`, this is a
specification of `jax.lax` in exact arithmetic.
-/
import Verif.Model.Lax

namespace AB
variable {K : Type}
namespace Lax

/-- The parameters of `conv_general_dilated_p` that determine its value.  `lhsSpec`, `rhsSpec`, `outSpec` are the
`ConvDimensionNumbers`: (batch axis, feature axis, spatial axes…) of the left operand and of the result, and (output
feature axis, input feature axis, spatial axes…) of the right operand. -/
structure ConvParams where
  strides : List ℕ
  padding : List (ℤ × ℤ)
  lhsDilation : List ℕ
  rhsDilation : List ℕ
  lhsSpec : List ℕ
  rhsSpec : List ℕ
  outSpec : List ℕ
  featureGroups : ℕ
  batchGroups : ℕ

/-- The sizes (or an index) of the axes `spec`, in this order. -/
def canonical (spec S : List ℕ) : List ℕ := spec.map fun d => S.getD d 0

/-- The shape (or multi-index) whose entry on the axis `spec[k]` is `L[k]`. -/
def place (spec L : List ℕ) : List ℕ := (List.range spec.length).map fun j => L.getD (spec.idxOf j) 0

/-- The windows of the spatial axes: the kernel sizes are those of the right operand. -/
def ConvParams.windows (c : ConvParams) (kernel : List ℕ) : List WinAxis :=
  (List.range kernel.length).map fun k =>
    ⟨kernel.getD k 0, c.strides.getD k 1, (c.padding.getD k (0, 0)).1, (c.padding.getD k (0, 0)).2,
      c.lhsDilation.getD k 1, c.rhsDilation.getD k 1⟩

/-- What the shape rule of `conv_general_dilated_p` requires of operands of shapes `Sa` and `Sb`. -/
def ConvOk (c : ConvParams) (Sa Sb : List ℕ) : Prop :=
  Sb.length = Sa.length ∧ 2 ≤ Sa.length ∧
  (c.lhsSpec.length = Sa.length ∧ AxesOk Sa.length c.lhsSpec) ∧
  (c.rhsSpec.length = Sa.length ∧ AxesOk Sa.length c.rhsSpec) ∧
  (c.outSpec.length = Sa.length ∧ AxesOk Sa.length c.outSpec) ∧
  (c.strides.length + 2 = Sa.length ∧ ∀ s ∈ c.strides, 0 < s) ∧ c.padding.length + 2 = Sa.length ∧
  (c.lhsDilation.length + 2 = Sa.length ∧ ∀ s ∈ c.lhsDilation, 0 < s) ∧
  (c.rhsDilation.length + 2 = Sa.length ∧ ∀ s ∈ c.rhsDilation, 0 < s) ∧
  0 < c.featureGroups ∧ 0 < c.batchGroups ∧ (c.featureGroups = 1 ∨ c.batchGroups = 1) ∧
  (canonical c.lhsSpec Sa).getD 1 0 = c.featureGroups * (canonical c.rhsSpec Sb).getD 1 0 ∧
  (canonical c.rhsSpec Sb).getD 0 0 % c.featureGroups = 0 ∧
  (canonical c.rhsSpec Sb).getD 0 0 % c.batchGroups = 0 ∧
  (canonical c.lhsSpec Sa).getD 0 0 % c.batchGroups = 0

instance (c : ConvParams) (Sa Sb : List ℕ) : Decidable (ConvOk c Sa Sb) := by unfold ConvOk; infer_instance

/-- The shape of the result. -/
def convShape (c : ConvParams) (Sa Sb : List ℕ) : List ℕ :=
  let A := canonical c.lhsSpec Sa
  let B := canonical c.rhsSpec Sb
  place c.outSpec (A.getD 0 0 / c.batchGroups :: B.getD 0 0 ::
    List.zipWith WinAxis.outSize (c.windows (B.drop 2)) (A.drop 2))

/-- The entries of the two operands that are multiplied for the output index `L`, input feature and kernel position
`J`; `none` if the window lies on padding or on a hole of the dilated operand. -/
def convPair (c : ConvParams) (Sa Sb L J : List ℕ) : Option (List ℕ × List ℕ) :=
  let A := canonical c.lhsSpec Sa
  let B := canonical c.rhsSpec Sb
  let L' := canonical c.outSpec L
  let o := L'.getD 1 0
  let n := o / (B.getD 0 0 / c.batchGroups) * (A.getD 0 0 / c.batchGroups) + L'.getD 0 0
  let f := o / (B.getD 0 0 / c.featureGroups) * B.getD 1 0 + J.getD 0 0
  (winIdx (c.windows (B.drop 2)) (A.drop 2) (L'.drop 2) (J.drop 1)).map fun α =>
    (place c.lhsSpec (n :: f :: α), place c.rhsSpec (o :: J))

/-- `jax.lax.conv_general_dilated_p`. -/
def convGeneral [Add K] [Zero K] [Mul K] (c : ConvParams) (a b : ND K) : Py (ND K) :=
  if ConvOk c a.shape b.shape then
    .ok ⟨convShape c a.shape b.shape, fun L =>
      ((idx ((canonical c.rhsSpec b.shape).drop 1)).map fun J =>
        match convPair c a.shape b.shape L J with
        | some p => a.get p.1 * b.get p.2
        | none => 0).sum⟩
  else .error .typeError

end Lax
end AB
