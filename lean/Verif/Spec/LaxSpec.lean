/-
What the documentation of `jax.lax` says about the primitives that jax_bound.py interprets, as relations between operands
and result: sums run over *all* multi-indices of the operands, restricted by conditions on coordinates, so that none of the
index calculations of `Model/Lax.lean` and `Model/Conv.lean` occurs.
-/
import Verif.Model.Conv

namespace AB
variable {K : Type}
namespace LaxSpec

/-- The coordinates of `I` on the axes `D`, in the order of `D`. -/
def pick (D I : List ℕ) : List ℕ := D.map fun d => I.getD d 0

/-- The coordinates of `I` on the axes that are not in `D`, in increasing order of the axes. -/
def keep (D I : List ℕ) : List ℕ := (I.zipIdx.filter fun p => p.2 ∉ D).map Prod.fst

/-- The entries of an array in row-major order (`a.ravel()`). -/
def entries (a : ND K) : List K := (idx a.shape).map a.get

/-- `f` summed over all multi-indices of the shape `S`. -/
def sumOver [AddCommMonoid K] (S : List ℕ) (f : List ℕ → K) : K := ((idx S).map f).sum

/-- `R` is the common shape of `S` and `T` under numpy broadcasting: aligned at the last axis, missing axes count as size
1, the sizes are equal or one of them is 1. -/
def IsBroadcastShape (S T R : List ℕ) : Prop :=
  R.length = max S.length T.length ∧ ∀ k < R.length,
    let s := S.reverse.getD k 1
    let t := T.reverse.getD k 1
    (s = t ∨ s = 1 ∨ t = 1) ∧ R.reverse.getD k 1 = if s = 1 then t else s

/-- The index `J` of an array of shape `S` is read for the index `I` of a broadcast result: aligned at the last axis,
the coordinates agree except on axes of size 1. -/
def ReadAt (S J I : List ℕ) : Prop :=
  ValidIdx S J ∧ ∀ k < S.length, S.reverse.getD k 0 = 1 ∨ J.reverse.getD k 0 = I.reverse.getD k 0

/-- `r` is the binary element-wise operation `f` applied to `a` and `b`. -/
def IsBinary (f : K → K → K) (a b r : ND K) : Prop :=
  IsBroadcastShape a.shape b.shape r.shape ∧
  ∀ I J J', ValidIdx r.shape I → ReadAt a.shape J I → ReadAt b.shape J' I → r.get I = f (a.get J) (b.get J')

/-- `r` is the unary element-wise operation `f` applied to `a`. -/
def IsUnary (f : K → K) (a r : ND K) : Prop :=
  r.shape = a.shape ∧ ∀ I, ValidIdx a.shape I → r.get I = f (a.get I)

/-- `r = transpose(a, perm)`: axis `k` of the result is axis `perm[k]` of the operand. -/
def IsTranspose (perm : List ℕ) (a r : ND K) : Prop :=
  r.shape = pick perm a.shape ∧ ∀ I, ValidIdx a.shape I → r.get (pick perm I) = a.get I

/-- `r = reshape(a, s)`: the same entries in row-major order. -/
def IsReshape (s : List ℕ) (a r : ND K) : Prop := r.shape = s ∧ entries r = entries a

/-- `r = squeeze(a, dims)`: the axes `dims` are removed; the entries stay the same. -/
def IsSqueeze (dims : List ℕ) (a r : ND K) : Prop := r.shape = keep dims a.shape ∧ entries r = entries a

/-- `r = reduce_sum(a, axes)`: an entry of the result is the sum of the entries of the operand at the multi-indices that
agree with it on the remaining axes. -/
def IsReduceSum [AddCommMonoid K] (axes : List ℕ) (a r : ND K) : Prop :=
  r.shape = keep axes a.shape ∧
  ∀ L, ValidIdx r.shape L → r.get L = sumOver a.shape fun I => if keep axes I = L then a.get I else 0

/-- `r = dot_general(a, b, ((lc, rc), (lb, rb)))`: products of all entries whose contracting coordinates are equal and
whose batch coordinates are equal; the result has the batch axes, then the free axes of `a`, then those of `b`. -/
def IsDotGeneral [Semiring K] (lc rc lb rb : List ℕ) (a b r : ND K) : Prop :=
  r.shape = pick lb a.shape ++ keep (lb ++ lc) a.shape ++ keep (rb ++ rc) b.shape ∧
  ∀ L, ValidIdx r.shape L → r.get L = sumOver a.shape fun I => sumOver b.shape fun J =>
    if pick lc I = pick rc J ∧ pick lb I = pick rb J ∧ L = pick lb I ++ keep (lb ++ lc) I ++ keep (rb ++ rc) J
    then a.get I * b.get J else 0

/-- `r = broadcast_in_dim(a, shape, dims)`: axis `k` of the operand is axis `dims[k]` of the result; axes of size 1 are
stretched. -/
def IsBroadcastInDim (shape dims : List ℕ) (a r : ND K) : Prop :=
  r.shape = shape ∧ ∀ I J, ValidIdx shape I → ValidIdx a.shape J →
    (∀ k < a.ndim, a.shape.getD k 0 = 1 ∨ J.getD k 0 = I.getD (dims.getD k 0) 0) → r.get I = a.get J

/-- On one axis the window at output position `o` has its element `k` over operand position `α`: both are counted in the
dilated and padded operand. -/
def Over (w : Lax.WinAxis) (o k α : ℕ) : Prop :=
  (o * w.stride + k * w.winDil : ℤ) = w.padLo + α * w.baseDil

instance (w : Lax.WinAxis) (o k α : ℕ) : Decidable (Over w o k α) := by unfold Over; infer_instance

/-- `Over` on all axes. -/
def OverAll (ws : List Lax.WinAxis) (O J α : List ℕ) : Prop :=
  ∀ k (h : k < ws.length), Over ws[k] (O.getD k 0) (J.getD k 0) (α.getD k 0)

instance (ws : List Lax.WinAxis) (O J α : List ℕ) : Decidable (OverAll ws O J α) := by unfold OverAll; infer_instance

/-- The length of an axis of size `n` after dilation and padding. -/
def paddedLength (w : Lax.WinAxis) (n : ℕ) : ℤ :=
  w.padLo + (if n = 0 then 0 else ((n : ℤ) - 1) * w.baseDil + 1) + w.padHi

/-- The window at output position `o` lies inside the padded operand. -/
def WindowFits (w : Lax.WinAxis) (n o : ℕ) : Prop :=
  o * w.stride + ((w.size : ℤ) - 1) * w.winDil + 1 ≤ paddedLength w n

/-- `O` lists for every axis the number of positions at which the window fits. -/
def IsWindowShape (ws : List Lax.WinAxis) (S O : List ℕ) : Prop :=
  O.length = ws.length ∧ ∀ k (h : k < ws.length), ∀ o, o < O.getD k 0 ↔ WindowFits ws[k] (S.getD k 0) o

/-- `r = reduce_window_sum(a, ws)`: an entry of the result is the sum of the entries of the operand under the window. -/
def IsReduceWindowSum [AddCommMonoid K] (ws : List Lax.WinAxis) (a r : ND K) : Prop :=
  IsWindowShape ws a.shape r.shape ∧
  ∀ O, ValidIdx r.shape O → r.get O = sumOver (ws.map (·.size)) fun J => sumOver a.shape fun α =>
    if OverAll ws O J α then a.get α else 0

/-- The windows of the spatial axes of a convolution with kernel sizes `kernel`. -/
def convWindows (c : Lax.ConvParams) (kernel : List ℕ) : List Lax.WinAxis :=
  (List.range kernel.length).map fun k =>
    ⟨kernel.getD k 0, c.strides.getD k 1, (c.padding.getD k (0, 0)).1, (c.padding.getD k (0, 0)).2,
      c.lhsDilation.getD k 1, c.rhsDilation.getD k 1⟩

/-- The entry `I` of the left and the entry `J` of the right operand contribute to the entry `L` of the convolution:
with N, C, O, F the sizes of the batch and feature axes of the left operand and of the output and input feature axes of
the right one, `g` feature groups and `h` batch groups,
* output features agree;
* the output feature lies in the feature group (of O/g output features) whose F input features start at that group
  number times F;
* the output feature lies in the batch group (of O/h output features) whose N/h batch entries start at that group
  number times N/h;
* the spatial positions are related by the window. -/
structure Contributes (c : Lax.ConvParams) (Sa Sb L I J : List ℕ) : Prop where
  out : (pick c.rhsSpec J).getD 0 0 = (pick c.outSpec L).getD 1 0
  feature : (pick c.lhsSpec I).getD 1 0 =
    (pick c.outSpec L).getD 1 0 / ((pick c.rhsSpec Sb).getD 0 0 / c.featureGroups) * (pick c.rhsSpec Sb).getD 1 0 +
      (pick c.rhsSpec J).getD 1 0
  batch : (pick c.lhsSpec I).getD 0 0 =
    (pick c.outSpec L).getD 1 0 / ((pick c.rhsSpec Sb).getD 0 0 / c.batchGroups) *
      ((pick c.lhsSpec Sa).getD 0 0 / c.batchGroups) + (pick c.outSpec L).getD 0 0
  spatial : OverAll (convWindows c ((pick c.rhsSpec Sb).drop 2)) ((pick c.outSpec L).drop 2) ((pick c.rhsSpec J).drop 2)
    ((pick c.lhsSpec I).drop 2)

open Classical in
/-- `r = conv_general_dilated(a, b)`. -/
def IsConv [Semiring K] (c : Lax.ConvParams) (a b r : ND K) : Prop :=
  (∃ O, pick c.outSpec r.shape = (pick c.lhsSpec a.shape).getD 0 0 / c.batchGroups :: (pick c.rhsSpec b.shape).getD 0 0 :: O ∧
    IsWindowShape (convWindows c ((pick c.rhsSpec b.shape).drop 2)) ((pick c.lhsSpec a.shape).drop 2) O) ∧
  ∀ L, ValidIdx r.shape L → r.get L = sumOver a.shape fun I => sumOver b.shape fun J =>
    if Contributes c a.shape b.shape L I J then a.get I * b.get J else 0

end LaxSpec
end AB
