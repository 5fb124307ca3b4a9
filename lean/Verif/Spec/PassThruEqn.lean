/-
Specification vocabulary for C92: the operations that rearrange, repeat or add up the entries of one array.
-/
import Verif.Spec.Affine

namespace AB
namespace JB
variable {K : Type}

/-- `reshape`, `transpose`, `squeeze`, `broadcast_in_dim`, `reduce_sum`, `reduce_window_sum`: their values are sums of entries of the argument. -/
inductive Rearranges : Prim K → Prop
  | reshape (sizes : List ℕ) : Rearranges (.reshape sizes)
  | transpose (perm : List ℕ) : Rearranges (.transpose perm)
  | squeeze (dims : List ℕ) : Rearranges (.squeeze dims)
  | broadcastInDim (shape dims : List ℕ) : Rearranges (.broadcastInDim shape dims)
  | reduceSum (axes : List ℕ) : Rearranges (.reduceSum axes)
  | reduceWindowSum (ws : List Lax.WinAxis) : Rearranges (.reduceWindowSum ws)

end JB
end AB
