/-
Model of the JAX primitives that /repo/autobound/jax/jax_bound.py interprets: what
`primitive.bind(*args, **params)` returns for the primitives in its tables (jax_bound.py:273-304,
463-503).  JAX itself is not part of /repo: this file is a specification, in exact arithmetic, of the
behaviour of `jax.lax` that the modelled code relies on (documented in DESIGN.md).  dtypes, layouts and
sharding parameters are not modelled.
-/
import Verif.Model.Enclosure

namespace AB
variable {K : Type}

/-- The array itself: entries outside the shape carry no information, so primitives only see arrays whose
entries outside the shape are 0. -/
def ND.canon [Zero K] (a : ND K) : ND K :=
  ⟨a.shape, fun I => if I ∈ idx a.shape then a.get I else 0⟩

namespace Lax

/-- The shape rule of the binary element-wise primitives of `jax.lax`: equal ranks (size-1 axes are
stretched), or one operand of rank 0. -/
def nary (f : K → K → K) (a b : ND K) : Py (ND K) :=
  if a.ndim = b.ndim ∨ a.ndim = 0 ∨ b.ndim = 0 then ND.map2 f a b else .error .typeError

/-- `jax.lax.transpose_p` / `jnp.transpose(a, axes=perm)`. -/
def transpose (perm : List ℕ) (a : ND K) : Py (ND K) :=
  if perm.length = a.ndim ∧ perm.Nodup ∧ ∀ p ∈ perm, p < a.ndim then
    .ok ⟨perm.map fun p => a.shape.getD p 0,
      fun I => a.get ((List.range a.ndim).map fun k => I.getD (perm.idxOf k) 0)⟩
  else .error .typeError

/-- The shape left after removing the axes `D`. -/
def dropAxes (D S : List ℕ) : List ℕ :=
  ((List.range S.length).filter fun j => j ∉ D).map fun j => S.getD j 0

/-- The multi-index of rank `n` that has the entries `J` on the axes `D` and the entries `I` on the
remaining axes. -/
def assemble (n : ℕ) (D I J : List ℕ) : List ℕ :=
  (List.range n).map fun j =>
    if j ∈ D then J.getD (D.idxOf j) 0 else I.getD ((List.range j).filter fun k => k ∉ D).length 0

/-- `D` is a list of different axes of an array of rank `n`. -/
def AxesOk (n : ℕ) (D : List ℕ) : Prop := D.Nodup ∧ ∀ d ∈ D, d < n

instance (n : ℕ) (D : List ℕ) : Decidable (AxesOk n D) := by unfold AxesOk; infer_instance

/-- `jax.lax.squeeze_p`. -/
def squeeze (dims : List ℕ) (a : ND K) : Py (ND K) :=
  if AxesOk a.ndim dims ∧ ∀ d ∈ dims, a.shape.getD d 0 = 1 then
    .ok ⟨dropAxes dims a.shape, fun I => a.get (assemble a.ndim dims I [])⟩
  else .error .valueError

/-- `jax.lax.reduce_sum_p`. -/
def reduceSum [Add K] [Zero K] (axes : List ℕ) (a : ND K) : Py (ND K) :=
  if AxesOk a.ndim axes then
    .ok ⟨dropAxes axes a.shape, fun I =>
      ((idx (axes.map fun d => a.shape.getD d 0)).map fun J => a.get (assemble a.ndim axes I J)).sum⟩
  else .error .valueError

/-- `jax.lax.dot_general_p` with `dimension_numbers = ((lc, rc), (lb, rb))`. -/
def dotGeneral [Add K] [Zero K] [Mul K] (lc rc lb rb : List ℕ) (a b : ND K) : Py (ND K) :=
  if AxesOk a.ndim (lb ++ lc) ∧ AxesOk b.ndim (rb ++ rc) ∧ lb.length = rb.length ∧
      (lb ++ lc).map (fun d => a.shape.getD d 0) = (rb ++ rc).map (fun d => b.shape.getD d 0) then
    let nb := lb.length
    let nl := (dropAxes (lb ++ lc) a.shape).length
    .ok ⟨lb.map (fun d => a.shape.getD d 0) ++ dropAxes (lb ++ lc) a.shape ++ dropAxes (rb ++ rc) b.shape,
      fun L => ((idx (lc.map fun d => a.shape.getD d 0)).map fun J =>
        a.get (assemble a.ndim (lb ++ lc) ((L.drop nb).take nl) (L.take nb ++ J)) *
        b.get (assemble b.ndim (rb ++ rc) (L.drop (nb + nl)) (L.take nb ++ J))).sum⟩
  else .error .typeError

/-- `jax.lax.broadcast_in_dim_p`. -/
def broadcastInDimP (shape dims : List ℕ) (a : ND K) : Py (ND K) :=
  if dims.length = a.ndim ∧ dims.Pairwise (· < ·) ∧ (∀ d ∈ dims, d < shape.length) ∧
      ∀ k < a.ndim, a.shape.getD k 0 = 1 ∨ a.shape.getD k 0 = shape.getD (dims.getD k 0) 0 then
    .ok ⟨shape, fun I => a.get ((List.range a.ndim).map fun k =>
      if a.shape.getD k 0 = 1 then 0 else I.getD (dims.getD k 0) 0)⟩
  else .error .typeError

/-- The Python function `jax.lax.broadcast_in_dim`, which returns its operand unchanged when it has the
right rank and `broadcast_dimensions` is empty. -/
def broadcastInDim (shape dims : List ℕ) (a : ND K) : Py (ND K) :=
  if a.ndim = shape.length ∧ dims = [] then .ok a else broadcastInDimP shape dims a

/-- Row-major position of a multi-index. -/
def ravel : List ℕ → List ℕ → ℕ
  | _ :: S, i :: I => i * S.prod + ravel S I
  | _, _ => 0

/-- The multi-index at a row-major position. -/
def unravel : List ℕ → ℕ → List ℕ
  | [], _ => []
  | _ :: S, n => n / S.prod :: unravel S (n % S.prod)

/-- `jax.lax.reshape_p` / `jnp.reshape`. -/
def reshape (newSizes : List ℕ) (a : ND K) : Py (ND K) :=
  if newSizes.prod = a.shape.prod then
    .ok ⟨newSizes, fun I => a.get (unravel a.shape (ravel newSizes I))⟩
  else .error .typeError

/-- One axis of a reduction window: size, stride, padding (low, high), base and window dilation. -/
structure WinAxis where
  size : ℕ
  stride : ℕ
  padLo : ℤ
  padHi : ℤ
  baseDil : ℕ
  winDil : ℕ

/-- Output size of one axis of a windowed reduction of an axis of size `n`. -/
def WinAxis.outSize (w : WinAxis) (n : ℕ) : ℕ :=
  let dil : ℤ := if n = 0 then 0 else (n - 1 : ℤ) * w.baseDil + 1
  let pad := dil + w.padLo + w.padHi
  let win : ℤ := (w.size - 1 : ℤ) * w.winDil + 1
  if pad < win then 0 else ((pad - win) / w.stride + 1).toNat

/-- Position read for output position `o` and window offset `k`; `none` for padding and for the holes of
a dilated operand. -/
def WinAxis.pos (w : WinAxis) (n o k : ℕ) : Option ℕ :=
  let p : ℤ := (o * w.stride + k * w.winDil : ℤ) - w.padLo
  if 0 ≤ p ∧ p % w.baseDil = 0 ∧ p / w.baseDil < n then some (p / w.baseDil).toNat else none

/-- The multi-index read for output index `I` and window offset `J` of a windowed reduction. -/
def winIdx : List WinAxis → List ℕ → List ℕ → List ℕ → Option (List ℕ)
  | w :: ws, n :: S, o :: I, k :: J => do return (← w.pos n o k) :: (← winIdx ws S I J)
  | [], [], [], [] => some []
  | _, _, _, _ => none

/-- `jax.lax.reduce_window_sum_p`: a window for every axis of the operand. -/
def reduceWindowSum [Add K] [Zero K] (ws : List WinAxis) (a : ND K) : Py (ND K) :=
  if ws.length = a.ndim then
    .ok ⟨List.zipWith WinAxis.outSize ws a.shape, fun I =>
      ((idx (ws.map (·.size))).map fun J =>
        match winIdx ws a.shape I J with | some α => a.get α | none => 0).sum⟩
  else .error .typeError

end Lax

/-- The primitives of a Jaxpr (with their parameters) as far as jax_bound.py distinguishes them.
`conv`, `jit` carry the function they compute (its dimension numbers / inner Jaxpr are not modelled;
`jit` is modelled with one input and one output); `other` is any primitive not in the tables of
jax_bound.py. `convert_element_type` carries the function `round` that takes a number to the number of the new type
(truncation for integer types, rounding for shorter floating point types, the identity where all numbers are kept). -/
inductive Prim (K : Type) where
  | add | sub | mul | div | neg | pow
  | integerPow (y : ℤ)
  | dotGeneral (lc rc lb rb : List ℕ)
  | conv (op : ND K → ND K → Py (ND K))
  | broadcastInDim (shape dims : List ℕ)
  | elementwise (name : String)
  | convertElementType (round : K → K)
  | reshape (newSizes : List ℕ)
  | reduceSum (axes : List ℕ)
  | reduceWindowSum (ws : List Lax.WinAxis)
  | squeeze (dims : List ℕ)
  | transpose (perm : List ℕ)
  | jit (body : ND K → Py (ND K))
  | other (name : String) (impl : List (ND K) → Py (List (ND K)))

/-- The scalar functions behind the element-wise primitives: `fn name` (`none` if the primitive has no
implementation), and `pow`. -/
structure Sem (K : Type) where
  fn : String → Option (K → K)
  pow : K → K → K

variable [Zero K] [One K] [Add K] [Sub K] [Mul K] [Pow K ℤ] [Neg K] [Div K]

/-- a single result -/
def Py.one {α : Type} (r : Py α) : Py (List α) := r.map fun x => [x]

/-- The value of a primitive on canonical arrays.  (`x / 0` and `0 ^ negative` are 0 in the model, where
floats give `inf` or `nan`.) -/
def Prim.eval (sem : Sem K) : Prim K → List (ND K) → Py (List (ND K))
  | .add, [a, b] => (Lax.nary (· + ·) a b).one
  | .sub, [a, b] => (Lax.nary (· - ·) a b).one
  | .mul, [a, b] => (Lax.nary (· * ·) a b).one
  | .div, [a, b] => (Lax.nary (· / ·) a b).one
  | .pow, [a, b] => (Lax.nary sem.pow a b).one
  | .neg, [a] => .ok [a.map (- ·)]
  | .integerPow y, [a] => .ok [a.map (· ^ y)]
  | .dotGeneral lc rc lb rb, [a, b] => (Lax.dotGeneral lc rc lb rb a b).one
  | .conv op, [a, b] => (op a b).one
  | .broadcastInDim shape dims, [a] => (Lax.broadcastInDimP shape dims a).one
  | .elementwise name, [a] =>
    match sem.fn name with
    | some f => .ok [a.map f]
    | none => .error .notImplemented
  | .convertElementType round, [a] => .ok [a.map round]
  | .reshape s, [a] => (Lax.reshape s a).one
  | .reduceSum axes, [a] => (Lax.reduceSum axes a).one
  | .reduceWindowSum ws, [a] => (Lax.reduceWindowSum ws a).one
  | .squeeze dims, [a] => (Lax.squeeze dims a).one
  | .transpose perm, [a] => (Lax.transpose perm a).one
  | .jit body, [a] => (body a).one
  | .other _ impl, args => impl args
  | _, _ => .error .typeError

/-- `primitive.bind(*args, **params)`. -/
def Prim.bind (sem : Sem K) (p : Prim K) (args : List (ND K)) : Py (List (ND K)) :=
  p.eval sem (args.map ND.canon)

/-- `functools.partial(primitive.bind, **params)` on one array, jax_bound.py:451. -/
def Prim.bind1 (sem : Sem K) (p : Prim K) (a : ND K) : Py (ND K) := do
  match ← p.bind sem [a] with
  | [r] => .ok r
  | _ => .error .typeError

/-- `primitive.bind(a, b, **params)` for a primitive with one output. -/
def Prim.bind2 (sem : Sem K) (p : Prim K) (a b : ND K) : Py (ND K) := do
  match ← p.bind sem [a, b] with
  | [r] => .ok r
  | _ => .error .typeError

end AB
