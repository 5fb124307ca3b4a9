/-
A family of programs: the squared-error loss of a multi-layer perceptron, along a line of parameters.  This is the
function `eta -> loss(params + eta * update_dir)` that safe_learning_rates.ipynb bounds (README.md:98: "the squared
error loss of a MLP").

`forward`, `mlpLoss` are the mathematical definition; `mlpJaxpr` is the program.
-/
import Mathlib.Algebra.BigOperators.Group.Finset.Basic
import Verif.Spec.Static

namespace AB
namespace MLP
variable {K : Type}
open JB

/-- One layer: its width, and the element-wise primitive applied to its output (`none` for a linear layer). -/
abbrev Arch := List (ℕ × Option String)

/-- The parameters: a weight matrix and a bias vector for every layer. -/
abbrev Params (K : Type) := ℕ → (ℕ → ℕ → K) × (ℕ → K)

section
variable [Field K]

/-- The activation function. -/
def actFn (sem : Sem K) : Option String → K → K
  | none => id
  | some name => (sem.fn name).getD id

/-- The output of the layers `arch` (the first of which has number `l` and `n` inputs) on the batch `h` (`h i k` is the
`k`-th entry of the `i`-th example). -/
def forward (sem : Sem K) (p : Params K) : Arch → ℕ → ℕ → (ℕ → ℕ → K) → ℕ → ℕ → K
  | [], _, _, h => h
  | (m, act) :: arch, l, n, h => forward sem p arch (l + 1) m fun i j =>
      actFn sem act (∑ k ∈ Finset.range n, h i k * (p l).1 k j + (p l).2 j)

/-- The width of the last layer. -/
def outWidth : Arch → ℕ → ℕ
  | [], n => n
  | (m, _) :: arch, _ => outWidth arch m

/-- The sum of squared errors of the network on a batch of `B` examples `X` with `n` entries each and targets `Y`. -/
def mlpLoss (sem : Sem K) (arch : Arch) (B n : ℕ) (X Y : ℕ → ℕ → K) (p : Params K) : K :=
  ∑ i ∈ Finset.range B, ∑ j ∈ Finset.range (outWidth arch n), (forward sem p arch 0 n X i j - Y i j) ^ 2

end

/-! ### The program -/

/-- A matrix as an array. -/
def mat (a b : ℕ) (f : ℕ → ℕ → K) : ND K := ⟨[a, b], fun I => f (I.getD 0 0) (I.getD 1 0)⟩

/-- A vector as an array. -/
def vec (a : ℕ) (f : ℕ → K) : ND K := ⟨[a], fun I => f (I.getD 0 0)⟩

/-- The constants of the layers: the parameters `p` and their update direction `v`. -/
def layerConsts (p v : Params K) : Arch → ℕ → ℕ → List (ℤ × ND K)
  | [], _, _ => []
  | (m, _) :: arch, l, n =>
    (8 * l + 5, mat n m (p l).1) :: (8 * l + 7, mat n m (v l).1) :: (8 * l + 9, vec m (p l).2) ::
      (8 * l + 11, vec m (v l).2) :: layerConsts p v arch (l + 1) m

/-- The variable with the output of layer number `l`. -/
def outVar (l : ℕ) : Option String → ℤ
  | none => 16 * l + 14
  | some _ => 16 * l + 16

/-- The equations of layer number `l` on the input variable `h`:
`act(h @ (W + eta*V) + (b + eta*c))`; `eta` is the variable 0.  As in the Jaxprs of `jax.numpy`, the bias gets a leading axis
of size 1 (`broadcast_in_dim`), which `add` stretches. -/
def layerEqns (m : ℕ) (act : Option String) (l : ℕ) (h : ℤ) : List (Eqn K) :=
  [⟨.mul, [.var 0, .var (8 * l + 7)], [16 * l + 2]⟩,
   ⟨.add, [.var (8 * l + 5), .var (16 * l + 2)], [16 * l + 4]⟩,
   ⟨.dotGeneral [1] [0] [] [], [.var h, .var (16 * l + 4)], [16 * l + 6]⟩,
   ⟨.mul, [.var 0, .var (8 * l + 11)], [16 * l + 8]⟩,
   ⟨.add, [.var (8 * l + 9), .var (16 * l + 8)], [16 * l + 10]⟩,
   ⟨.broadcastInDim [1, m] [1], [.var (16 * l + 10)], [16 * l + 12]⟩,
   ⟨.add, [.var (16 * l + 6), .var (16 * l + 12)], [16 * l + 14]⟩] ++
  match act with
  | none => []
  | some name => [⟨.elementwise name, [.var (16 * l + 14)], [16 * l + 16]⟩]

/-- The equations of all layers, then `sum((h - Y) ** 2)`. -/
def netEqns : Arch → ℕ → ℤ → List (Eqn K)
  | [], l, h =>
    [⟨.sub, [.var h, .var 3], [16 * l + 2]⟩,
     ⟨.integerPow 2, [.var (16 * l + 2)], [16 * l + 4]⟩,
     ⟨.reduceSum [0, 1], [.var (16 * l + 4)], [16 * l + 6]⟩]
  | (m, act) :: arch, l, h => layerEqns m act l h ++ netEqns arch (l + 1) (outVar l act)

/-- The constants of the program: the batch, the targets, the parameters and their update direction. -/
def mlpPairs (arch : Arch) (B n : ℕ) (X Y : ℕ → ℕ → K) (p v : Params K) : List (ℤ × ND K) :=
  (1, mat B n X) :: (3, mat B (outWidth arch n) Y) :: layerConsts p v arch 0 n

/-- The Jaxpr of `eta -> loss(p + eta * v)`. -/
def mlpJaxpr (arch : Arch) (B n : ℕ) (X Y : ℕ → ℕ → K) (p v : Params K) : Jaxpr K where
  constvars := (mlpPairs arch B n X Y p v).map Prod.fst
  invars := [0]
  outvars := [.var (16 * arch.length + 6)]
  eqns := netEqns arch 0 1

/-- The values of its constants. -/
def mlpConsts (arch : Arch) (B n : ℕ) (X Y : ℕ → ℕ → K) (p v : Params K) : List (ND K) :=
  (mlpPairs arch B n X Y p v).map Prod.snd

end MLP
end AB
