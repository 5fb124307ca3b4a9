/-
A family of programs: the squared-error loss of a feed-forward network with convolutions, dense layers, sum-pooling,
reshapes and element-wise activation functions, along a line of parameters (README.md:98: "What *is* supported is bounding the
squared error loss of a multi-layer perceptron or convolutional neural network").

`Layer`, `forward`, `netLoss` are the function; `NetIs` is what the documentation of `jax.lax` says it is; `netJaxpr` is the
program.
-/
import Verif.Spec.LaxSpec
import Verif.Spec.Static

namespace AB
namespace Net
variable {K : Type}
open JB Lax

/-- One layer.  `ks` and `bs` are the shapes of the kernel and of the bias.
* `conv`: `conv_general_dilated(h, kernel) + bias`, any strides, padding, dilations, layout and groups;
* `dot`: `dot_general(h, kernel) + bias`, contracting the axes `lc` of `h` with the axes `rc` of the kernel (a dense layer
  is `lc = [1], rc = [0]`);
* `act`: an element-wise function;
* `pool`: `reduce_window_sum`;
* `reshape`. -/
inductive Layer where
  | conv (c : ConvParams) (ks bs : List ℕ)
  | dot (lc rc ks bs : List ℕ)
  | act (name : String)
  | pool (ws : List WinAxis)
  | reshape (sizes : List ℕ)

/-- The layer has parameters. -/
def Layer.HasParams : Layer → Prop
  | .conv _ _ _ => True
  | .dot _ _ _ _ => True
  | _ => False

/-- The shape of the output for an input of shape `S`. -/
def Layer.out : Layer → List ℕ → List ℕ
  | .conv c ks _, S => convShape c S ks
  | .dot lc rc ks _, S => dropAxes lc S ++ dropAxes rc ks
  | .act _, S => S
  | .pool ws, S => List.zipWith WinAxis.outSize ws S
  | .reshape s, _ => s

/-- The bias has as many axes as the output of the layer, of the same size or of size 1 (which `add` stretches). -/
def BiasOk (bs S : List ℕ) : Prop := List.Forall₂ (fun b s => b = 1 ∨ b = s) bs S

/-- No axis has size 0. -/
def Pos (S : List ℕ) : Prop := ∀ s ∈ S, 0 < s

/-- The layer accepts an input of shape `S`. -/
def Layer.Ok : Layer → List ℕ → Prop
  | .conv c ks bs, S => ConvOk c S ks ∧ Pos ks ∧ Pos bs ∧ BiasOk bs (convShape c S ks)
  | .dot lc rc ks bs, S => AxesOk S.length lc ∧ AxesOk ks.length rc ∧
      lc.map (fun d => S.getD d 0) = rc.map (fun d => ks.getD d 0) ∧ Pos ks ∧ Pos bs ∧
      BiasOk bs (dropAxes lc S ++ dropAxes rc ks)
  | .act _, _ => True
  | .pool ws, S => ws.length = S.length ∧ ∀ w ∈ ws, 0 < w.stride ∧ 0 < w.baseDil
  | .reshape s, S => s.prod = S.prod

/-- The shape of the output of the network. -/
def outShape : List Layer → List ℕ → List ℕ
  | [], S => S
  | L :: Ls, S => outShape Ls (L.out S)

/-- Every layer accepts the output of the one before it, no array is empty, and no array has more than 26 axes (the code
names axes with letters). -/
def LayersOk : List Layer → List ℕ → Prop
  | [], S => Pos S ∧ S.length ≤ 26
  | L :: Ls, S => Pos S ∧ S.length ≤ 26 ∧ L.Ok S ∧ LayersOk Ls (L.out S)

/-- The network accepts the batch, its output has the shape of the targets, and its first layer has parameters. -/
structure NetOk (layers : List Layer) (X Y : ND K) : Prop where
  fits : LayersOk layers X.shape
  targets : outShape layers X.shape = Y.shape
  first : ∃ L, layers.head? = some L ∧ L.HasParams

/-- The parameters: the entries of the kernel and of the bias of every layer. -/
abbrev Params (K : Type) := ℕ → (List ℕ → K) × (List ℕ → K)

section
variable [Field K]

/-- The output of layer number `l`. -/
def applyLayer (sem : Sem K) (w : Params K) (l : ℕ) : Layer → ND K → Py (ND K)
  | .conv c ks bs, h => do
    Prim.bind2 sem .add (← Prim.bind2 sem (.conv (convGeneral c)) h ⟨ks, (w l).1⟩) ⟨bs, (w l).2⟩
  | .dot lc rc ks bs, h => do
    Prim.bind2 sem .add (← Prim.bind2 sem (.dotGeneral lc rc [] []) h ⟨ks, (w l).1⟩) ⟨bs, (w l).2⟩
  | .act name, h => Prim.bind1 sem (.elementwise name) h
  | .pool ws, h => Prim.bind1 sem (.reduceWindowSum ws) h
  | .reshape s, h => Prim.bind1 sem (.reshape s) h

/-- The output of the network, whose first layer has number `l`. -/
def forward (sem : Sem K) (w : Params K) : List Layer → ℕ → ND K → Py (ND K)
  | [], _, h => .ok h
  | L :: Ls, l, h => do forward sem w Ls (l + 1) (← applyLayer sem w l L h)

/-- The sum of squared differences of two arrays. -/
def sqErr (Y r : ND K) : K := ((idx Y.shape).map fun I => (r.get I - Y.get I) ^ 2).sum

/-- The sum of squared errors of the network on the batch `X` with targets `Y`. -/
def netLoss (sem : Sem K) (layers : List Layer) (X Y : ND K) (w : Params K) : K :=
  ((forward sem w layers 0 X).toOption.map (sqErr Y)).getD 0

/-! ### What the documentation says -/

/-- `r` is what the documentation of `jax.lax` says the output of layer number `l` on `h` is. -/
def LayerIs (sem : Sem K) (w : Params K) (l : ℕ) : Layer → ND K → ND K → Prop
  | .conv c ks bs, h, r => ∃ a, LaxSpec.IsConv c h ⟨ks, (w l).1⟩ a ∧ LaxSpec.IsBinary (· + ·) a ⟨bs, (w l).2⟩ r
  | .dot lc rc ks bs, h, r =>
    ∃ a, LaxSpec.IsDotGeneral lc rc [] [] h ⟨ks, (w l).1⟩ a ∧ LaxSpec.IsBinary (· + ·) a ⟨bs, (w l).2⟩ r
  | .act name, h, r => ∃ f, sem.fn name = some f ∧ LaxSpec.IsUnary f h r
  | .pool ws, h, r => LaxSpec.IsReduceWindowSum ws h r
  | .reshape s, h, r => LaxSpec.IsReshape s h r

/-- `r` is what the documentation of `jax.lax` says the output of the network on `h` is. -/
def NetIs (sem : Sem K) (w : Params K) : List Layer → ℕ → ND K → ND K → Prop
  | [], _, h, r => r = h
  | L :: Ls, l, h, r => ∃ a, LayerIs sem w l L h a ∧ NetIs sem w Ls (l + 1) a r

end

/-! ### The program -/

/-- The shapes of the parameters of a layer. -/
def Layer.shapes : Layer → Option (List ℕ × List ℕ)
  | .conv _ ks bs => some (ks, bs)
  | .dot _ _ ks bs => some (ks, bs)
  | _ => none

/-- The constants of the layers: the parameters `p` and their update direction `v`. -/
def layerConsts (p v : Params K) : List Layer → ℕ → List (ℤ × ND K)
  | [], _ => []
  | L :: Ls, l =>
    (match L.shapes with
      | some (ks, bs) => [(8 * l + 5, ⟨ks, (p l).1⟩), (8 * l + 7, ⟨ks, (v l).1⟩), (8 * l + 9, ⟨bs, (p l).2⟩),
          (8 * l + 11, ⟨bs, (v l).2⟩)]
      | none => []) ++ layerConsts p v Ls (l + 1)

/-- The equations of a layer with parameters: `op(h, W + eta*V) + (b + eta*c)`; `eta` is the variable 0. -/
def paramEqns (op : Prim K) (l : ℕ) (h : ℤ) : List (Eqn K) :=
  [⟨.mul, [.var 0, .var (8 * l + 7)], [16 * l + 2]⟩,
   ⟨.add, [.var (8 * l + 5), .var (16 * l + 2)], [16 * l + 4]⟩,
   ⟨op, [.var h, .var (16 * l + 4)], [16 * l + 6]⟩,
   ⟨.mul, [.var 0, .var (8 * l + 11)], [16 * l + 8]⟩,
   ⟨.add, [.var (8 * l + 9), .var (16 * l + 8)], [16 * l + 10]⟩,
   ⟨.add, [.var (16 * l + 6), .var (16 * l + 10)], [16 * l + 12]⟩]

/-- The equations of layer number `l` on the input variable `h`; its output is the variable `16 l + 12`. -/
def layerEqns [Semiring K] : Layer → ℕ → ℤ → List (Eqn K)
  | .conv c _ _, l, h => paramEqns (.conv (convGeneral c)) l h
  | .dot lc rc _ _, l, h => paramEqns (.dotGeneral lc rc [] []) l h
  | .act name, l, h => [⟨.elementwise name, [.var h], [16 * l + 12]⟩]
  | .pool ws, l, h => [⟨.reduceWindowSum ws, [.var h], [16 * l + 12]⟩]
  | .reshape s, l, h => [⟨.reshape s, [.var h], [16 * l + 12]⟩]

/-- The equations of all layers, the first of which has number `l` and the input variable `h`. -/
def bodyEqns [Semiring K] : List Layer → ℕ → ℤ → List (Eqn K)
  | [], _, _ => []
  | L :: Ls, l, h => layerEqns L l h ++ bodyEqns Ls (l + 1) (16 * l + 12)

/-- The variable with the output of these layers. -/
def outVar : List Layer → ℕ → ℤ → ℤ
  | [], _, h => h
  | _ :: Ls, l, _ => outVar Ls (l + 1) (16 * l + 12)

/-- The equations of `sum((h - Y) ** 2)`, where `Y` is the variable 3 and has rank `rk`. -/
def lossEqns (rk l : ℕ) (h : ℤ) : List (Eqn K) :=
  [⟨.sub, [.var h, .var 3], [16 * l + 12]⟩,
   ⟨.integerPow 2, [.var (16 * l + 12)], [16 * l + 14]⟩,
   ⟨.reduceSum (List.range rk), [.var (16 * l + 14)], [16 * l + 16]⟩]

/-- The constants of the program: the batch, the targets, the parameters and their update direction. -/
def netPairs (layers : List Layer) (X Y : ND K) (p v : Params K) : List (ℤ × ND K) :=
  (1, X) :: (3, Y) :: layerConsts p v layers 0

/-- The Jaxpr of `eta -> loss(p + eta * v)`. -/
def netJaxpr [Semiring K] (layers : List Layer) (X Y : ND K) (p v : Params K) : Jaxpr K where
  constvars := (netPairs layers X Y p v).map Prod.fst
  invars := [0]
  outvars := [.var (16 * layers.length + 16)]
  eqns := bodyEqns layers 0 1 ++ lossEqns Y.ndim layers.length (outVar layers 0 1)

/-- The values of its constants. -/
def netConsts (layers : List Layer) (X Y : ND K) (p v : Params K) : List (ND K) :=
  (netPairs layers X Y p v).map Prod.snd

end Net
end AB
