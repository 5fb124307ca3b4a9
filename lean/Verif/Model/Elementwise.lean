/-
Model of /repo/autobound/elementwise_functions.py, function by function, at one array element: every
function of that file acts element-wise (`np_like.where`, arithmetic, `exp`, ...), so it is modelled
on real numbers and lifted to arrays with numpy broadcasting in `Model/Primitive.lean`.
-/
import Verif.Model.ND
import Mathlib.Analysis.SpecialFunctions.Log.Basic
import Mathlib.Analysis.SpecialFunctions.Exp
import Mathlib.Data.Sign.Basic

namespace AB
namespace EF

/-- `FunctionId.name`, elementwise_functions.py:27-48, 113-119. -/
inductive FName where
  | abs | exp | log | sigmoid | softplus | swish
  | other (s : String)
deriving DecidableEq

/-- `FunctionId`, elementwise_functions.py:27-48.  The fields `x_min`, `x_max` are never read by the
code (`get_function_data` finds table entries by the whole id, and the predefined ids in the table
all have `x_min = x_max = None`), so they are dropped. -/
structure FunctionId where
  name : FName
  order : ℕ
deriving DecidableEq

/-- `FunctionId.derivative_id`, elementwise_functions.py:45-48. -/
def FunctionId.derivativeId (f : FunctionId) (k : ℕ) : FunctionId := ⟨f.name, f.order + k⟩

def ABS : FunctionId := ⟨.abs, 0⟩
def EXP : FunctionId := ⟨.exp, 0⟩
def LOG : FunctionId := ⟨.log, 0⟩
def SIGMOID : FunctionId := ⟨.sigmoid, 0⟩
def SOFTPLUS : FunctionId := ⟨.softplus, 0⟩
def SWISH : FunctionId := ⟨.swish, 0⟩

/-- `FunctionData`, elementwise_functions.py:51-61. -/
structure FunctionData (K : Type) where
  localMinima : List K
  localMaxima : List K
  decreasing : Bool := false
  increasing : Bool := false
  evenSymmetric : Bool := false

section
variable {K : Type} [LinearOrder K]

/-- `sorted(l)`. -/
def sorted (l : List K) : List K := l.mergeSort (fun a b => decide (a ≤ b))

/-- The condition that `[a, b]` lies between the previous extremum (if any) and `x`,
elementwise_functions.py:85-96. -/
def betweenExtrema (a b : K) (prev : Option K) (x : K) : Bool :=
  match prev with
  | none => decide (b ≤ x)
  | some p => decide (a ≥ p) && decide (b ≤ x)

/-- The body of the loop of `monotone_over`, elementwise_functions.py:85-104, for the extremum `x`
with the previous extremum `prev` (`none` when `i == 0`) and `last` telling whether
`i == len(sorted_extrema) - 1`; the state is the pair `(decreasing, increasing)` so far (the lists of
conditions are only ever or-ed together, lines 106-111). -/
def monotoneStep (minima : List K) (a b : K) (prev : Option K) (last : Bool) (x : K)
    (st : Bool × Bool) : Bool × Bool :=
  let isMin := decide (x ∈ minima)
  let contained := betweenExtrema a b prev x
  let st := if isMin then (st.1 || contained, st.2) else (st.1, st.2 || contained)
  if last then
    if isMin then (st.1, st.2 || decide (a ≥ x)) else (st.1 || decide (a ≥ x), st.2)
  else st

/-- The loop of `monotone_over`, elementwise_functions.py:85-104. -/
def monotoneLoop (minima : List K) (a b : K) : Option K → List K → Bool × Bool → Bool × Bool
  | _, [], st => st
  | prev, x :: xs, st =>
    monotoneLoop minima a b (some x) xs (monotoneStep minima a b prev xs.isEmpty x st)

/-- `FunctionData.monotone_over`, elementwise_functions.py:63-112: `(decreasing, increasing)`. -/
def FunctionData.monotoneOver (d : FunctionData K) (a b : K) : Bool × Bool :=
  monotoneLoop d.localMinima a b none (sorted (d.localMinima ++ d.localMaxima))
    (d.decreasing, d.increasing)

/-- `sorted(local_maxima, key=f, reverse=True)`. -/
def sortDesc (f : K → K) (l : List K) : List K := l.mergeSort (fun a b => decide (f b ≤ f a))
/-- `sorted(local_minima, key=f)`. -/
def sortAsc (f : K → K) (l : List K) : List K := l.mergeSort (fun a b => decide (f a ≤ f b))

/-- `maximum_value`, elementwise_functions.py:203-216. -/
def maximumValue (f : K → K) (a b : K) (l : List K) : K :=
  match _h : sortDesc f l with
  | [] => max (f a) (f b)
  | x :: rest => if a ≤ x ∧ x ≤ b then f x else maximumValue f a b rest
termination_by l.length
decreasing_by
  have : (sortDesc f l).length = l.length := List.length_mergeSort _
  rw [_h] at this
  simp at this
  omega

/-- `minimum_value`, elementwise_functions.py:219-232. -/
def minimumValue (f : K → K) (a b : K) (l : List K) : K :=
  match _h : sortAsc f l with
  | [] => min (f a) (f b)
  | x :: rest => if a ≤ x ∧ x ≤ b then f x else minimumValue f a b rest
termination_by l.length
decreasing_by
  have : (sortAsc f l).length = l.length := List.length_mergeSort _
  rw [_h] at this
  simp at this
  omega

end

/-- `np_like.sign`. -/
def sgn {K : Type} [Zero K] [One K] [Neg K] [LinearOrder K] (x : K) : K := if 0 < x then 1 else if x < 0 then -1 else 0

/-- `_sigmoid`, elementwise_functions.py:262-267. -/
noncomputable def sigmoid (x : ℝ) : ℝ :=
  if x ≥ 0 then 1 / (1 + Real.exp (-x)) else Real.exp x / (1 + Real.exp x)

/-- `_sigmoid_derivative`, elementwise_functions.py:270-290. -/
noncomputable def sigmoidDerivative (order : ℕ) : Py (ℝ → ℝ) :=
  let s := sigmoid
  let sm := fun x => sigmoid (-x)
  match order with
  | 0 => .ok s
  | 1 => .ok fun x => s x * sm x
  | 2 => .ok fun x => s x * sm x * (1 - 2 * s x)
  | 3 => .ok fun x => s x * sm x * ((1 - 2 * s x) ^ 2 - 2 * s x * sm x)
  | 4 => .ok fun x => s x * sm x * (1 - 2 * s x) * ((1 - 2 * s x) ^ 2 - 2 * s x * sm x) +
      s x * sm x * (-4 * (1 - 2 * s x) * s x * sm x - 2 * s x * sm x * (1 - 2 * s x))
  | _ => .error .notImplemented

/-- `_softplus`, elementwise_functions.py:293-296. -/
noncomputable def softplus (x : ℝ) : ℝ := Real.log (1 + Real.exp (-|x|)) + max x 0

/-- `_softplus_derivative`, elementwise_functions.py:299-304. -/
noncomputable def softplusDerivative (order : ℕ) : Py (ℝ → ℝ) :=
  if order = 0 then .ok softplus else sigmoidDerivative (order - 1)

/-- `_swish`, elementwise_functions.py:307-308. -/
noncomputable def swish (x : ℝ) : ℝ := x * sigmoid x

/-- `_swish_derivative`, elementwise_functions.py:311-321. -/
noncomputable def swishDerivative (order : ℕ) : Py (ℝ → ℝ) := do
  if order = 0 then return swish
  else
    let s0 ← sigmoidDerivative (order - 1)
    let s1 ← sigmoidDerivative order
    return fun x => order * s0 x + x * s1 x

/-- `get_function`, elementwise_functions.py:122-151.  (For unsupported orders of `sigmoid`,
`softplus` and `swish` the exception is raised when the returned callable is called rather than when
it is created; every user of `get_function` calls it.) -/
noncomputable def getFunction (f : FunctionId) : Py (ℝ → ℝ) :=
  match f.name with
  | .abs => match f.order with
    | 0 => .ok fun x => |x|
    | 1 => .ok sgn
    | _ => .error .notImplemented
  | .exp => .ok Real.exp
  | .log => match f.order with
    | 0 => .ok Real.log
    | k + 1 =>
      let sign : ℝ := if (k + 1) % 2 = 0 then -1 else 1
      .ok fun x => sign * (k.factorial : ℝ) * x ^ (-(k + 1 : ℤ))
  | .sigmoid => sigmoidDerivative f.order
  | .softplus => softplusDerivative f.order
  | .swish => swishDerivative f.order
  | .other _ => .error .notImplemented

/-- The entries of `_FUNCTION_DATA` for `SOFTPLUS.derivative_id(k)`,
elementwise_functions.py:329-340 (decimal literals as exact rationals). -/
noncomputable def softplusData (k : ℕ) : Py (FunctionData ℝ) :=
  match k with
  | 0 => .ok ⟨[], [], false, true, false⟩
  | 1 => .ok ⟨[], [], false, true, false⟩
  | 2 => .ok ⟨[], [0], false, false, true⟩
  | 3 => .ok ⟨[1.3169578969249405], [-1.3169578969249423], false, false, false⟩
  | 4 => .ok ⟨[0], [-2.292431669561122, 2.2924316695611195], false, false, false⟩
  | 5 => .ok ⟨[-0.8426329481295408, 3.1443184061547065],
      [-3.144318406154709, 0.8426329481295388], false, false, false⟩
  | _ => .error .notImplemented

/-- The entries of `_FUNCTION_DATA` for `SWISH.derivative_id(k)`,
elementwise_functions.py:341-356. -/
noncomputable def swishData (k : ℕ) : Py (FunctionData ℝ) :=
  match k with
  | 0 => .ok ⟨[-1.278464542761141], [], false, false, false⟩
  | 1 => .ok ⟨[-2.399357280515326], [2.399357280515324], false, false, false⟩
  | 2 => .ok ⟨[-3.4358409935350243, 3.4358409935350225], [0], false, false, false⟩
  | 3 => .ok ⟨[-4.429235100557346, 1.0319582417807385],
      [-1.0319582417807402, 4.429235100557342], false, false, false⟩
  | 4 => .ok ⟨[0], [-1.8197756117249821, 1.8197756117249804], false, false, false⟩
  | 5 => .ok ⟨[-0.7177419231466055, 2.5062894864026024],
      [-2.506289486402605, 0.7177419231466035], false, false, false⟩
  | _ => .error .notImplemented

/-- The entries of `_FUNCTION_DATA` for `ABS.derivative_id(k)`, elementwise_functions.py:326-328. -/
noncomputable def absData (k : ℕ) : Py (FunctionData ℝ) :=
  match k with
  | 0 => .ok ⟨[0], [], false, false, true⟩
  | 1 => .ok ⟨[], [], false, true, false⟩
  | _ => .error .notImplemented

/-- `get_function_data`, elementwise_functions.py:154-176. -/
noncomputable def getFunctionData (f : FunctionId) : Py (FunctionData ℝ) :=
  match f.name with
  | .exp => .ok ⟨[], [], false, true, false⟩
  | .log => .ok ⟨[], [], f.order % 2 == 1, f.order % 2 == 0, false⟩
  | .sigmoid => softplusData (1 + f.order)
  | .abs => absData f.order
  | .softplus => softplusData f.order
  | .swish => swishData f.order
  | .other _ => .error .notImplemented

/-- `get_taylor_polynomial_coefficients`, elementwise_functions.py:179-200. -/
noncomputable def getTaylorPolynomialCoefficients (f : FunctionId) (degree : ℕ) (x0 : ℝ) : Py (List ℝ) :=
  (List.range (degree + 1)).mapM fun i => do
    let fd ← getFunction (f.derivativeId i)
    return fd x0 / (i.factorial : ℝ)

/-- `get_range` (and `_get_range`), elementwise_functions.py:235-259. -/
noncomputable def getRange (f : FunctionId) (a b : ℝ) : Py (ℝ × ℝ) := do
  let g ← getFunction f
  let d ← getFunctionData f
  return (minimumValue g a b d.localMinima, maximumValue g a b d.localMaxima)

end EF
end AB
