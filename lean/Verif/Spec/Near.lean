/-
Specification vocabulary for C82: executions of a program in which the results of element-wise functions are off
by at most `ε`.
-/
import Verif.Spec.JaxSem

namespace AB
variable {K : Type} [Field K] [LinearOrder K]

/-- Two arrays of the same shape whose entries differ by at most `ε`. -/
def NearArr (ε : K) (a b : ND K) : Prop := a.shape = b.shape ∧ ∀ I, ValidIdx a.shape I → |a.get I - b.get I| ≤ ε

/-- `SoundGenerator` up to an error `ε`: the enclosure contains at `y - x0` some array within `ε` of `f(y)`. -/
def NearGenerator (ε : K) (f : K → K) (gen : TEA.Generator K) : Prop :=
  ∀ (x0 lo hi : ND K) (d : ℕ) (e : Encl K) (R : List ℕ), lo.shape = hi.shape →
    bshape x0.shape lo.shape = some R → (∃ I, ValidIdx R I) →
    (∀ I, ValidIdx R I → lo.bget I ≤ x0.bget I ∧ x0.bget I ≤ hi.bget I) →
    gen x0 (lo, hi) d = .ok e →
    e ≠ [] ∧ e.length ≤ d + 1 ∧ WellFormedEncl e ∧
    (∀ c ∈ e, c.shape = [] ∨ c.shape = x0.shape ∨ c.shape = lo.shape ∨ c.shape = R) ∧
    ∀ y δ : ND K, bshape R y.shape = some y.shape →
      (∀ I, ValidIdx y.shape I → lo.bget I ≤ y.get I ∧ y.get I ≤ hi.bget I) →
      ND.map2 (· - ·) y x0 = .ok δ → ∃ w, NearArr ε w (y.map f) ∧ ElemEncloses e δ w

namespace JB

/-- The tables of enclosure generators are right about the functions `sem` up to an error `ε`, and the
implementations that `bind` calls compute these functions. -/
structure LibNear (ε : K) (lib : Lib K) (sem : Sem K) : Prop where
  fn : ∀ n f, lib.sem.fn n = some f → sem.fn n = some f
  pow : lib.sem.pow = sem.pow
  gen : ∀ n g, lib.gen n = some g → ∃ f, sem.fn n = some f ∧ NearGenerator ε f g ∧ KeepsShape g
  powInt : ∀ n : ℤ, n < 0 → NearGenerator ε (fun x => x ^ n) (lib.powGen (.int n)) ∧
    KeepsShape (lib.powGen (.int n))
  expoInt : ∀ p n, lib.expo p = .int n → ∀ x, sem.pow x p = x ^ n
  expoFrac : ∀ p q, lib.expo p = .frac q →
    NearGenerator ε (fun x => sem.pow x p) (lib.powGen (.frac q)) ∧ KeepsShape (lib.powGen (.frac q))

/-- One primitive, executed exactly; or, for an element-wise function or a power, with every entry of the result off
by at most `ε`; a quotient is the exact product of the numerator and a reciprocal off by at most `ε`. -/
inductive NearBind (ε : K) (sem : Sem K) : Prim K → List (ND K) → List (ND K) → Prop
  | exact {p : Prim K} {args outs : List (ND K)} : p.bind sem args = .ok outs → NearBind ε sem p args outs
  | elementwise {name : String} {f : K → K} {a y : ND K} : sem.fn name = some f → NearArr ε y (a.map f) →
      NearBind ε sem (.elementwise name) [a] [y]
  | integerPow {n : ℤ} {a y : ND K} : n < 0 → NearArr ε y (a.map (· ^ n)) → NearBind ε sem (.integerPow n) [a] [y]
  | pow {a b w y : ND K} : (Prim.pow : Prim K).bind sem [a, b] = .ok [w] → NearArr ε y w →
      NearBind ε sem .pow [a, b] [y]
  | div {a b r y : ND K} : NearArr ε r (b.map fun x => x⁻¹) → (Prim.mul : Prim K).bind sem [a, r] = .ok [y] →
      NearBind ε sem .div [a, b] [y]

/-- An execution of a list of equations, every equation executed as `NearBind` allows. -/
inductive NearRun (ε : K) (sem : Sem K) : List (Eqn K) → Vals K → Vals K → Prop
  | nil (vals : Vals K) : NearRun ε sem [] vals vals
  | cons {eqn : Eqn K} {eqns : List (Eqn K)} {vals vals' : Vals K} {args outs : List (ND K)} :
      eqn.invars.mapM (getVal vals) = .ok args → NearBind ε sem eqn.prim args outs →
      outs.length = eqn.outvars.length →
      NearRun ε sem eqns ((eqn.outvars.zip outs).foldl storeVal vals) vals' → NearRun ε sem (eqn :: eqns) vals vals'

/-- `y` is the result at `x` of an execution of the program in which element-wise results are off by at most `ε`. -/
def NearValue (ε : K) (sem : Sem K) (jaxpr : Jaxpr K) (consts : List (ND K)) (x y : ND K) : Prop :=
  ∃ vals o, NearRun ε sem jaxpr.eqns (evalInit jaxpr consts x) vals ∧ jaxpr.outvars = [o] ∧ getVal vals o = .ok y

/-- The functions a primitive carries as parameters (a convolution, the body of a `jit`, the implementation of a
primitive without a rule, which is executed on constants) accept and return shapes independently of the values. -/
def ShapeOnly : Prim K → Prop
  | .conv op => ∀ a a' b b' : ND K, a.shape = a'.shape → b.shape = b'.shape → ∀ r, op a b = .ok r →
      ∃ r', op a' b' = .ok r' ∧ r.shape = r'.shape
  | .jit body => ∀ a a' : ND K, a.shape = a'.shape → ∀ r, body a = .ok r → ∃ r', body a' = .ok r' ∧ r.shape = r'.shape
  | .other _ impl => ∀ args args' : List (ND K), List.Forall₂ (fun a a' => a.shape = a'.shape) args args' → ∀ rs,
      impl args = .ok rs → ∃ rs', impl args' = .ok rs' ∧ List.Forall₂ (fun a a' => a.shape = a'.shape) rs rs'
  | _ => True

end JB
end AB
