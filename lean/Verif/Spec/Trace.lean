/-
Specification for C79: what it means that a call depends on the shapes of its arguments only.
-/
import Verif.Model.JaxBound

namespace AB
variable {K : Type}

/-- The same kind of coefficient (an array, or an interval), with the same shapes. -/
inductive SameForm : Coef K → Coef K → Prop
  | arr {a b : ND K} : a.shape = b.shape → SameForm (.arr a) (.arr b)
  | ivl {a0 a1 b0 b1 : ND K} : a0.shape = b0.shape → a1.shape = b1.shape → SameForm (.ivl a0 a1) (.ivl b0 b1)

/-- Both calls return and the results are related by `R`, or both raise the same exception.  If `U` holds, nothing
is claimed when one of the two calls leaves the model because the code computes an infinity or NaN. -/
def SameOutcome (U : Prop) {A B : Type} (R : A → B → Prop) (x : Py A) (y : Py B) : Prop :=
  (∃ a b, x = .ok a ∧ y = .ok b ∧ R a b) ∨ (∃ e, x = .error e ∧ y = .error e) ∨
    (U ∧ (x = .error .unmodelled ∨ y = .error .unmodelled))

namespace JB
variable [Field K] [LinearOrder K]

/-- An enclosure generator whose outcome depends on the shapes of its arguments only. -/
def GenShape (U : Prop) (g : TEA.Generator K) : Prop :=
  ∀ (x0 x0' : ND K) (r r' : ND K × ND K) (d : ℕ), x0.shape = x0'.shape → r.1.shape = r'.1.shape →
    r.2.shape = r'.2.shape → SameOutcome U (List.Forall₂ SameForm) (g x0 r d) (g x0' r' d)

/-- The condition on a primitive of the program: the functions it carries as parameters (a convolution, the body of a
`jit`) and the enclosure generators used for it accept and return shapes independently of the values.  Most
primitives (arithmetic, `integer_pow` with an exponent `≥ 0`, `dot_general`, `reshape`, ...) need no condition. -/
def PrimShape (U : Prop) (lib : Lib K) : Prim K → Prop
  | .conv op => ∀ a a' b b' : ND K, a.shape = a'.shape → b.shape = b'.shape →
      SameOutcome False (fun r r' => r.shape = r'.shape) (op a b) (op a' b')
  | .jit body => ∀ a a' : ND K, a.shape = a'.shape →
      SameOutcome False (fun r r' => r.shape = r'.shape) (body a) (body a')
  | .elementwise name => ∀ g, lib.gen name = some g → GenShape U g
  | .div => GenShape U (lib.powGen (.int (-1)))
  | .integerPow y => y < 0 → GenShape U (lib.powGen (.int y))
  | .pow => ∀ p, GenShape U (lib.powGen p)
  | _ => True

end JB
end AB
