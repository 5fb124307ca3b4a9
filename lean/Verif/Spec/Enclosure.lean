/-
Specification vocabulary for Taylor enclosures (/repo/autobound/types.py:16-64): what it means for
an array to lie in an enclosure at a point.
-/
import Verif.Spec.Contains
import Verif.Model.Enclosure

namespace AB
variable {K : Type}

/-- `y` lies in `c` after numpy broadcasting of `c` to the shape of `y`. -/
def Coef.Covers [LE K] (c : Coef K) (y : ND K) : Prop :=
  bshape c.shape y.shape = some y.shape ∧
    ∀ I, ValidIdx y.shape I → c.AtIdx (bidx c.shape I) (y.get I)

/-- All coefficients are well formed: `(lo, hi)` pairs of equal shapes with `lo ≤ hi`. -/
def WellFormedEncl [LE K] (E : Encl K) : Prop := ∀ c ∈ E, c.WellFormed

section
variable [Field K] [LinearOrder K]

/-- `y` lies in the set `eval_taylor_enclosure(E, z)`. -/
def Encloses (E : Encl K) (z y : ND K) : Prop :=
  ∃ r, Poly.evalTaylorEnclosure E (.arr z) = .ok r ∧ r.Covers y

/-- `y` lies in the set `eval_elementwise_taylor_enclosure(e, δ)`. -/
def ElemEncloses (e : Encl K) (δ y : ND K) : Prop :=
  ∃ r, Poly.evalElementwiseTaylorEnclosure e (.arr δ) = .ok r ∧ r.Covers y
end

/-- The `i` consecutive groups of `k` entries of a multi-index (the indices of the `i` copies of
`x` that a degree-`i` coefficient is contracted with). -/
def groups (k : ℕ) : ℕ → List ℕ → List (List ℕ)
  | 0, _ => []
  | i + 1, J => J.take k :: groups k i (J.drop k)

section
variable [CommSemiring K]
/-- The entry at `J` of the `i`-fold outer power of `z`: the product of the `i` entries of `z`. -/
def monomialAt (z : ND K) (i : ℕ) (J : List ℕ) : K := ((groups z.shape.length i J).map z.get).prod

/-- `sum_{i<n} <w_i, z^i>`: the value at `z` of the polynomial with coefficients `w` (types.py:24-28).
`w i` has the shape `i*z.shape`. -/
def polyValue (z : ND K) (n : ℕ) (w : ℕ → List ℕ → K) : K :=
  ((List.range n).map fun i =>
    ((idx (List.replicate i z.shape).flatten).map fun J => w i J * monomialAt z i J).sum).sum
end

/-- `w` chooses, for output index `I`, one value inside every entry of every coefficient of `E`. -/
def Chooses [LE K] (xs : List ℕ) (E : Encl K) (I : List ℕ) (w : ℕ → List ℕ → K) : Prop :=
  ∀ i c, E[i]? = some c → ∀ J, ValidIdx (List.replicate i xs).flatten J →
    c.AtIdx (bidx c.shape (I ++ J)) (w i J)

/-- The documented contract of `pairwise_batched_bilinear` (enclosure_arithmetic.py:108-126) for an
underlying bilinear operation taking arrays of shapes `Ra`, `Rb` to arrays of shape `Rc`, whose value
at index `L` is the sum over `(w, α, β) ∈ terms L` of `w * u[α] * v[β]`; `xs` is the shape of `x`. -/
def PairwiseContract [Semiring K] (xs Ra Rb Rc : List ℕ)
    (terms : List ℕ → List (K × List ℕ × List ℕ)) (pbb : ND K → ND K → ℕ → ℕ → Py (ND K)) : Prop :=
  (∀ L, ValidIdx Rc L → ∀ t ∈ terms L, ValidIdx Ra t.2.1 ∧ ValidIdx Rb t.2.2) ∧
  ∀ (i j : ℕ) (P Q : List ℕ) (u v s : ND K), P = (List.replicate i xs).flatten →
    Q = (List.replicate j xs).flatten → u.shape = Ra ++ P → v.shape = Rb ++ Q →
    pbb u v (i * xs.length) (j * xs.length) = .ok s →
    s.shape = Rc ++ P ++ Q ∧ ∀ L I J, ValidIdx Rc L → ValidIdx P I → ValidIdx Q J →
      s.get (L ++ I ++ J) =
        ((terms L).map fun t => t.1 * (u.get (t.2.1 ++ I) * v.get (t.2.2 ++ J))).sum

/-- Every coefficient of `E` has exactly the batch shape `R` (its shape is `R` followed by `i` copies
of the shape of `x`). -/
def ExactBatch (xs R : List ℕ) (E : Encl K) : Prop :=
  ∀ i c, E[i]? = some c → c.shape = R ++ (List.replicate i xs).flatten

/-- Every coefficient of `E` has a batch shape of rank `n`; the degree-0 coefficient may also be a
scalar. -/
def UniformBatch (xs : List ℕ) (n : ℕ) (E : Encl K) : Prop :=
  ∀ i c, E[i]? = some c → c.ndim = n + i * xs.length ∨ (i = 0 ∧ c.shape = [])

/-- What `get_elementwise_fun` expects of an element-wise enclosure generator
(enclosure_arithmetic.py:264-270) for the function `f` with domain `D`: whenever the trust region
`[lo, hi]` contains `x0` and lies inside `D`, what the generator returns is a well-formed element-wise
enclosure of degree at most `d` that contains `f(y)` at `y - x0` for every `y` in the trust region. -/
def SoundGenerator [Field K] [LinearOrder K] (f : K → K) (D : K → Prop) (gen : TEA.Generator K) :
    Prop :=
  ∀ (x0 lo hi : ND K) (d : ℕ) (e : Encl K) (R : List ℕ), lo.shape = hi.shape →
    bshape x0.shape lo.shape = some R → (∃ I, ValidIdx R I) →
    (∀ I, ValidIdx R I → lo.bget I ≤ x0.bget I ∧ x0.bget I ≤ hi.bget I) →
    (∀ I, ValidIdx R I → ∀ v, lo.bget I ≤ v → v ≤ hi.bget I → D v) →
    gen x0 (lo, hi) d = .ok e →
    e ≠ [] ∧ e.length ≤ d + 1 ∧ WellFormedEncl e ∧
    (∀ c ∈ e, c.shape = [] ∨ c.shape = x0.shape ∨ c.shape = lo.shape ∨ c.shape = R) ∧
    ∀ y δ : ND K, bshape R y.shape = some y.shape →
      (∀ I, ValidIdx y.shape I → lo.bget I ≤ y.get I ∧ y.get I ≤ hi.bget I) →
      ND.map2 (· - ·) y x0 = .ok δ → ElemEncloses e δ (y.map f)

/-- `y` can be the value at `z` of an argument whose expansion point is `x0`, when enclosures of degree `d` are asked
for: some well-formed enclosure contains `y` at `z` and its degree-0 coefficient is the array `x0` (or, if `d` is 0,
an interval with lower end point `x0`). -/
def Reached [Field K] [LinearOrder K] (z : ND K) (d : ℕ) (x0 y : ND K) : Prop :=
  ∃ arg : Encl K, WellFormedEncl arg ∧ Encloses arg z y ∧
    ∃ a0, arg[0]? = some a0 ∧ (a0 = .arr x0 ∨ (d = 0 ∧ ∃ h, a0 = .ivl x0 h))

/-- `SoundGenerator`, for the values at the single point `z` only. -/
def SoundGeneratorAt [Field K] [LinearOrder K] (z : ND K) (f : K → K) (D : K → Prop) (gen : TEA.Generator K) :
    Prop :=
  ∀ (x0 lo hi : ND K) (d : ℕ) (e : Encl K) (R : List ℕ), lo.shape = hi.shape →
    bshape x0.shape lo.shape = some R → (∃ I, ValidIdx R I) →
    (∀ I, ValidIdx R I → lo.bget I ≤ x0.bget I ∧ x0.bget I ≤ hi.bget I) →
    (∀ I, ValidIdx R I → ∀ v, lo.bget I ≤ v → v ≤ hi.bget I → D v) →
    gen x0 (lo, hi) d = .ok e →
    e ≠ [] ∧ e.length ≤ d + 1 ∧ WellFormedEncl e ∧
    (∀ c ∈ e, c.shape = [] ∨ c.shape = x0.shape ∨ c.shape = lo.shape ∨ c.shape = R) ∧
    ∀ y δ : ND K, Reached z d x0 y → bshape R y.shape = some y.shape →
      (∀ I, ValidIdx y.shape I → lo.bget I ≤ y.get I ∧ y.get I ≤ hi.bget I) →
      ND.map2 (· - ·) y x0 = .ok δ → ElemEncloses e δ (y.map f)

theorem SoundGenerator.at [Field K] [LinearOrder K] {f : K → K} {D : K → Prop} {gen : TEA.Generator K}
    (h : SoundGenerator f D gen) (z : ND K) : SoundGeneratorAt z f D gen := by
  intro x0 lo hi d e R h1 h2 h3 h4 h5 h6
  obtain ⟨k1, k2, k3, k4, k5⟩ := h x0 lo hi d e R h1 h2 h3 h4 h5 h6
  exact ⟨k1, k2, k3, k4, fun y δ _ => k5 y δ⟩

/-- `g` is a linear operation taking arrays of shape `Ra` to arrays of shape `Rc`, whose value at index
`L` is the sum over `(w, α) ∈ terms L` of `w * u[α]`; on arrays with `i` additional copies of the axes of
`x` at the end it does the same for every index of the additional axes. -/
def LinearContract [Semiring K] (xs Ra Rc : List ℕ) (terms : List ℕ → List (K × List ℕ))
    (g : ND K → Py (ND K)) : Prop :=
  (∀ L, ValidIdx Rc L → ∀ t ∈ terms L, ValidIdx Ra t.2) ∧
  ∀ (i : ℕ) (u s : ND K), u.shape = Ra ++ (List.replicate i xs).flatten → g u = .ok s →
    s.shape = Rc ++ (List.replicate i xs).flatten ∧
    ∀ L J, ValidIdx Rc L → ValidIdx (List.replicate i xs).flatten J →
      s.get (L ++ J) = ((terms L).map fun t => t.1 * u.get (t.2 ++ J)).sum

/-- A usable enclosure of the value `y` at `z`: non-empty, well formed, contains `y`, and all coefficients
have exactly the batch shape `y.shape`. -/
structure GoodEncl [Field K] [LinearOrder K] (E : Encl K) (z y : ND K) : Prop where
  ne : E ≠ []
  wf : WellFormedEncl E
  encl : Encloses E z y
  exact : ExactBatch z.shape y.shape E

/-- An enclosure of the value `y` at `z` as the interpreter keeps it: non-empty, well formed, contains `y`,
and its constant term has exactly the shape of `y` (coefficients of higher degree may have a smaller batch
shape, since `TaylorEnclosureArithmetic.add` does not broadcast coefficients that only one operand has). -/
structure SoundEncl [Field K] [LinearOrder K] (E : Encl K) (z y : ND K) : Prop where
  ne : E ≠ []
  wf : WellFormedEncl E
  encl : Encloses E z y
  head : ∀ c, E[0]? = some c → c.shape = y.shape

/-- The constant term returned by the generator has at least the shape of `x0` (up to broadcasting). -/
def KeepsShape (gen : TEA.Generator K) : Prop :=
  ∀ x0 tr d e, gen x0 tr d = .ok e → ∃ c, e[0]? = some c ∧ bshape x0.shape c.shape = some c.shape

end AB
