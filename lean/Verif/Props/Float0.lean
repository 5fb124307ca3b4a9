/-
C84: `taylor_bounds` with `max_degree = 0` (interval arithmetic) in rounded arithmetic.

C72 is about single operations.  Here a whole program is run with every operation rounded: for every point of the trust
region, the value that the program computes there, with the same roundings, lies between the returned bounds — provided
the program has no contraction (`dot_general`, convolution) and the tables of element-wise enclosures are right about the
computed functions.  Both provisos are needed: `C84_dot_counterexample`, `C84_builtin_counterexample`.
-/
import Verif.Proofs.Float03
import Verif.Props.FloatRef

set_option linter.unusedSectionVars false

namespace AB
open ND (scalar)

namespace JB
open TEA
section
variable {F : Type} [Zero F] [One F] [Add F] [Sub F] [Mul F] [Pow F ℤ] [Neg F] [Div F] [NatCast F] [LinearOrder F]

/-- **C84 (generators).** A scalar generator whose degree-0 interval contains the computed values of the function on the
region gives an element-wise generator with the property asked of the tables. -/
theorem C84_lift {f : F → F} {tc : ℕ → F → Py (List F)} {g : F → F → F → ℕ → Py (PE.SEncl F)}
    (h : ∀ x0 a b r, a ≤ x0 → x0 ≤ b → g x0 a b 0 = .ok r → ∀ x, a ≤ x → x ≤ b → r.2.1 ≤ f x ∧ f x ≤ r.2.2) :
    GenHolds0 (PE.liftGen tc g) f := by
  intro x0 lo hi e hs hx0 he
  have hx0s : x0.shape = lo.shape := hx0.1
  unfold PE.liftGen at he
  simp only [hx0s, bshape_self] at he
  simp only [py_bind_ok, py_pure] at he
  obtain ⟨ys, hys, rfl⟩ := he
  refine ⟨_, rfl, Coef.sameShape_iff.2 rfl, fun y hy => ⟨hy.1, fun I hI => ?_⟩⟩
  have hI' : ValidIdx lo.shape I := hI
  have hIh : ValidIdx hi.shape I := hs ▸ hI'
  have hIx : ValidIdx x0.shape I := hx0s.symm ▸ hI'
  obtain ⟨n, hn⟩ := List.mem_iff_getElem?.1 (mem_idx.2 hI')
  obtain ⟨r, hr⟩ : ∃ r, g (x0.get I) (lo.get I) (hi.get I) 0 = .ok r := by
    have hf := Poly.mapM_ok hys
    obtain ⟨r, -, hr⟩ := (Poly.forall₂_getElem? hf n).2 _ hn
    rw [ND.bget_valid _ hIx, ND.bget_valid _ hI', ND.bget_valid _ hIh] at hr
    exact ⟨r, hr⟩
  have hx := hx0.2 I hI'
  have hyI := hy.2 I hI'
  have := h _ _ _ _ hx.1 hx.2 hr (y.get I) hyI.1 hyI.2
  show (PE.finOf (g (x0.bget I) (lo.bget I) (hi.bget I) 0)).1 ≤ f (y.get I) ∧
    f (y.get I) ≤ (PE.finOf (g (x0.bget I) (lo.bget I) (hi.bget I) 0)).2
  rw [ND.bget_valid _ hIx, ND.bget_valid _ hI', ND.bget_valid _ hIh, hr]
  exact this

theorem bounds_of_holds (hR : RoundedArith F) (hF : UnitLaws F) {x' y l u : ND F} {b : Bounds F}
    (he : Holds0 y b.coefficients) (hl : b.lower x' = .ok l) (hu : b.upper x' = .ok u) :
    l.shape = y.shape ∧ u.shape = y.shape ∧ ∀ I, ValidIdx y.shape I → l.get I ≤ y.get I ∧ y.get I ≤ u.get I := by
  have key : ∀ r, b.call x' = .ok r → r.Holds y := by
    intro r hr
    unfold Bounds.call at hr
    simp only [py_bind_ok] at hr
    obtain ⟨z, -, hr⟩ := hr
    exact eval_holds hR hF he hr
  unfold Bounds.lower at hl
  unfold Bounds.upper at hu
  simp only [py_bind_ok, py_pure] at hl hu
  obtain ⟨r, hr, rfl⟩ := hl
  obtain ⟨r', hr', rfl⟩ := hu
  rw [hr] at hr'
  cases hr'
  have hH := key r hr
  cases r with
  | arr a =>
    have := Coef.holds_arr_iff.1 hH
    exact ⟨this.1, this.1, fun I hI => ⟨(this.2 I (this.1 ▸ hI)).le, (this.2 I (this.1 ▸ hI)).ge⟩⟩
  | ivl a c =>
    have h1 : y.shape = a.shape := hH.2.1
    exact ⟨h1.symm, (h1.trans hH.1).symm, fun I hI => hH.2.2 I (show ValidIdx a.shape I from h1 ▸ hI)⟩

/-- **C84.** `taylor_bounds` with `max_degree = 0` in rounded arithmetic: for every `x` in the trust region the *computed*
value `f(x)` lies, entry by entry, between the returned lower and upper bound, evaluated anywhere (`x'`). -/
theorem C84_degree0_sound (hR : RoundedArith F) (hF : UnitLaws F) {lib : Lib F} {sem : Sem F} (hlib : LibHolds0 lib sem)
    {jaxpr : Jaxpr F} {consts : List (ND F)} {propagate : Bool} {x0 lo hi x x' y l u : ND F} {b : Bounds F}
    (hs : lo.shape = hi.shape) (hxr : (Coef.ivl lo hi).Contains x)
    (hx : EqnsExact sem (evalInit jaxpr consts x) jaxpr.eqns) (hsafe : ∀ eqn ∈ jaxpr.eqns, Safe0 eqn.prim)
    (h : taylorBounds lib jaxpr consts 0 propagate x0 lo hi = .ok b)
    (hy : evalJaxpr sem jaxpr consts x = .ok y)
    (hl : b.lower x' = .ok l) (hu : b.upper x' = .ok u) :
    l.shape = y.shape ∧ u.shape = y.shape ∧ ∀ I, ValidIdx y.shape I → l.get I ≤ y.get I ∧ y.get I ≤ u.get I := by
  exact bounds_of_holds hR hF (holds_bounds hR hF hlib hs hxr hx (fun e he => Or.inl (hsafe e he)) h hy) hl hu

/-- **C84 (`final_interval`).** The interval `final_interval` returns contains the computed value of `f` at every point of
the trust region. -/
theorem C84_final_interval (hR : RoundedArith F) (hF : UnitLaws F) {lib : Lib F} {sem : Sem F} (hlib : LibHolds0 lib sem)
    {jaxpr : Jaxpr F} {consts : List (ND F)} {propagate : Bool} {x0 lo hi x y : ND F} {b : Bounds F}
    (hs : lo.shape = hi.shape) (hxr : (Coef.ivl lo hi).Contains x)
    (hx : EqnsExact sem (evalInit jaxpr consts x) jaxpr.eqns) (hsafe : ∀ eqn ∈ jaxpr.eqns, Safe0 eqn.prim)
    (h : taylorBounds lib jaxpr consts 0 propagate x0 lo hi = .ok b)
    (hy : evalJaxpr sem jaxpr consts x = .ok y) :
    ∃ p q, b.finalInterval = .ok (p, q) ∧ p.shape = y.shape ∧ q.shape = y.shape ∧
      ∀ I, ValidIdx y.shape I → p.get I ≤ y.get I ∧ y.get I ≤ q.get I := by
  obtain ⟨c, hc, hH⟩ := holds_bounds hR hF hlib hs hxr hx (fun e he => Or.inl (hsafe e he)) h hy
  unfold Bounds.finalInterval
  rw [hc]
  cases c with
  | arr a =>
    have := Coef.holds_arr_iff.1 hH
    exact ⟨a, a, rfl, this.1, this.1, fun I hI => ⟨(this.2 I (this.1 ▸ hI)).le, (this.2 I (this.1 ▸ hI)).ge⟩⟩
  | ivl a c =>
    have h1 : y.shape = a.shape := hH.2.1
    exact ⟨a, c, rfl, h1.symm, (h1.trans hH.1).symm, fun I hI => hH.2.2 I (show ValidIdx a.shape I from h1 ▸ hI)⟩

/-- **C84.** Hence the bounds do not cross, if the program has a value at some point of the trust region. -/
theorem C84_lower_le_upper (hR : RoundedArith F) (hF : UnitLaws F) {lib : Lib F} {sem : Sem F}
    (hlib : LibHolds0 lib sem) {jaxpr : Jaxpr F} {consts : List (ND F)} {propagate : Bool} {x0 lo hi x x' y l u : ND F}
    {b : Bounds F} (hs : lo.shape = hi.shape) (hxr : (Coef.ivl lo hi).Contains x)
    (hx : EqnsExact sem (evalInit jaxpr consts x) jaxpr.eqns) (hsafe : ∀ eqn ∈ jaxpr.eqns, Safe0 eqn.prim)
    (h : taylorBounds lib jaxpr consts 0 propagate x0 lo hi = .ok b)
    (hy : evalJaxpr sem jaxpr consts x = .ok y)
    (hl : b.lower x' = .ok l) (hu : b.upper x' = .ok u) :
    l.shape = u.shape ∧ ∀ I, ValidIdx l.shape I → l.get I ≤ u.get I := by
  obtain ⟨h1, h2, h3⟩ := C84_degree0_sound hR hF hlib hs hxr hx hsafe h hy hl hu
  exact ⟨h1.trans h2.symm, fun I hI => (h3 I (h1 ▸ hI)).1.trans (h3 I (h1 ▸ hI)).2⟩

end

/-! ### An example with actual rounding, and what fails -/

instance {K : Type} [Field K] [LinearOrder K] {rd : K → K} {h : IsRounding rd} : Pow (Rounded h) ℕ :=
  ⟨fun a n => Rounded.round h (a.1 ^ n)⟩

section
open Rounded

theorem F4_rounded : RoundedArith F4 := C72_rounding rd4_rounding

/-- The computed function of the primitive "half". -/
def halfF (x : F4) : F4 := x * r4 (1 / 2)

theorem halfF_mono {x y : F4} (h : x ≤ y) : halfF x ≤ halfF y :=
  F4_rounded.mul_le_right h (by decide +kernel)

/-- A generator for "half" that evaluates the end points. -/
def halfRange : TEA.Generator F4 :=
  PE.liftGen (fun _ _ => .ok []) fun _ a b d =>
    if d = 0 then .ok ([], (halfF a, halfF b)) else .error .notImplemented

/-- The generator the library has for a monotonically increasing function
(`sharp_enclosure_monotonic_derivative`, primitive_enclosures.py:203-241), at degree 0. -/
def halfSharp : TEA.Generator F4 :=
  PE.liftGen (fun _ x => .ok [halfF x]) fun x0 a b d =>
    if d = 0 then PE.sharpMonotonic x0 0 a b halfF [halfF x0] true else .error .notImplemented

def half0Sem : Sem F4 := ⟨fun n => if n = "half" then some halfF else none, fun _ _ => 1⟩

def half0Lib (g : TEA.Generator F4) : Lib F4 :=
  ⟨half0Sem, fun n => if n = "half" then some g else none, fun _ _ _ _ => .error .notImplemented, fun _ => .int 0⟩

theorem half0Lib_holds : LibHolds0 (half0Lib halfRange) half0Sem where
  fn _ _ h := h
  semPow := rfl
  gen name g f hg hf := by
    replace hg : (if name = "half" then some halfRange else none) = some g := hg
    replace hf : (if name = "half" then some halfF else none) = some f := hf
    split_ifs at hg hf
    cases hg; cases hf
    refine C84_lift fun x0 a b r _ _ hr x hax hxb => ?_
    rw [if_pos rfl] at hr
    cases hr
    exact ⟨halfF_mono hax, halfF_mono hxb⟩
  recip y hy := fun _ _ _ _ _ _ h => by cases h
  pow c h := absurd (h 0 rfl) (by omega)
  pow_zero _ _ _ := rfl

/-- `f(x) = sum over a window of (half(x * x) - x) * c`, on vectors of length 2. -/
def exHalf : Jaxpr F4 :=
  ⟨[1], [0], [.var 6],
    [⟨.mul, [.var 0, .var 0], [2]⟩, ⟨.elementwise "half", [.var 2], [3]⟩, ⟨.sub, [.var 3, .var 0], [4]⟩,
     ⟨.mul, [.var 4, .var 1], [5]⟩, ⟨.reduceSum [0], [.var 5], [6]⟩]⟩
def exHalfC : ND F4 := scalar (r4 (5 / 4))
def exHalfLo : ND F4 := ⟨[2], fun _ => r4 (-1)⟩
def exHalfHi : ND F4 := ⟨[2], fun _ => r4 (7 / 4)⟩

theorem exHalf_safe : ∀ eqn ∈ exHalf.eqns, Safe0 eqn.prim := by
  intro eqn h
  simp only [exHalf, List.mem_cons, List.not_mem_nil, or_false] at h
  rcases h with rfl | rfl | rfl | rfl | rfl <;> trivial

theorem exHalf_exact (x : ND F4) : EqnsExact half0Sem (evalInit exHalf [exHalfC] x) exHalf.eqns :=
  ⟨fun _ _ => trivial, fun _ _ => ⟨fun _ _ => trivial, fun _ _ => ⟨fun _ _ => trivial, fun _ _ =>
    ⟨fun _ _ => trivial, fun _ _ => ⟨fun _ _ => trivial, fun _ _ => trivial⟩⟩⟩⟩⟩

/-- the value at `x`, and the bounds -/
def exHalfRun (x : ND F4) : Py (ℚ × ℚ × ℚ) := do
  let b ← taylorBounds (half0Lib halfRange) exHalf [exHalfC] 0 false exHalfLo exHalfLo exHalfHi
  return (((← evalJaxpr half0Sem exHalf [exHalfC] x).get []).1, ((← b.lower x).get []).1, ((← b.upper x).get []).1)

/-- The theorem applies to a run in which operations round: the bounds are `-8` and `6`, the values computed at the two
ends of the trust region are `7/2` and `-1` (the exact one at the upper end is `-35/64`). -/
theorem exHalf_run : exHalfRun exHalfLo = .ok (7 / 2, -8, 6) ∧ exHalfRun exHalfHi = .ok (-1, -8, 6) := by
  constructor <;> decide +kernel

theorem exHalf_sound {b : Bounds F4} {x x' y l u : ND F4} (hx : (Coef.ivl exHalfLo exHalfHi).Contains x)
    (h : taylorBounds (half0Lib halfRange) exHalf [exHalfC] 0 false exHalfLo exHalfLo exHalfHi = .ok b)
    (hy : evalJaxpr half0Sem exHalf [exHalfC] x = .ok y) (hl : b.lower x' = .ok l)
    (hu : b.upper x' = .ok u) :
    l.shape = y.shape ∧ u.shape = y.shape ∧ ∀ I, ValidIdx y.shape I → l.get I ≤ y.get I ∧ y.get I ≤ u.get I :=
  C84_degree0_sound (lo := exHalfLo) (hi := exHalfHi) F4_rounded F4_laws half0Lib_holds rfl hx (exHalf_exact x) exHalf_safe h hy hl hu

/-- `f(x) = half(x)`. -/
def exSharp : Jaxpr F4 := ⟨[], [0], [.var 1], [⟨.elementwise "half", [.var 0], [1]⟩]⟩

/-- the value at the upper end of the trust region `[1/2, 20]`, and the bounds -/
def exSharpRun (g : TEA.Generator F4) : Py (ℚ × ℚ × ℚ) := do
  let lo : ND F4 := scalar (r4 (1 / 2))
  let hi : ND F4 := scalar (r4 20)
  let b ← taylorBounds (half0Lib g) exSharp [] 0 false lo lo hi
  return (((← evalJaxpr half0Sem exSharp [] hi).get []).1, ((← b.lower hi).get []).1, ((← b.upper hi).get []).1)

/-- **C84 (counterexample).** The library's own generator for a monotone function is not right about the computed
function, even at degree 0: it returns `f(x0) + (f(b) - f(x0))` for the upper end
(primitive_enclosures.py:277-305), which rounds to something below `f(b)`.  With the computed function monotone
and trust region `[1/2, 20]` the upper bound is `8` and the computed value at `20` is `10`; a generator that returns
`(f(a), f(b))` gives the right bounds. -/
theorem C84_builtin_counterexample : RoundedArith F4 ∧ UnitLaws F4 ∧ (∀ x y, x ≤ y → halfF x ≤ halfF y) ∧
    (∀ eqn ∈ exSharp.eqns, Safe0 eqn.prim) ∧ exSharpRun halfSharp = .ok (10, 1 / 4, 8) ∧
    exSharpRun halfRange = .ok (10, 1 / 4, 10) := by
  refine ⟨F4_rounded, F4_laws, fun _ _ h => halfF_mono h, fun eqn h => ?_, by decide +kernel, by decide +kernel⟩
  simp only [exSharp, List.mem_cons, List.not_mem_nil, or_false] at h
  subst h
  trivial

def vec3 (a b c : ℚ) : ND F4 :=
  ⟨[3], fun I => match I with | [0] => r4 a | [1] => r4 b | _ => r4 c⟩

/-- `f(x) = dot(c, x)`. -/
def exDot : Jaxpr F4 := ⟨[1], [0], [.var 2], [⟨.dotGeneral [0] [0] [] [], [.var 1, .var 0], [2]⟩]⟩

/-- the value at `x` and the bounds for the trust region that consists of `x` only -/
def exDotRun (c x : ND F4) : Py (ℚ × ℚ × ℚ) := do
  let b ← taylorBounds (half0Lib halfRange) exDot [c] 0 false x x x
  return (((← evalJaxpr half0Sem exDot [c] x).get []).1, ((← b.lower x).get []).1, ((← b.upper x).get []).1)

/-- **C84 (counterexample).** Contractions are excluded for a reason: for `f(x) = [1/2, -4, 4] · x` at `x = [1, 1, 1]` the
computed value is `1/2` and both bounds are `0`. -/
theorem C84_dot_counterexample : RoundedArith F4 ∧ UnitLaws F4 ∧ LibHolds0 (half0Lib halfRange) half0Sem ∧
    exDotRun (vec3 (1 / 2) (-4) 4) (vec3 1 1 1) = .ok (1 / 2, 0, 0) :=
  ⟨F4_rounded, F4_laws, half0Lib_holds, by decide +kernel⟩

/-- `f(x) = dot(x, x * c)`. -/
def exCross : Jaxpr F4 :=
  ⟨[1], [0], [.var 3], [⟨.mul, [.var 0, .var 1], [2]⟩, ⟨.dotGeneral [0] [0] [] [], [.var 0, .var 2], [3]⟩]⟩

/-- the end points of the returned `final_interval`, for the trust region that consists of `x` only -/
def exCrossRun (c x : ND F4) : Py (ℚ × ℚ) := do
  let b ← taylorBounds (half0Lib halfRange) exCross [c] 0 false x x x
  let fi ← b.finalInterval
  return ((fi.1.get []).1, (fi.2.get []).1)

/-- **C84 (counterexample).** With a contraction of two intervals the returned interval can even have its end points in
the wrong order, because the two sums are added up in different orders (interval_arithmetic.py:117-133): for
`f(x) = x · (x * [6, -4, -4])` at `x = [1, 1, -1/4]` the `final_interval` is `(7/4, 0)`. -/
theorem C84_crossing_counterexample : RoundedArith F4 ∧ UnitLaws F4 ∧
    LibHolds0 (half0Lib halfRange) half0Sem ∧
    exCrossRun (vec3 6 (-4) (-4)) (vec3 1 1 (-1 / 4)) = .ok (7 / 4, 0) :=
  ⟨F4_rounded, F4_laws, half0Lib_holds, by decide +kernel⟩

end
end JB
end AB
