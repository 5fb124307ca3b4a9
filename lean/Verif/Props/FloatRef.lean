/-
C83: in rounded arithmetic the bounds are exact at the reference point.

C44 says that `lower(x0) = upper(x0) = f(x0)` in exact arithmetic.  Here the operations of the number type are only
assumed to treat 0 and 1 exactly (`UnitLaws`, Spec/FloatRef.lean): no associativity, no distributivity.  `f(x0)` is the
value the program itself computes in the same arithmetic, bit for bit.
-/
import Verif.Proofs.FloatRef3
import Verif.Props.Rounding

set_option linter.unusedSectionVars false

namespace AB
open ND (scalar)

/-! ### Rounded arithmetic has the unit laws -/

namespace Rounded
variable {K : Type} [Field K] [LinearOrder K] {rd : K → K} {h : IsRounding rd}

instance : Div (Rounded h) := ⟨fun a b => round h (a.1 / b.1)⟩
instance : NatCast (Rounded h) := ⟨fun n => round h n⟩

end Rounded

/-- **C83 (instances).** The representable numbers of any rounding that keeps 0 and 1 and whose format is symmetric
(if `x` is representable, so is `-x`) have the laws; the rounding direction does not matter. -/
theorem C83_rounding {K : Type} [Field K] [LinearOrder K] {rd : K → K} (h : IsRounding rd)
    (hsym : ∀ x, rd x = x → rd (-x) = -x) : UnitLaws (Rounded h) where
  zero_add a := Subtype.ext (show rd (0 + a.1) = a.1 by rw [zero_add, a.2])
  add_zero a := Subtype.ext (show rd (a.1 + 0) = a.1 by rw [add_zero, a.2])
  zero_mul a := Subtype.ext (show rd (0 * a.1) = 0 by rw [zero_mul, h.zero])
  mul_zero a := Subtype.ext (show rd (a.1 * 0) = 0 by rw [mul_zero, h.zero])
  one_mul a := Subtype.ext (show rd (1 * a.1) = a.1 by rw [one_mul, a.2])
  mul_one a := Subtype.ext (show rd (a.1 * 1) = a.1 by rw [mul_one, a.2])
  sub_self a := Subtype.ext (show rd (a.1 - a.1) = 0 by rw [sub_self, h.zero])
  sub_eq a b := Subtype.ext (show rd (a.1 - b.1) = rd (a.1 + rd (-b.1)) by rw [hsym _ b.2, sub_eq_add_neg])
  zero_pow k hk := Subtype.ext (show rd ((0 : K) ^ k) = 0 by rw [zero_zpow k (by omega), h.zero])
  pow_zero a := Subtype.ext (show rd (a.1 ^ (0 : ℤ)) = 1 by rw [zpow_zero, h.one])
  pow_one a := Subtype.ext (show rd (a.1 ^ (1 : ℤ)) = a.1 by rw [zpow_one, a.2])
  pow_two a := Subtype.ext (show rd (a.1 ^ (2 : ℤ)) = rd (a.1 * a.1) by rw [zpow_two])
  natCast_one := Subtype.ext (show rd ((1 : ℕ) : K) = 1 by rw [Nat.cast_one, h.one])

/-- Exact arithmetic has the laws as well. -/
theorem C83_exact {K : Type} [Field K] : UnitLaws K where
  zero_add := zero_add
  add_zero := add_zero
  zero_mul := zero_mul
  mul_zero := mul_zero
  one_mul := one_mul
  mul_one := mul_one
  sub_self := sub_self
  sub_eq := sub_eq_add_neg
  zero_pow k hk := zero_zpow k (by omega)
  pow_zero := zpow_zero
  pow_one := zpow_one
  pow_two := zpow_two
  natCast_one := Nat.cast_one

namespace JB
open TEA
section
variable {F : Type} [Zero F] [One F] [Add F] [Sub F] [Mul F] [Pow F ℤ] [Neg F] [Div F] [NatCast F] [LinearOrder F]

/-- **C83 (generators).** An element-wise enclosure generator whose first scalar coefficient is the computed value of
the function has the property asked of the tables. -/
theorem C83_lift {f : F → F} {tc : ℕ → F → Py (List F)} {g : F → F → F → ℕ → Py (PE.SEncl F)}
    (h : ∀ d x, 1 ≤ d → ∃ l, tc d x = .ok (f x :: l)) : GenHead (PE.liftGen tc g) f := by
  intro x0 tr d e hd he
  unfold PE.liftGen at he
  split at he
  · cases he
  · simp only [py_bind_ok, py_pure] at he
    obtain ⟨_, -, rfl⟩ := he
    obtain ⟨d, rfl⟩ : ∃ m, d = m + 1 := ⟨d - 1, by omega⟩
    refine ⟨x0.map fun x => PE.coefOf 0 (tc (d + 1) x), _, by rw [List.range_succ_eq_map, List.map_cons]; rfl,
      rfl, fun I _ => ?_⟩
    obtain ⟨l, hl⟩ := h (d + 1) (x0.get I) hd
    show PE.coefOf 0 (tc (d + 1) (x0.get I)) = f (x0.get I)
    rw [hl]; rfl

/-- **C83.** In any arithmetic with the unit laws — in particular in floating point arithmetic, with every operation
rounded — the lower and the upper bound that `taylor_bounds` (with `max_degree ≥ 1`) returns are, at the reference
point `x0`, entry for entry the value `f(x0)` that the program computes in the same arithmetic.

`LibHead lib sem` asks that the enclosure generators start with the computed function value, `EqnsExact` restricts
division and integer powers (see there; without it the claim is false, `C83_div_counterexample`). -/
theorem C83_exact_at_x0 (hF : UnitLaws F) {lib : Lib F} {sem : Sem F} (hlib : LibHead lib sem) {jaxpr : Jaxpr F}
    {consts : List (ND F)} {md : ℤ} (hmd : 1 ≤ md) {propagate : Bool} {x0 lo hi y l u : ND F} {b : Bounds F}
    (hx : EqnsExact sem (evalInit jaxpr consts x0) jaxpr.eqns)
    (h : taylorBounds lib jaxpr consts md propagate x0 lo hi = .ok b)
    (hy : evalJaxpr sem jaxpr consts x0 = .ok y)
    (hl : b.lower x0 = .ok l) (hu : b.upper x0 = .ok u) : y.BroadcastOf l ∧ y.BroadcastOf u := by
  obtain ⟨hb, he⟩ := head_bounds hF hlib hmd hx h hy
  have key : ∀ r, b.call x0 = .ok r → BC y r := by
    intro r hr
    unfold Bounds.call at hr
    rw [hb] at hr
    simp only [py_bind_ok] at hr
    obtain ⟨z, hz, hr⟩ := hr
    refine eval_head hF ?_ he hr
    unfold ND.map2 at hz
    split at hz
    · cases hz
    · cases hz
      intro I
      exact hF.sub_self _
  unfold Bounds.lower at hl
  unfold Bounds.upper at hu
  simp only [py_bind_ok, py_pure] at hl hu
  obtain ⟨r, hr, rfl⟩ := hl
  obtain ⟨r', hr', rfl⟩ := hu
  exact ⟨(key r hr).1, (key r' hr').2⟩

/-- **C83.** When the bounds have the shape of the value, they are the value. -/
theorem C83_same_at_x0 (hF : UnitLaws F) {lib : Lib F} {sem : Sem F} (hlib : LibHead lib sem) {jaxpr : Jaxpr F}
    {consts : List (ND F)} {md : ℤ} (hmd : 1 ≤ md) {propagate : Bool} {x0 lo hi y l u : ND F} {b : Bounds F}
    (hx : EqnsExact sem (evalInit jaxpr consts x0) jaxpr.eqns)
    (h : taylorBounds lib jaxpr consts md propagate x0 lo hi = .ok b)
    (hy : evalJaxpr sem jaxpr consts x0 = .ok y)
    (hl : b.lower x0 = .ok l) (hu : b.upper x0 = .ok u) (hls : l.shape = y.shape) (hus : u.shape = y.shape) :
    l.Same y ∧ u.Same y := by
  obtain ⟨h1, h2⟩ := C83_exact_at_x0 hF hlib hmd hx h hy hl hu
  exact ⟨⟨hls, fun I hI => by rw [h1.2 I hI, ND.bget_valid _ (hls ▸ hI)]⟩,
    ⟨hus, fun I hI => by rw [h2.2 I hI, ND.bget_valid _ (hus ▸ hI)]⟩⟩

/-- **C83.** The constant coefficient of the returned enclosure is the computed value `f(x0)`, whatever the shapes. -/
theorem C83_constant_coefficient (hF : UnitLaws F) {lib : Lib F} {sem : Sem F} (hlib : LibHead lib sem)
    {jaxpr : Jaxpr F} {consts : List (ND F)} {md : ℤ} (hmd : 1 ≤ md) {propagate : Bool} {x0 lo hi y : ND F}
    {b : Bounds F} (hx : EqnsExact sem (evalInit jaxpr consts x0) jaxpr.eqns)
    (h : taylorBounds lib jaxpr consts md propagate x0 lo hi = .ok b)
    (hy : evalJaxpr sem jaxpr consts x0 = .ok y) : ∃ c rest, b.coefficients = .arr c :: rest ∧ c.Same y :=
  (head_bounds hF hlib hmd hx h hy).2

end

/-! ### An example with actual rounding, and what fails -/

section
open Rounded

/-- representable numbers of the 4-format -/
def r4 (x : ℚ) : F4 := round rd4_rounding x

theorem F4_laws : UnitLaws F4 := C83_rounding rd4_rounding fun x hx => by
  unfold rd4 at hx ⊢
  by_cases h : -4 < x ∧ x < 4
  · rw [if_pos h] at hx
    rw [if_pos ⟨by linarith [h.2], by linarith [h.1]⟩]
    have : 4 * -x = ((-⌊4 * x⌋ : ℤ) : ℚ) := by push_cast; linarith
    rw [this, Int.floor_intCast]
    push_cast
    linarith
  · rw [if_neg h] at hx
    rw [if_neg (fun h' => h ⟨by linarith [h'.2], by linarith [h'.1]⟩)]
    have : -x / 2 = ((-⌊x / 2⌋ : ℤ) : ℚ) := by push_cast; linarith
    rw [this, Int.floor_intCast]
    push_cast
    linarith

/-- An element-wise primitive "half" with its enclosure, and reciprocals. -/
def fltSem : Sem F4 := ⟨fun n => if n = "half" then some (· * r4 (1 / 2)) else none, fun _ _ => 1⟩

def halfGen : TEA.Generator F4 :=
  PE.liftGen (fun _ x => .ok [x * r4 (1 / 2), r4 (1 / 2)]) fun x _ _ d =>
    if d = 0 ∨ 2 < d then .error .notImplemented
    else if d = 1 then .ok ([x * r4 (1 / 2)], (r4 0, r4 (1 / 2)))
    else .ok ([x * r4 (1 / 2), r4 (1 / 2)], (r4 (-1 / 4), r4 (1 / 4)))

def recipGen : TEA.Generator F4 :=
  PE.liftGen (fun _ x => .ok [x ^ (-1 : ℤ), -(x ^ (-2 : ℤ))]) fun x _ _ _ => .ok ([x ^ (-1 : ℤ)], (r4 (-1), r4 0))

def fltLib : Lib F4 :=
  ⟨fltSem, fun n => if n = "half" then some halfGen else none,
    fun e => match e with
      | .int n => if n = -1 then recipGen else fun _ _ _ => .error .notImplemented
      | .frac _ => fun _ _ _ => .error .notImplemented,
    fun _ => .int 0⟩

theorem fltLib_head : LibHead fltLib fltSem where
  fn _ _ h := h
  semPow := rfl
  gen name g f hg hf := by
    replace hg : (if name = "half" then some halfGen else none) = some g := hg
    replace hf : (if name = "half" then some (· * r4 (1 / 2)) else none) = some f := hf
    split_ifs at hg hf
    cases hg; cases hf
    exact C83_lift fun d x hd => ⟨_, rfl⟩
  recip y hy := by
    by_cases h : y = -1
    · subst h
      show GenHead recipGen _
      exact C83_lift (f := fun x : F4 => x ^ (-1 : ℤ)) fun d x hd => ⟨_, rfl⟩
    · intro x0 tr d e _ he
      replace he : (if y = -1 then recipGen else fun _ _ _ => .error .notImplemented) x0 tr d = .ok e := he
      rw [if_neg h] at he
      cases he
  pow c h := absurd (h 0 rfl) (by omega)
  pow_zero _ _ _ := rfl

/-- `f(x) = (half(x * x) - x) * c`. -/
def exFlt : Jaxpr F4 :=
  ⟨[1], [0], [.var 5],
    [⟨.mul, [.var 0, .var 0], [2]⟩, ⟨.elementwise "half", [.var 2], [3]⟩, ⟨.sub, [.var 3, .var 0], [4]⟩,
     ⟨.mul, [.var 4, .var 1], [5]⟩]⟩
def exFltC : ND F4 := scalar (r4 (5 / 4))
def exFltX0 : ND F4 := scalar (r4 (7 / 4))
def exFltLo : ND F4 := scalar (r4 1)
def exFltHi : ND F4 := scalar (r4 2)

theorem exFlt_exact : EqnsExact fltSem (evalInit exFlt [exFltC] exFltX0) exFlt.eqns :=
  ⟨fun _ _ => trivial, fun _ _ => ⟨fun _ _ => trivial, fun _ _ => ⟨fun _ _ => trivial, fun _ _ =>
    ⟨fun _ _ => trivial, fun _ _ => trivial⟩⟩⟩⟩

/-- the value, lower bound and upper bound at a point -/
def exFltRun (x : ND F4) : Py (ℚ × ℚ × ℚ) := do
  let b ← taylorBounds fltLib exFlt [exFltC] 2 false exFltX0 exFltLo exFltHi
  return (((← evalJaxpr fltSem exFlt [exFltC] x).get []).1, ((← b.lower x).get []).1, ((← b.upper x).get []).1)

/-- The theorem applies to a run in which operations round (the exact value of the program at `x0` is `-35/128`, the
computed one is `-1/2`), and away from `x0` the bounds differ from each other. -/
theorem exFlt_run : exFltRun exFltX0 = .ok (-1 / 2, -1 / 2, -1 / 2) ∧ exFltRun exFltLo = .ok (-3 / 4, -3, 3 / 4) := by
  constructor <;> decide +kernel

theorem exFlt_at_x0 {b : Bounds F4} {y l u : ND F4}
    (h : taylorBounds fltLib exFlt [exFltC] 2 false exFltX0 exFltLo exFltHi = .ok b)
    (hy : evalJaxpr fltSem exFlt [exFltC] exFltX0 = .ok y) (hl : b.lower exFltX0 = .ok l)
    (hu : b.upper exFltX0 = .ok u) : y.BroadcastOf l ∧ y.BroadcastOf u :=
  C83_exact_at_x0 F4_laws fltLib_head (by omega) exFlt_exact h hy hl hu

/-- **C83 (counterexample).** Away from `x0` the bounds of a run in rounded arithmetic need not contain the computed
value: at `x = 2` the program above computes `0` and both bounds are `-1/2`. -/
theorem C83_away_counterexample : UnitLaws F4 ∧ LibHead fltLib fltSem ∧
    EqnsExact fltSem (evalInit exFlt [exFltC] exFltX0) exFlt.eqns ∧ exFltRun exFltHi = .ok (0, -1 / 2, -1 / 2) :=
  ⟨F4_laws, fltLib_head, exFlt_exact, by decide +kernel⟩

/-- `f(x) = 3 / x`. -/
def exDiv : Jaxpr F4 := ⟨[1], [0], [.var 2], [⟨.div, [.var 1, .var 0], [2]⟩]⟩

/-- `(f(x0), lower(x0), upper(x0))` at `x0 = 3` with trust region `[1, 4]` and degree 1 -/
def exDivRun : Py (ℚ × ℚ × ℚ) := do
  let x0 : ND F4 := scalar (r4 3)
  let b ← taylorBounds fltLib exDiv [scalar (r4 3)] 1 false x0 (scalar (r4 1)) (scalar (r4 4))
  return (((← evalJaxpr fltSem exDiv [scalar (r4 3)] x0).get []).1, ((← b.lower x0).get []).1,
    ((← b.upper x0).get []).1)

/-- **C83 (counterexample).** Division is bounded as the multiplication by a reciprocal
(enclosure_arithmetic.py:259-262), which rounds differently: for `f(x) = 3 / x` at `x0 = 3` both bounds are `3/4` while
`f(x0) = 1`, so that the upper bound is below the computed value at the reference point itself.  The tables meet
`LibHead` and the arithmetic meets `UnitLaws`; only the condition on division fails. -/
theorem C83_div_counterexample : UnitLaws F4 ∧ LibHead fltLib fltSem ∧ exDivRun = .ok (1, 3 / 4, 3 / 4) :=
  ⟨F4_laws, fltLib_head, by decide +kernel⟩

/-- `f(x) = integer_pow(x, 3)` on vectors of length 1. -/
def exCube : Jaxpr F4 := ⟨[], [0], [.var 1], [⟨.integerPow 3, [.var 0], [1]⟩]⟩

/-- `(f(x0), lower(x0), upper(x0))` at `x0 = [9/4]`, degree 1 -/
def exCubeRun : Py (ℚ × ℚ × ℚ) := do
  let x0 : ND F4 := ⟨[1], fun _ => r4 (9 / 4)⟩
  let b ← taylorBounds fltLib exCube [] 1 false x0 ⟨[1], fun _ => r4 1⟩ ⟨[1], fun _ => r4 3⟩
  return (((← evalJaxpr fltSem exCube [] x0).get [0]).1, ((← b.lower x0).get [0]).1, ((← b.upper x0).get [0]).1)

/-- **C83 (counterexample).** The power of an array of rank ≥ 1 is bounded by repeated multiplication from left to
right (polynomials.py:126-224), which rounds differently from `integer_pow`: here `f(x0) = [10]` and both bounds are
`[8]`. -/
theorem C83_pow_counterexample : UnitLaws F4 ∧ LibHead fltLib fltSem ∧ exCubeRun = .ok (10, 8, 8) :=
  ⟨F4_laws, fltLib_head, by decide +kernel⟩

end
end JB
end AB

