/-
Interval evaluation (`max_degree = 0`) with the code's own tables: no condition on the trust region.
-/
import Verif.Props.AtRef
import Verif.Props.MLP

set_option linter.unusedSectionVars false

namespace AB
namespace JB
open TEA PE EF

theorem safeLib_full : LibFull safeLib where
  gen n g h := by
    simp only [safeLib] at h
    cases hn : builtinName n with
    | some m =>
      simp only [hn, Option.some.injEq] at h
      subst h
      exact full_guard (full_lift _ _)
    | none =>
      simp only [hn, Option.map_eq_some_iff] at h
      obtain ⟨q, hq, rfl⟩ := h
      exact full_guard (full_lift _ _)
  pow p := full_guard (full_lift _ _)

theorem notCapped_zero (x0 e : ℝ) : NotCapped x0 0 e := Or.inr (by norm_num)

theorem safe_total_of {n : FName} {k : ℕ} {d : FunctionData ℝ} (hk : supportedOrder n k)
    (hd : getFunctionData ⟨n, k⟩ = .ok d) (ht : ∀ x0 a b, BuiltinRegion n x0 a b k) :
    GenTotal (guardGen (BuiltinRegion n) (elementwiseGen ⟨n, 0⟩)) k := by
  intro x0 lo hi hsh hR _
  unfold guardGen
  rw [if_pos (fun R _ I _ => ht _ _ _)]
  have hR' : bshape x0.shape lo.shape = some x0.shape := bshape_eq_of_ble' (ble_iff_bshape.1 hR)
  unfold elementwiseGen liftGen
  simp only [hR']
  obtain ⟨l, hl⟩ := Poly.mapM_total (f := fun I => getElementwiseTaylorEnclosure ⟨n, 0⟩ (x0.bget I) (lo.bget I)
    (hi.bget I) k) (l := idx x0.shape) (fun I _ => elementwise_returns hk hd _ _ _)
  rw [hl]
  exact ⟨_, rfl⟩

/-- For interval evaluation, these enclosure generators return, and are right, on every trust region. -/
theorem alwaysRight_safe {name : String} (h : AlwaysRight name 0) :
    ∃ g, safeLib.gen name = some g ∧ GenUsable 0 false g := by
  rcases h with rfl | ⟨rfl, h⟩ | ⟨rfl, h⟩ | ⟨rfl, h⟩ | ⟨rfl, h⟩
  · exact ⟨_, rfl, safe_total_of (n := .exp) trivial rfl
      (fun x0 a b => ⟨notCapped_zero _ _, notCapped_zero _ _, trivial⟩), fun h => by cases h⟩
  · exact ⟨_, rfl, safe_total_of (n := .abs) (by simp [supportedOrder]) rfl
      (fun x0 a b => ⟨notCapped_zero _ _, notCapped_zero _ _, h⟩), fun h => by cases h⟩
  · exact ⟨_, rfl, safe_total_of (n := .sigmoid) (by simp [supportedOrder]) rfl
      (fun x0 a b => ⟨notCapped_zero _ _, notCapped_zero _ _, Or.inl h⟩), fun h => by cases h⟩
  · exact ⟨_, rfl, safe_total_of (n := .sigmoid) (by simp [supportedOrder]) rfl
      (fun x0 a b => ⟨notCapped_zero _ _, notCapped_zero _ _, Or.inl h⟩), fun h => by cases h⟩
  · exact ⟨_, rfl, safe_total_of (n := .softplus) (by simp [supportedOrder]) rfl
      (fun x0 a b => ⟨notCapped_zero _ _, notCapped_zero _ _, Or.inl (by norm_num)⟩), fun h => by cases h⟩

/-- **C42 (built-in tables, condition on the program).** If every call of an enclosure generator has a trust region on
which it is claimed to be sound (the run with `safeLib` succeeds) and the program meets `ProgramFits`, then the run with
the code's own tables returns the same bounds, and they contain `f(x)` for every `x` of the trust region. -/
theorem C42_builtin_static {jaxpr : Jaxpr ℝ} {consts : List (ND ℝ)} {maxDegree : ℤ} {propagate : Bool} {x0 lo hi : ND ℝ}
    {bnd : Bounds ℝ} (hlh : lo.shape = hi.shape) (h0 : (Coef.ivl lo hi).Contains x0)
    (hb : taylorBounds safeLib jaxpr consts maxDegree propagate x0 lo hi = .ok bnd)
    (hfit : ProgramFits realSem jaxpr consts x0)
    {vals : Vals ℝ} (hev : evalEnv realSem jaxpr consts x0 = .ok vals) (hne : NonEmptyVals vals) :
    taylorBounds realLib jaxpr consts maxDegree propagate x0 lo hi = .ok bnd ∧
    ∀ x' y' vals', (Coef.ivl lo hi).Contains x' → evalEnv realSem jaxpr consts x' = .ok vals' → NonEmptyVals vals' →
      evalJaxpr realSem jaxpr consts x' = .ok y' → ∃ l u, bnd.lower x' = .ok l ∧ bnd.upper x' = .ok u ∧
        l.shape = y'.shape ∧ u.shape = y'.shape ∧
        ∀ I, ValidIdx y'.shape I → l.get I ≤ y'.get I ∧ y'.get I ≤ u.get I := by
  have hmd : 0 ≤ maxDegree := by
    have hb' := hb
    simp only [taylorBounds, py_bind_ok] at hb'
    obtain ⟨env, he, -⟩ := hb'
    exact (taylorEnv_inv he).1
  have hok := taylorBoundsOk_of_fits (lib := safeLib) safeLib_sound hmd (propagate := propagate) hlh h0 hfit hev hne
  exact ⟨okLe_taylorBounds safeLib_le _ _ _ _ _ _ _ _ hb, fun x' y' vals' hx' hev' hne' hy' =>
    C43_lower_upper safeLib_sound hlh h0 hx' hb hok hev' hne' hy'⟩

/-- **C42 (interval evaluation with the code's own tables).** Let the Jaxpr be well formed, with one input of rank at
most 1 and one output, and let `x0` lie in the trust region.  If the program meets `ProgramFits` and `ProgramReturns`
(conditions on its primitives and the shapes of their arguments; `exp`, `abs`, `logistic` and the primitives that
replace `jax.nn.sigmoid` and `jax.nn.softplus` are allowed by `alwaysRight_safe`), then `taylor_bounds(f, 0)` returns,
and `lower(x) ≤ f(x) ≤ upper(x)` for every `x` of the trust region: no condition on the region, no condition on the
run. -/
theorem C42_degree0 {jaxpr : Jaxpr ℝ} {consts : List (ND ℝ)} {propagate : Bool} {x0 lo hi y : ND ℝ}
    (hlh : lo.shape = hi.shape) (hrank : x0.shape.length ≤ 1)
    (h0 : (Coef.ivl lo hi).Contains x0) (hwf : WellFormedProgram jaxpr consts)
    (hused : propagate = true → ∀ eqn ∈ jaxpr.eqns, -1 ∉ eqn.outvars)
    (hfit : ProgramFits realSem jaxpr consts x0)
    (hret : ProgramReturns safeLib realSem jaxpr consts 0 propagate x0)
    {vals : Vals ℝ} (hev : evalEnv realSem jaxpr consts x0 = .ok vals) (hne : NonEmptyVals vals)
    (hy : evalJaxpr realSem jaxpr consts x0 = .ok y) :
    ∃ bnd, taylorBounds realLib jaxpr consts 0 propagate x0 lo hi = .ok bnd ∧
      ∀ x' y' vals', (Coef.ivl lo hi).Contains x' → evalEnv realSem jaxpr consts x' = .ok vals' → NonEmptyVals vals' →
        evalJaxpr realSem jaxpr consts x' = .ok y' → ∃ l u, bnd.lower x' = .ok l ∧ bnd.upper x' = .ok u ∧
          l.shape = y'.shape ∧ u.shape = y'.shape ∧
          ∀ I, ValidIdx y'.shape I → l.get I ≤ y'.get I ∧ y'.get I ≤ u.get I := by
  obtain ⟨bnd, hb, h⟩ := C53_static safeLib_sound safeLib_arr safeLib_full le_rfl hlh hrank h0 hwf hused hfit hret hev hne hy
  exact ⟨bnd, okLe_taylorBounds safeLib_le _ _ _ _ _ _ _ _ hb, h⟩

end JB

namespace MLP
open JB

/-- **C69 (interval evaluation with the code's own tables).** For every network with activation functions among `exp`,
`abs`, `logistic`, `jax.nn.sigmoid`, `jax.nn.softplus`, all weights, and every interval of learning rates: with
`max_degree = 0` the returned interval contains the loss at `p + eta * v` for every `eta` of the interval. -/
theorem C69_mlp_degree0 {arch : Arch} {B n : ℕ} {X Y : ℕ → ℕ → ℝ} {p v : Params ℝ} (hnet : NetOk arch B n)
    {propagate : Bool} (hact : ∀ q ∈ arch, ∀ name, q.2 = some name → AlwaysRight name 0) {lo eta0 hi : ℝ} (h1 : lo ≤ eta0)
    (h2 : eta0 ≤ hi) :
    ∃ bnd, taylorBounds realLib (mlpJaxpr arch B n X Y p v) (mlpConsts arch B n X Y p v) 0 propagate
        (ND.scalar eta0) (ND.scalar lo) (ND.scalar hi) = .ok bnd ∧
      ∀ eta, lo ≤ eta → eta ≤ hi → ∃ l u, bnd.lower (ND.scalar eta) = .ok l ∧ bnd.upper (ND.scalar eta) = .ok u ∧
        l.get [] ≤ mlpLoss realSem arch B n X Y (p + eta • v) ∧ mlpLoss realSem arch B n X Y (p + eta • v) ≤ u.get [] := by
  have hb0 : (propagate && ((0 : ℤ) != 0)) = false := by cases propagate <;> rfl
  have hus : ActsUsable safeLib (0 : ℤ).toNat (propagate && ((0 : ℤ) != 0)) arch := by
    rw [hb0]
    exact fun q hq name hn => alwaysRight_safe (hact q hq name hn)
  obtain ⟨bnd, hb, h⟩ := C69_mlp_bounds (X := X) (Y := Y) (p := p) (v := v) safeLib_sound safeLib_arr safeLib_full hnet
    (propagate := propagate) le_rfl (by decide) hus h1 h2
  exact ⟨bnd, okLe_taylorBounds safeLib_le _ _ _ _ _ _ _ _ hb, h⟩

end MLP
end AB
