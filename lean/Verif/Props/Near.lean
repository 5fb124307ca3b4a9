/-
C82: how far the bounds of `taylor_bounds` can be from the function on trust regions that are small enough for the cap
in `taylor_remainder_ratio` (/repo/autobound/primitive_enclosures.py:299-305) to act, or about which a table with
rounded constants is used.
-/
import Verif.Proofs.Near4

set_option linter.unusedSectionVars false

namespace AB
open PE EF Set TEA
namespace JB
section
variable {K : Type} [Field K] [LinearOrder K] [IsStrictOrderedRing K]

/-- **C82 (bounds up to the error of the tables).** Let the tables be right up to an error `ε` in every call, let trust
regions not be propagated, and suppose `taylor_bounds` returns `bnd` in a run whose equations meet `StepOk`.  Then for
every `x` of the trust region `lower(x)` and `upper(x)` enclose the result of an execution of the program at `x` in which
the results of element-wise functions are off by at most `ε`. -/
theorem C82_taylor_bounds {ε : K} {lib : Lib K} {sem : Sem K} {jaxpr : Jaxpr K}
    {consts : List (ND K)} {maxDegree : ℤ} {x0 lo hi x y0 : ND K} {bnd : Bounds K}
    (hlib : LibNear ε lib sem) (hsh : ∀ eqn ∈ jaxpr.eqns, ShapeOnly eqn.prim)
    (hlh : lo.shape = hi.shape) (h0 : (Coef.ivl lo hi).Contains x0) (hx : (Coef.ivl lo hi).Contains x)
    (hb : taylorBounds lib jaxpr consts maxDegree false x0 lo hi = .ok bnd)
    (hok : TaylorBoundsOk lib jaxpr consts maxDegree false x0 lo hi)
    {vals : Vals K} (hev : evalEnv sem jaxpr consts x = .ok vals) (hne : NonEmptyVals vals)
    (hy0 : evalJaxpr sem jaxpr consts x = .ok y0) :
    ∃ y l u, NearValue ε sem jaxpr consts x y ∧ bnd.lower x = .ok l ∧ bnd.upper x = .ok u ∧
      y.shape = y0.shape ∧ l.shape = y0.shape ∧ u.shape = y0.shape ∧
      ∀ I, ValidIdx y0.shape I → l.get I ≤ y.get I ∧ y.get I ≤ u.get I := by
  obtain ⟨z, y, hz, hnear, hx0, hs, y1, hy1, hys⟩ := taylorBounds_near hlib hsh hlh h0 hx hb hok hev hne
  rw [hy0] at hy1
  cases hy1
  obtain ⟨r, hr, hc⟩ := hs.encl
  have hcall : bnd.call x = .ok r := by
    simp only [Bounds.call, hx0, hz, py_ok_bind]
    exact hr
  obtain ⟨hW, hV, -, -, -⟩ := eval_ok (Coef.WF_arr _) (zmem_self z) hs.wf.wfe hr
  have hc : r.Contains y := by
    refine Coef.contains_of_covers hW hc ?_
    rcases hE : bnd.coefficients with _ | ⟨c, l⟩
    · exact absurd hE hs.ne
    · obtain ⟨-, B, hB, hle⟩ := hV 0 c (by rw [hE]; rfl)
      have h1 := hs.head c (by rw [hE]; rfl)
      have h2 := ((Coef.covers_iff hW).1 hc).1
      rw [h1] at hB
      simp only [IA.repS, List.replicate_zero, List.flatten_nil, List.append_nil] at hB
      subst hB
      exact ble_antisymm hle h2
  refine ⟨y, (toInterval r).1, (toInterval r).2, hnear, ?_, ?_, hys.symm, ?_, ?_, ?_⟩
  · simp only [Bounds.lower, hcall, py_ok_bind]; rfl
  · simp only [Bounds.upper, hcall, py_ok_bind]; rfl
  · rw [hys]; cases r <;> exact hc.1.symm
  · rw [hys]
    cases r with
    | arr a => exact hc.1.symm
    | ivl l u =>
      have : l.shape = u.shape := Coef.sameShape_iff.2 hW
      exact this.symm.trans hc.1.symm
  · intro I hI
    rw [hys] at hI
    have := hc.2 I (hc.1 ▸ hI)
    cases r with
    | arr a =>
      have e : y.get I = a.get I := this
      exact ⟨e.ge, e.le⟩
    | ivl l u => exact this

/-- The exact execution is one of the executions `NearRun` allows. -/
theorem exact_nearRun {ε : K} {sem : Sem K} {eqns : List (Eqn K)} {vals vals' : Vals K}
    (h : eqns.foldlM (evalEqn sem) vals = .ok vals') : NearRun ε sem eqns vals vals' := by
  induction eqns generalizing vals with
  | nil => cases h; exact .nil _
  | cons eqn eqns ih =>
    rw [List.foldlM_cons, py_bind_ok] at h
    obtain ⟨v1, h1, h2⟩ := h
    simp only [evalEqn, py_bind_ok] at h1
    obtain ⟨args, ha, outs, ho, h1⟩ := h1
    by_cases hl : outs.length ≠ eqn.outvars.length
    · rw [if_pos hl] at h1; cases h1
    rw [if_neg hl] at h1
    cases h1
    exact .cons ha (.exact ho) (not_not.1 hl) (ih h2)

/-- `f(x)` is one of the values `NearValue` allows. -/
theorem exact_nearValue {ε : K} {sem : Sem K} {jaxpr : Jaxpr K} {consts : List (ND K)} {x y : ND K}
    (h : evalJaxpr sem jaxpr consts x = .ok y) : NearValue ε sem jaxpr consts x y := by
  simp only [evalJaxpr, py_bind_ok] at h
  obtain ⟨vals, hv, h⟩ := h
  split at h
  · rename_i o ho
    exact ⟨vals, o, exact_nearRun hv, ho, h⟩
  · cases h

/-- **C82 (error bound).** If every execution of the program at `x` in which element-wise results are off by at most
`ε` returns an array within `δ` of `f(x)`, then `lower(x) - δ ≤ f(x) ≤ upper(x) + δ`. -/
theorem C82_error {ε δ : K} {lib : Lib K} {sem : Sem K} {jaxpr : Jaxpr K}
    {consts : List (ND K)} {maxDegree : ℤ} {x0 lo hi x y0 : ND K} {bnd : Bounds K}
    (hlib : LibNear ε lib sem) (hsh : ∀ eqn ∈ jaxpr.eqns, ShapeOnly eqn.prim)
    (hlh : lo.shape = hi.shape) (h0 : (Coef.ivl lo hi).Contains x0) (hx : (Coef.ivl lo hi).Contains x)
    (hb : taylorBounds lib jaxpr consts maxDegree false x0 lo hi = .ok bnd)
    (hok : TaylorBoundsOk lib jaxpr consts maxDegree false x0 lo hi)
    {vals : Vals K} (hev : evalEnv sem jaxpr consts x = .ok vals) (hne : NonEmptyVals vals)
    (hy0 : evalJaxpr sem jaxpr consts x = .ok y0)
    (hδ : ∀ y, NearValue ε sem jaxpr consts x y → y.shape = y0.shape → NearArr δ y y0) :
    ∃ l u, bnd.lower x = .ok l ∧ bnd.upper x = .ok u ∧ l.shape = y0.shape ∧ u.shape = y0.shape ∧
      ∀ I, ValidIdx y0.shape I → l.get I - δ ≤ y0.get I ∧ y0.get I ≤ u.get I + δ := by
  obtain ⟨y, l, u, hn, hl, hu, s1, s2, s3, h⟩ := C82_taylor_bounds hlib hsh hlh h0 hx hb hok hev hne hy0
  refine ⟨l, u, hl, hu, s2, s3, fun I hI => ?_⟩
  have h1 := h I hI
  have h2 := abs_le.1 ((hδ y hn s1).2 I (s1 ▸ hI))
  constructor <;> linarith [h1.1, h1.2, h2.1, h2.2]

end

/-- **C82 (the code's tables).** Suppose that every call of an enclosure generator in the run has an error of at most
`ε` (`nearLib`: an explicit condition on the function, the degree and the region of the call, with no condition on how
small the region is).  Then the run with the code's own tables returns the same bounds, and for every `x` of the trust
region they enclose the result of an execution of the program at `x` in which the results of element-wise functions are
off by at most `ε`. -/
theorem C82_builtin {ε : ℝ} {jaxpr : Jaxpr ℝ} {consts : List (ND ℝ)} {maxDegree : ℤ} {x0 lo hi : ND ℝ} {bnd : Bounds ℝ}
    (hsh : ∀ eqn ∈ jaxpr.eqns, ShapeOnly eqn.prim)
    (hlh : lo.shape = hi.shape) (h0 : (Coef.ivl lo hi).Contains x0)
    (hb : taylorBounds (nearLib ε) jaxpr consts maxDegree false x0 lo hi = .ok bnd)
    (hfit : ProgramFits realSem jaxpr consts x0)
    {vals0 : Vals ℝ} (hev0 : evalEnv realSem jaxpr consts x0 = .ok vals0) (hne0 : NonEmptyVals vals0) :
    taylorBounds realLib jaxpr consts maxDegree false x0 lo hi = .ok bnd ∧
    ∀ (x y0 : ND ℝ) (vals : Vals ℝ), (Coef.ivl lo hi).Contains x → evalEnv realSem jaxpr consts x = .ok vals →
      NonEmptyVals vals → evalJaxpr realSem jaxpr consts x = .ok y0 →
      ∃ y l u, NearValue ε realSem jaxpr consts x y ∧ bnd.lower x = .ok l ∧ bnd.upper x = .ok u ∧
        y.shape = y0.shape ∧ l.shape = y0.shape ∧ u.shape = y0.shape ∧
        ∀ I, ValidIdx y0.shape I → l.get I ≤ y.get I ∧ y.get I ≤ u.get I := by
  have hmd : 0 ≤ maxDegree := by
    have hb' := hb
    simp only [taylorBounds, py_bind_ok] at hb'
    obtain ⟨env, he, -⟩ := hb'
    exact (taylorEnv_inv he).1
  have hok := taylorBoundsOk_of_fits_at hmd (propagate := false) (nearLib_at_ref ε x0) hlh h0 hfit hev0 hne0
  exact ⟨okLe_taylorBounds (nearLib_le ε) _ _ _ _ _ _ _ _ hb, fun x y0 vals hx hev hne hy0 =>
    C82_taylor_bounds (nearLib_near ε) hsh hlh h0 hx hb hok hev hne hy0⟩

/-- **C82 (every trust region).** If moreover every enclosure generator that the program uses has an error of at most
`ε` on every region (`ProgramReturns (nearLib ε)`; at degree 1 `abs`, `logistic`, the replaced `sigmoid` and `softplus`
with `ε = 2e-12` do, see `nearRight_usable`), then `taylor_bounds` returns on every trust region, however small or
large, and its bounds enclose such an execution of the program. -/
theorem C82_every_region {ε : ℝ} {jaxpr : Jaxpr ℝ} {consts : List (ND ℝ)} {maxDegree : ℤ} {x0 lo hi y : ND ℝ}
    (hsh : ∀ eqn ∈ jaxpr.eqns, ShapeOnly eqn.prim)
    (hmd : 0 ≤ maxDegree) (hlh : lo.shape = hi.shape) (hrank : x0.shape.length ≤ 1)
    (h0 : (Coef.ivl lo hi).Contains x0) (hwf : WellFormedProgram jaxpr consts)
    (hfit : ProgramFits realSem jaxpr consts x0)
    (hret : ProgramReturns (nearLib ε) realSem jaxpr consts maxDegree false x0)
    {vals0 : Vals ℝ} (hev0 : evalEnv realSem jaxpr consts x0 = .ok vals0) (hne0 : NonEmptyVals vals0)
    (hy : evalJaxpr realSem jaxpr consts x0 = .ok y) :
    ∃ bnd, taylorBounds realLib jaxpr consts maxDegree false x0 lo hi = .ok bnd ∧
      ∀ (x y0 : ND ℝ) (vals : Vals ℝ), (Coef.ivl lo hi).Contains x → evalEnv realSem jaxpr consts x = .ok vals →
      NonEmptyVals vals → evalJaxpr realSem jaxpr consts x = .ok y0 →
      ∃ y l u, NearValue ε realSem jaxpr consts x y ∧ bnd.lower x = .ok l ∧ bnd.upper x = .ok u ∧
        y.shape = y0.shape ∧ l.shape = y0.shape ∧ u.shape = y0.shape ∧
        ∀ I, ValidIdx y0.shape I → l.get I ≤ y.get I ∧ y.get I ≤ u.get I := by
  have hok := taylorBoundsOk_of_fits_at hmd (propagate := false) (nearLib_at_ref ε x0) hlh h0 hfit hev0 hne0
  have hr := taylorBoundsReturns_of_at (nearLib_arr ε) (nearLib_full ε) hmd (nearLib_at_ref ε x0) hlh h0 hfit hret hev0
    hne0
  obtain ⟨bnd, hb⟩ := returns_at (nearLib_arr ε) hmd (nearLib_at_ref ε x0) hlh hrank h0 h0 hwf
    (fun h => absurd h (by decide)) hok hr hev0 hne0 hy
  exact ⟨bnd, C82_builtin hsh hlh h0 hb hfit hev0 hne0⟩

/-! ### Functions whose error is small on every region -/

/-- Element-wise primitives whose enclosures of degree 1 have an error of at most `2e-12` on every region. -/
def NearRight (name : String) : Prop :=
  name = "abs" ∨ name = "logistic" ∨ name = "__autobound_sigmoid__" ∨ name = "__autobound_softplus__"

theorem variation_of {n : FName} {k : ℕ} (hk : supportedOrder n k) {a b V : ℝ} (hdom : smoothDomain n = univ)
    (h : ∀ x y, derivFun n k x - derivFun n k y ≤ V) : Variation (mathFun n) k a b V := by
  intro x _ y _
  have e := (C25_derivative_formulas (n := n) (k := k) (g := derivFun n k) (by
    simpa [FunctionId.derivativeId] using getFunction_eq.2 ⟨hk, rfl⟩)).1
  rw [← e x (by rw [hdom]; trivial), ← e y (by rw [hdom]; trivial)]
  exact h x y

theorem nearOk_sigmoid (x0 a b : ℝ) : NearCall (2 / 10 ^ 12) .sigmoid x0 a b 1 := by
  refine ⟨le_rfl, Or.inr (Or.inr (Or.inl ⟨1, variation_of (by simp [supportedOrder]) rfl ?_, subset_univ _,
    truthful_sigmoid1, by norm_num⟩))⟩
  intro x y
  have h1 := sigD1_le x
  have h2 := sigD1_pos y
  show sigD 1 x - sigD 1 y ≤ 1
  linarith

theorem nearOk_softplus (x0 a b : ℝ) : NearCall (2 / 10 ^ 12) .softplus x0 a b 1 := by
  refine ⟨le_rfl, Or.inr (Or.inr (Or.inl ⟨1, variation_of (by simp [supportedOrder]) rfl ?_, subset_univ _,
    (truthful_exact (Or.inr (Or.inr (Or.inr ⟨rfl, le_rfl⟩)))).1, by norm_num⟩))⟩
  intro x y
  have h1 := sigmoid_lt_one x
  have h2 := sigmoid_pos y
  show sigmoid x - sigmoid y ≤ 1
  linarith

theorem nearOk_abs (x0 a b : ℝ) : NearCall (2 / 10 ^ 12) .abs x0 a b 1 := ⟨le_rfl, Or.inl ⟨rfl, rfl, le_rfl⟩⟩

theorem near_total {ε : ℝ} {n : FName} {k : ℕ} {d : FunctionData ℝ} (hk : supportedOrder n k)
    (hd : getFunctionData ⟨n, k⟩ = .ok d) (ht : ∀ x0 a b, NearCall ε n x0 a b k) :
    GenTotal (guardGen (NearCall ε n) (elementwiseGen ⟨n, 0⟩)) k := by
  intro x0 lo hi hsh hR _
  unfold guardGen
  rw [if_pos (fun R _ I _ => ht _ _ _)]
  have hR' : bshape x0.shape lo.shape = some x0.shape := bshape_eq_of_ble' (ble_iff_bshape.1 hR)
  unfold elementwiseGen liftGen
  simp only [hR']
  obtain ⟨l, hl⟩ := Poly.mapM_total (f := fun I => getElementwiseTaylorEnclosure ⟨n, 0⟩ (x0.bget I) (lo.bget I)
    (hi.bget I) k) (l := idx x0.shape) (fun I _ => elementwise_returns hk hd _ _ _)
  rw [hl]
  exact ⟨_, rfl⟩

/-- the element-wise part of `ProgramReturns` -/
theorem nearRight_usable {name : String} (h : NearRight name) :
    ∃ g, (nearLib (2 / 10 ^ 12)).gen name = some g ∧ GenUsable 1 false g := by
  rcases h with rfl | rfl | rfl | rfl
  · exact ⟨_, rfl, near_total (n := .abs) (k := 1) (by simp [supportedOrder]) rfl nearOk_abs, by simp⟩
  · exact ⟨_, rfl, near_total (n := .sigmoid) (k := 1) (by simp [supportedOrder]) rfl nearOk_sigmoid, by simp⟩
  · exact ⟨_, rfl, near_total (n := .sigmoid) (k := 1) (by simp [supportedOrder]) rfl nearOk_sigmoid, by simp⟩
  · exact ⟨_, rfl, near_total (n := .softplus) (k := 1) (by simp [supportedOrder]) rfl nearOk_softplus, by simp⟩

/-! ### A concrete program -/

/-- The program `3 * logistic(2 * x) + x`. -/
def exSig : Jaxpr ℝ where
  constvars := []
  invars := [0]
  outvars := [.var 4]
  eqns := [⟨.mul, [.lit (ND.scalar 2), .var 0], [1]⟩, ⟨.elementwise "logistic", [.var 1], [2]⟩,
    ⟨.mul, [.lit (ND.scalar 3), .var 2], [3]⟩, ⟨.add, [.var 3, .var 0], [4]⟩]

theorem exSig_wf : WellFormedProgram exSig [] where
  input := rfl
  output := rfl
  consts := rfl
  once := by decide
  lits := by
    intro eqn he a ha
    simp only [exSig, List.mem_cons, List.not_mem_nil, or_false] at he
    rcases he with rfl | rfl | rfl | rfl <;> simp at ha <;> subst ha <;> exact ⟨[], .nil⟩

theorem exSig_fits (x0 : ℝ) : ProgramFits realSem exSig [] (ND.scalar x0) := by
  refine ⟨fun v _ h => absurd h List.not_mem_nil, _, countsFit_trivial _, ?_⟩
  refine ⟨fun _ a o ha ho => ?_, fun v1 h1 => ?_⟩
  · cases ha; cases ho; trivial
  cases h1
  refine ⟨fun _ a o ha ho => ?_, fun v1 h1 => ?_⟩
  · cases ha; cases ho; trivial
  cases h1
  refine ⟨fun _ a o ha ho => ?_, fun v1 h1 => ?_⟩
  · cases ha; cases ho; trivial
  cases h1
  refine ⟨fun _ a o ha ho => ?_, fun v1 h1 => trivial⟩
  cases ha; cases ho; exact ⟨Or.inr (Or.inl rfl), Or.inr (Or.inl rfl)⟩

theorem exSig_returns (x0 : ℝ) :
    ProgramReturns (nearLib (2 / 10 ^ 12)) realSem exSig [] 1 false (ND.scalar x0) := by
  refine ⟨fun a ha => ?_, fun v1 h1 => ?_⟩
  · rw [if_neg (by decide)]
    cases ha; trivial
  cases h1
  refine ⟨fun a ha => ?_, fun v1 h1 => ?_⟩
  · rw [if_neg (by decide)]
    cases ha
    exact ⟨Or.inl rfl, nearRight_usable (Or.inr (Or.inl rfl))⟩
  cases h1
  refine ⟨fun a ha => ?_, fun v1 h1 => ?_⟩
  · rw [if_neg (by decide)]
    cases ha; trivial
  cases h1
  refine ⟨fun a ha => ?_, fun v1 h1 => trivial⟩
  rw [if_neg (by decide)]
  cases ha; trivial

theorem exSig_nonEmpty (x : ℝ) {vals : Vals ℝ} (h : evalEnv realSem exSig [] (ND.scalar x) = .ok vals) :
    NonEmptyVals vals := by
  cases h
  intro va hva
  have : va.2.shape = [] := by
    rcases List.mem_cons.1 hva with e | hva
    · exact congrArg (fun v => v.2.shape) e
    rcases List.mem_cons.1 hva with e | hva
    · exact congrArg (fun v => v.2.shape) e
    rcases List.mem_cons.1 hva with e | hva
    · exact congrArg (fun v => v.2.shape) e
    rcases List.mem_cons.1 hva with e | hva
    · exact congrArg (fun v => v.2.shape) e
    · exact congrArg (fun v => v.2.shape) (List.mem_singleton.1 hva)
  rw [this]
  exact ⟨[], .nil⟩

theorem nearBind_elementwise {ε : ℝ} {sem : Sem ℝ} {name : String} {f : ℝ → ℝ} {a : ND ℝ} {outs : List (ND ℝ)}
    (hε : 0 ≤ ε) (hf : sem.fn name = some f) (h : NearBind ε sem (.elementwise name) [a] outs) :
    ∃ y, outs = [y] ∧ NearArr ε y (a.map f) := by
  cases h with
  | exact h =>
    simp only [Prim.bind, List.map, Prim.eval, hf, Except.ok.injEq] at h
    refine ⟨_, h.symm, rfl, fun I hI => ?_⟩
    have hI : ValidIdx a.shape I := hI
    have e : (a.canon.map f).get I = (a.map f).get I := by
      show f (a.canon.get I) = f (a.get I)
      rw [ND.canon_get _ hI]
    rw [e, sub_self, abs_zero]; exact hε
  | elementwise hf' hy =>
    rw [hf] at hf'
    cases hf'
    exact ⟨_, rfl, hy⟩

/-- the executions of the program with errors are off by at most `3 * ε` -/
theorem exSig_near {ε x : ℝ} {y : ND ℝ} (hε : 0 ≤ ε) (h : NearValue ε realSem exSig [] (ND.scalar x) y) :
    |y.get [] - (3 * (1 / (1 + Real.exp (-(2 * x)))) + x)| ≤ 3 * ε := by
  obtain ⟨vals, o, hrun, ho, hy⟩ := h
  cases ho
  cases hrun with | cons ha hb hl hrun => ?_
  cases ha
  cases hb with | exact hb => ?_
  cases hb
  cases hrun with | cons ha hb hl hrun => ?_
  cases ha
  obtain ⟨w, rfl, hw⟩ := nearBind_elementwise hε rfl hb
  obtain ⟨s, g⟩ := w
  have hs : s = [] := hw.1
  subst hs
  have hw : |g [] - 1 / (1 + Real.exp (-(2 * x)))| ≤ ε := hw.2 [] .nil
  cases hrun with | cons ha hb hl hrun => ?_
  cases ha
  cases hb with | exact hb => ?_
  cases hb
  cases hrun with | cons ha hb hl hrun => ?_
  cases ha
  cases hb with | exact hb => ?_
  cases hb
  cases hrun
  cases hy
  show |3 * g [] + x - (3 * (1 / (1 + Real.exp (-(2 * x)))) + x)| ≤ 3 * ε
  have e : 3 * g [] + x - (3 * (1 / (1 + Real.exp (-(2 * x)))) + x) = 3 * (g [] - 1 / (1 + Real.exp (-(2 * x)))) := by ring
  rw [e, abs_mul, abs_of_pos (by norm_num : (0 : ℝ) < 3)]
  linarith

/-- **C82 (an instance).** `taylor_bounds(f, 1)` for `f(x) = 3 * logistic(2 * x) + x`, with the code's own tables: for
every reference point and every trust region `[lo, hi]` around it, the bounds are returned and are within `6e-12` of
being bounds of `f`. -/
theorem C82_instance (x0 lo hi : ℝ) (h1 : lo ≤ x0) (h2 : x0 ≤ hi) :
    ∃ bnd, taylorBounds realLib exSig [] 1 false (ND.scalar x0) (ND.scalar lo) (ND.scalar hi) = .ok bnd ∧
      ∀ x, lo ≤ x → x ≤ hi → ∃ l u, bnd.lower (ND.scalar x) = .ok l ∧ bnd.upper (ND.scalar x) = .ok u ∧
        l.get [] - 6 / 10 ^ 12 ≤ 3 * (1 / (1 + Real.exp (-(2 * x)))) + x ∧
        3 * (1 / (1 + Real.exp (-(2 * x)))) + x ≤ u.get [] + 6 / 10 ^ 12 := by
  obtain ⟨bnd, hb, h⟩ := C82_every_region (ε := 2 / 10 ^ 12) (jaxpr := exSig) (consts := []) (x0 := ND.scalar x0)
    (lo := ND.scalar lo) (hi := ND.scalar hi) (maxDegree := 1) (by
      intro eqn he
      simp only [exSig, List.mem_cons, List.not_mem_nil, or_false] at he
      rcases he with rfl | rfl | rfl | rfl <;> trivial) (by norm_num) rfl (by simp [ND.scalar]) ⟨rfl, fun I _ => ⟨h1, h2⟩⟩
    exSig_wf (exSig_fits x0) (exSig_returns x0) rfl (exSig_nonEmpty x0 rfl) rfl
  refine ⟨bnd, hb, fun x hx hx' => ?_⟩
  obtain ⟨y, l, u, hn, hl, hu, -, -, -, h⟩ := h (ND.scalar x) _ _ ⟨rfl, fun I _ => ⟨hx, hx'⟩⟩ rfl (exSig_nonEmpty x rfl) rfl
  refine ⟨l, u, hl, hu, ?_⟩
  have h3 := abs_le.1 (exSig_near (by norm_num) hn)
  have h4 := h [] .nil
  constructor <;> linarith [h3.1, h3.2, h4.1, h4.2]

end JB
end AB
