/-
C32, C33: the element-wise enclosures of the built-in functions
(/repo/autobound/primitive_enclosures.py:31-105, 244-274).
-/
import Verif.Props.Scalar
import Verif.Props.Range
import Verif.Props.Pow
import Verif.Proofs.Quadratic
import Mathlib.Analysis.Convex.Slope

namespace AB
open PE EF Set

theorem supportedOrder_mono {n : FName} {k i : ℕ} (h : supportedOrder n k) (hi : i ≤ k) :
    supportedOrder n i := by
  cases n <;> simp only [supportedOrder] at h ⊢ <;> omega

theorem taylorCoefficients_eq {n : FName} {k : ℕ} (hk : supportedOrder n k) (x0 : ℝ) :
    getTaylorPolynomialCoefficients ⟨n, 0⟩ k x0 = .ok (taylorCoeffs (derivFun n) k x0) := by
  have : ∀ l : List ℕ, (∀ i ∈ l, i ≤ k) →
      (l.mapM fun i => do
        let fd ← getFunction (FunctionId.derivativeId ⟨n, 0⟩ i)
        return fd x0 / (i.factorial : ℝ) : Py (List ℝ)) =
      .ok (l.map fun i => derivFun n i x0 / (i.factorial : ℝ)) := by
    intro l hl
    induction l with
    | nil => rfl
    | cons i l ih =>
      have hi : getFunction (FunctionId.derivativeId ⟨n, 0⟩ i) = .ok (derivFun n i) := by
        rw [FunctionId.derivativeId, Nat.zero_add]
        exact getFunction_eq.2 ⟨supportedOrder_mono hk (hl i (by simp)), rfl⟩
      rw [List.mapM_cons, hi, py_ok_bind, py_pure_eq, py_ok_bind, ih fun j hj => hl j (by simp [hj]),
        py_ok_bind, py_pure_eq]
      rfl
  exact this _ fun i hi => by simpa [Nat.lt_succ_iff] using hi

/-- `get_elementwise_taylor_enclosure` for a supported order, unfolded -/
theorem elementwise_eq {n : FName} {k : ℕ} (hk : supportedOrder n k) {d : FunctionData ℝ}
    (hd : getFunctionData ⟨n, k⟩ = .ok d) {x0 a b : ℝ} (ha : NotCapped x0 k a) (hb : NotCapped x0 k b)
    {r : ℝ × ℝ} (hr : getRange ⟨n, k⟩ a b = .ok r) :
    getElementwiseTaylorEnclosure ⟨n, 0⟩ x0 a b k =
      if d.increasing || d.decreasing then
        .ok ((taylorCoeffs (derivFun n) k x0).take k,
          if d.increasing then (rho (derivFun n) x0 k a, rho (derivFun n) x0 k b)
          else (rho (derivFun n) x0 k b, rho (derivFun n) x0 k a))
      else if k = 2 ∧ d.evenSymmetric then
        sharpQuadratic x0 a b (derivFun n 0) (taylorCoeffs (derivFun n) k x0)
      else
        .ok ((taylorCoeffs (derivFun n) k x0).take k,
          if (d.monotoneOver a b).1 then (rho (derivFun n) x0 k b, rho (derivFun n) x0 k a)
          else if (d.monotoneOver a b).2 then (rho (derivFun n) x0 k a, rho (derivFun n) x0 k b)
          else (r.1 / k.factorial, r.2 / k.factorial)) := by
  have h0 : getFunction ⟨n, 0⟩ = .ok (derivFun n 0) :=
    getFunction_eq.2 ⟨supportedOrder_mono hk (Nat.zero_le _), rfl⟩
  have hdid : FunctionId.derivativeId ⟨n, 0⟩ k = ⟨n, k⟩ := by simp [FunctionId.derivativeId]
  have hl : (taylorCoeffs (derivFun n) k x0).length = k + 1 := taylorCoeffs_length _ _ _
  have hdl : (taylorCoeffs (derivFun n) k x0).dropLast = (taylorCoeffs (derivFun n) k x0).take k := by
    rw [List.dropLast_eq_take, hl]; rfl
  have hb' : boundedDerivative k (taylorCoeffs (derivFun n) k x0).dropLast r =
      .ok ((taylorCoeffs (derivFun n) k x0).take k, (r.1 / k.factorial, r.2 / k.factorial)) := by
    unfold boundedDerivative
    rw [hdl, if_neg (by simp [hl]), List.take_take, min_self]
  have hs := fun inc => sharp_eq (derivFun n) ha hb inc
  unfold getElementwiseTaylorEnclosure
  simp only [h0, hdid, hd, taylorCoefficients_eq hk, py_ok_bind, hs, hr, hb']
  split_ifs with h1 h2 h3 h4 <;> simp_all [py_pure_eq]

/-- The element-wise enclosure of the built-in function `n` with the given degree is sound over `[a, b]`. -/
def BuiltinSound (n : FName) (k : ℕ) (x0 a b : ℝ) : Prop :=
  ∃ s, getElementwiseTaylorEnclosure ⟨n, 0⟩ x0 a b k = .ok s ∧ s.1.length = k ∧ s.2.1 ≤ s.2.2 ∧
    SEncl.EnclosesFun s (mathFun n) x0 a b

theorem getRange_ok {n : FName} {k : ℕ} (hk : supportedOrder n k) {d : FunctionData ℝ}
    (hd : getFunctionData ⟨n, k⟩ = .ok d) (a b : ℝ) : getRange ⟨n, k⟩ a b =
    .ok (minimumValue (derivFun n k) a b d.localMinima, maximumValue (derivFun n k) a b d.localMaxima) := by
  have h0 : getFunction ⟨n, k⟩ = .ok (derivFun n k) := getFunction_eq.2 ⟨hk, rfl⟩
  unfold getRange
  rw [h0, hd]
  rfl

/-- **C33 (generic).** For every built-in function and supported degree `k` for which the quadratic rule is
not used: if the monotonicity reported for the `k`-th derivative over the trust region is true, and the
reported range contains the `k`-th derivative over the trust region, then the enclosure is sound. -/
theorem C33_truthful_tables {n : FName} {k : ℕ} (hk : supportedOrder n k) {d : FunctionData ℝ}
    (hd : getFunctionData ⟨n, k⟩ = .ok d) {x0 a b : ℝ} (hx0 : x0 ∈ Icc a b)
    (hdom : Icc a b ⊆ smoothDomain n) (ha : NotCapped x0 k a) (hb : NotCapped x0 k b)
    (hq : ¬ (k = 2 ∧ d.evenSymmetric = true))
    (hdec : (d.monotoneOver a b).1 = true → AntitoneOn (derivFun n k) (Icc a b))
    (hinc : (d.monotoneOver a b).2 = true → MonotoneOn (derivFun n k) (Icc a b))
    (hrange : (d.monotoneOver a b).1 = false → (d.monotoneOver a b).2 = false →
      ∀ r, getRange ⟨n, k⟩ a b = .ok r → ∀ x ∈ Icc a b, r.1 ≤ derivFun n k x ∧ derivFun n k x ≤ r.2) :
    BuiltinSound n k x0 a b := by
  have hl : ((taylorCoeffs (derivFun n) k x0).take k).length = k := by simp [taylorCoeffs]
  have hcx : Convex ℝ (Icc a b) := convex_Icc a b
  have hch : Chain (derivFun n) k (Icc a b) := fun i hi x hx =>
    (hasDerivAt_derivFun (supportedOrder_mono hk hi) (hdom hx)).hasDerivWithinAt
  obtain ⟨f1, f2, -⟩ := C26_flags (getFunction_eq.2 ⟨hk, rfl⟩) hd
  have hsub : Icc a b ⊆ flagDomain n := by
    cases n with
    | log => exact hdom
    | _ => exact subset_univ _
  unfold BuiltinSound
  have hr := getRange_ok hk hd a b
  rw [elementwise_eq hk hd ha hb hr, ← derivFun_zero]
  split_ifs with h1 h2 h3 h4
  · exact ⟨_, rfl, hl, enc_of_mono hx0 (Or.inl ⟨rho_mono hcx hch ((f1 h2).mono hsub) hx0, le_rfl, le_rfl⟩)⟩
  · exact ⟨_, rfl, hl, enc_of_mono hx0 (Or.inr ⟨rho_anti hcx hch ((f2 (by simp_all)).mono hsub) hx0,
      le_rfl, le_rfl⟩)⟩
  · exact ⟨_, rfl, hl, enc_of_mono hx0 (Or.inr ⟨rho_anti hcx hch (hdec h3) hx0, le_rfl, le_rfl⟩)⟩
  · exact ⟨_, rfl, hl, enc_of_mono hx0 (Or.inl ⟨rho_mono hcx hch (hinc h4) hx0, le_rfl, le_rfl⟩)⟩
  · have hR := hrange (by simpa using h3) (by simpa using h4) _ hr
    refine ⟨_, rfl, hl, ?_, fun x h1 h2 => has_of_rho ?_ ?_⟩
    · have := (hR x0 hx0).1.trans (hR x0 hx0).2
      simp only
      gcongr
    · exact le_rho hcx hch (fun x hx => (hR x hx).1) hx0 ⟨h1, h2⟩
    · exact rho_le hcx hch (fun x hx => (hR x hx).2) hx0 ⟨h1, h2⟩

theorem monotoneOver_nil (a b : ℝ) (x y z : Bool) :
    (⟨[], [], x, y, z⟩ : FunctionData ℝ).monotoneOver a b = (x, y) := by
  simp [FunctionData.monotoneOver, sorted, monotoneLoop]

/-- when a flag is set and no extrema are listed -/
theorem builtin_of_flag {n : FName} {k : ℕ} (hk : supportedOrder n k) {x y : Bool}
    (hd : getFunctionData ⟨n, k⟩ = .ok ⟨[], [], x, y, false⟩) (hxy : x = true ∨ y = true) {x0 a b : ℝ}
    (hx0 : x0 ∈ Icc a b) (hdom : Icc a b ⊆ smoothDomain n) (ha : NotCapped x0 k a)
    (hb : NotCapped x0 k b) : BuiltinSound n k x0 a b := by
  obtain ⟨f1, f2, -⟩ := C26_flags (getFunction_eq.2 ⟨hk, rfl⟩) hd
  have hsub : Icc a b ⊆ flagDomain n := by
    cases n with
    | log => exact hdom
    | _ => exact subset_univ _
  refine C33_truthful_tables hk hd hx0 hdom ha hb (by simp) ?_ ?_ ?_
  · rw [monotoneOver_nil]; exact fun h => (f2 h).mono hsub
  · rw [monotoneOver_nil]; exact fun h => (f1 h).mono hsub
  · rw [monotoneOver_nil]
    intro h1 h2
    simp only at h1 h2
    rcases hxy with h | h <;> simp_all

/-- **C33 (exp).** Every degree, every trust region. -/
theorem C33_exp (k : ℕ) {x0 a b : ℝ} (hx0 : x0 ∈ Icc a b) (ha : NotCapped x0 k a)
    (hb : NotCapped x0 k b) : BuiltinSound .exp k x0 a b :=
  builtin_of_flag (n := .exp) (k := k) trivial rfl (Or.inr rfl) hx0 (subset_univ _) ha hb

/-- **C33 (log).** Every degree, every positive trust region. -/
theorem C33_log (k : ℕ) {x0 a b : ℝ} (hpos : 0 < a) (hx0 : x0 ∈ Icc a b) (ha : NotCapped x0 k a)
    (hb : NotCapped x0 k b) : BuiltinSound .log k x0 a b := by
  refine builtin_of_flag (n := .log) (k := k) (x := k % 2 == 1) (y := k % 2 == 0) trivial rfl ?_ hx0
    (fun x hx => hpos.trans_le hx.1) ha hb
  rcases Nat.mod_two_eq_zero_or_one k with h | h <;> simp [h]

/-- **C33 (softplus, degree 0 and 1).** -/
theorem C33_softplus {k : ℕ} (hk : k ≤ 1) {x0 a b : ℝ} (hx0 : x0 ∈ Icc a b) (ha : NotCapped x0 k a)
    (hb : NotCapped x0 k b) : BuiltinSound .softplus k x0 a b := by
  have : k = 0 ∨ k = 1 := by omega
  rcases this with rfl | rfl
  · exact builtin_of_flag (n := .softplus) (k := 0) (by simp [supportedOrder]) rfl (Or.inr rfl) hx0
      (subset_univ _) ha hb
  · exact builtin_of_flag (n := .softplus) (k := 1) (by simp [supportedOrder]) rfl (Or.inr rfl) hx0
      (subset_univ _) ha hb

theorem sigD2_nonpos {x : ℝ} (hx : 0 ≤ x) : sigD 2 x ≤ 0 := by
  have h1 := sigmoid_pos x
  have h2 := sigmoid_lt_one x
  have h3 : 1 / 2 ≤ sigmoid x := by
    have := sigmoid_strictMono.monotone hx
    have e : sigmoid 0 = 1 / 2 := by rw [sigmoid_eq]; norm_num
    rwa [e] at this
  simp only [sigD, sigmoid_neg]
  apply mul_nonpos_of_nonneg_of_nonpos
  · apply mul_nonneg <;> linarith
  · linarith

theorem softplus_evenHessian : EvenHessian (derivFun .softplus) where
  deriv := fun i hi x => hasDerivAt_derivFun (n := .softplus) (by simp [supportedOrder]; omega) trivial
  even := fun x => by simp only [derivFun, sigD, neg_neg]; ring
  dec := fun x hx => sigD2_nonpos hx

/-- **C32 (generic).** `sharp_quadratic_enclosure_even_symmetric_hessian` encloses `f` over the trust
region, for every `f` whose Hessian is even and decreasing on the nonnegative reals, every `x0` and every
trust region containing it (cap aside), and the upper end is attained in the trust region. -/
theorem C32_quadratic {D : ℕ → ℝ → ℝ} (hD : EvenHessian D) {x0 a b : ℝ} (hx0 : x0 ∈ Icc a b)
    (ha : NotCapped x0 2 a) (hb : NotCapped x0 2 b) (hc : NotCapped x0 2 (clip (-x0) a b)) :
    ∃ s, sharpQuadratic x0 a b (D 0) (taylorCoeffs D 2 x0) = .ok s ∧ s.1.length = 2 ∧ s.2.1 ≤ s.2.2 ∧
      SEncl.EnclosesFun s (D 0) x0 a b := by
  have hab : a ≤ b := hx0.1.trans hx0.2
  obtain ⟨u1, u2⟩ := hD.unimodal x0
  have key : ∀ x ∈ Icc a b, min (rho D x0 2 a) (rho D x0 2 b) ≤ rho D x0 2 x ∧
      rho D x0 2 x ≤ rho D x0 2 (clip (-x0) a b) := by
    intro x hx
    constructor
    · rcases le_total x (-x0) with h | h
      · exact (min_le_left _ _).trans (u1 (hx.1.trans h) h hx.1)
      · exact (min_le_right _ _).trans (u2 h (h.trans hx.2) hx.2)
    · unfold clip
      rcases le_total (-x0) a with h | h
      · rw [max_eq_right h, min_eq_left hab]
        exact u2 h (h.trans hx.1) hx.1
      · rw [max_eq_left h]
        rcases le_total (-x0) b with h' | h'
        · rw [min_eq_left h']
          rcases le_total x (-x0) with h'' | h''
          · exact u1 h'' (mem_Iic.2 le_rfl) h''
          · exact u2 (mem_Ici.2 le_rfl) h'' h''
        · rw [min_eq_right h']
          exact u1 (hx.2.trans h') h' hx.2
  refine ⟨((taylorCoeffs D 2 x0).take 2, (min (rho D x0 2 a) (rho D x0 2 b),
    rho D x0 2 (clip (-x0) a b))), ?_, by simp [taylorCoeffs], ?_, ?_⟩
  · unfold sharpQuadratic
    rw [ratio_rho D ha, ratio_rho D hb, ratio_rho D hc]
    rfl
  · have := key x0 hx0
    exact this.1.trans this.2
  · intro x h1 h2
    exact has_of_rho (key x ⟨h1, h2⟩).1 (key x ⟨h1, h2⟩).2

/-- **C32.** `softplus_enclosure` of degree 2. -/
theorem C32_softplus2 {x0 a b : ℝ} (hx0 : x0 ∈ Icc a b) (ha : NotCapped x0 2 a)
    (hb : NotCapped x0 2 b) (hc : NotCapped x0 2 (clip (-x0) a b)) :
    BuiltinSound .softplus 2 x0 a b := by
  have hk : supportedOrder .softplus 2 := by simp [supportedOrder]
  have hd : getFunctionData ⟨.softplus, 2⟩ = .ok ⟨[], [0], false, false, true⟩ := rfl
  unfold BuiltinSound
  rw [elementwise_eq hk hd ha hb (getRange_ok hk hd a b), ← derivFun_zero]
  simpa using C32_quadratic softplus_evenHessian hx0 ha hb hc

/-- The hypotheses of C32 are met by `x0 = -1`, `[a, b] = [-3, 2]`. -/
example : BuiltinSound .softplus 2 (-1) (-3) 2 :=
  C32_softplus2 (by norm_num) (Or.inr (by norm_num)) (Or.inr (by norm_num))
    (Or.inr (by norm_num [clip]))

theorem extrema_sigmoid1 : ExtremaOf (sigD 1) [] [0] := by
  have hd : ∀ x, HasDerivAt (sigD 1) (sigD 2 x) x := fun x => hasDerivAt_sigD (by norm_num) x
  have he : EvenHessian (derivFun .softplus) := softplus_evenHessian
  refine ⟨by simp, by simp, ?_, ?_⟩
  · intro m hm u _
    rw [List.mem_singleton.1 hm]
    exact he.monotone2.mono fun x hx => hx.2
  · intro m hm v _
    rw [List.mem_singleton.1 hm]
    exact he.antitone2.mono fun x hx => hx.1

/-- **C33 (sigmoid, degree 0 and 1).** -/
theorem C33_sigmoid {k : ℕ} (hk : k ≤ 1) {x0 a b : ℝ} (hx0 : x0 ∈ Icc a b) (ha : NotCapped x0 k a)
    (hb : NotCapped x0 k b) : BuiltinSound .sigmoid k x0 a b := by
  have : k = 0 ∨ k = 1 := by omega
  rcases this with rfl | rfl
  · exact builtin_of_flag (n := .sigmoid) (k := 0) (by simp [supportedOrder]) rfl (Or.inr rfl) hx0
      (subset_univ _) ha hb
  · have hs : supportedOrder .sigmoid 1 := by simp [supportedOrder]
    have hd : getFunctionData ⟨.sigmoid, 1⟩ = .ok ⟨[], [0], false, false, true⟩ := rfl
    have hmo := C28_monotone_over (d := ⟨[], [0], false, false, true⟩) extrema_sigmoid1 (by simp) (by simp) a b
    have hab : a ≤ b := hx0.1.trans hx0.2
    refine C33_truthful_tables hs hd hx0 (subset_univ _) ha hb (by simp) hmo.1 hmo.2 ?_
    intro _ _ r hr x hx
    rw [getRange_ok hs hd] at hr
    obtain rfl := Except.ok.inj hr
    have he := softplus_evenHessian
    have hm : MonotoneOn (sigD 1) (Iic 0) := he.monotone2
    have hA : AntitoneOn (sigD 1) (Ici 0) := he.antitone2
    have hcont : ContinuousOn (sigD 1) (Icc a b) := fun y _ =>
      (hasDerivAt_sigD (k := 1) (by norm_num) y).continuousAt.continuousWithinAt
    have hle0 : ∀ y, sigD 1 y ≤ sigD 1 0 := fun y => by
      rcases le_total y 0 with h | h
      · exact hm h (mem_Iic.2 le_rfl) h
      · exact hA (mem_Ici.2 le_rfl) h h
    show minimumValue (sigD 1) a b [] ≤ sigD 1 x ∧ sigD 1 x ≤ maximumValue (sigD 1) a b [0]
    constructor
    · rcases minimumValue_spec (sigD 1) a b [] with ⟨y, hy, -⟩ | ⟨-, h⟩
      · cases hy
      · rw [h]
        rcases le_total x 0 with h0 | h0
        · exact (min_le_left _ _).trans (hm (hx.1.trans h0) h0 hx.1)
        · exact (min_le_right _ _).trans (hA h0 (h0.trans hx.2) hx.2)
    · rcases maximumValue_spec (sigD 1) a b [0] with ⟨y, hy, -, -, h, -⟩ | ⟨h1, h⟩
      · rw [h, List.mem_singleton.1 hy]; exact hle0 x
      · rw [h]
        have := h1 0 (by simp)
        rcases not_and_or.1 this with h2 | h2
        · have h2 := not_le.1 h2
          exact (hA h2.le (h2.le.trans hx.1) hx.1).trans (le_max_left _ _)
        · have h2 := not_le.1 h2
          exact (hm (hx.2.trans h2.le) h2.le hx.2).trans (le_max_right _ _)

/-! ### abs -/

theorem abs_rho_mono (x0 : ℝ) : Monotone (rho (derivFun .abs) x0 1) := by
  have hr : ∀ x, x ≠ x0 → rho (derivFun .abs) x0 1 x = (|x| - |x0|) / (x - x0) := fun x hx => by
    rw [rho, if_neg hx]; simp [derivFun]
  have hr0 : rho (derivFun .abs) x0 1 x0 = sgn x0 := by rw [rho, if_pos rfl]; simp [derivFun]
  have hsub : ∀ x, sgn x0 * (x - x0) ≤ |x| - |x0| := by
    intro x
    unfold sgn
    split_ifs with h1 h2
    · rw [abs_of_pos h1]; linarith [le_abs_self x]
    · rw [abs_of_neg h2]; linarith [neg_abs_le x]
    · have : x0 = 0 := le_antisymm (not_lt.1 h1) (not_lt.1 h2)
      rw [this]; simp
  have hconv : ConvexOn ℝ univ (fun x : ℝ => |x|) := by
    refine ⟨convex_univ, fun x _ y _ p q hp hq _ => ?_⟩
    simp only [smul_eq_mul]
    calc |p * x + q * y| ≤ |p * x| + |q * y| := abs_add_le _ _
      _ = p * |x| + q * |y| := by rw [abs_mul, abs_mul, abs_of_nonneg hp, abs_of_nonneg hq]
  intro x y hxy
  by_cases hx : x = x0
  · subst hx
    by_cases hy : y = x
    · subst hy; exact le_rfl
    · have hpos : 0 < y - x := sub_pos.2 (lt_of_le_of_ne hxy (Ne.symm hy))
      rw [hr0, hr y hy, le_div_iff₀ hpos]
      exact hsub y
  · by_cases hy : y = x0
    · subst hy
      have hneg : x - y < 0 := sub_neg.2 (lt_of_le_of_ne hxy hx)
      rw [hr0, hr x hx, div_le_iff_of_neg hneg]
      exact hsub x
    · rw [hr x hx, hr y hy]
      exact hconv.secant_mono (mem_univ _) (mem_univ _) (mem_univ _) hx hy hxy

/-- **C33 (abs).** Degree 0 and 1, every trust region (0 included). -/
theorem C33_abs {k : ℕ} (hk : k ≤ 1) {x0 a b : ℝ} (hx0 : x0 ∈ Icc a b) (ha : NotCapped x0 k a)
    (hb : NotCapped x0 k b) : BuiltinSound .abs k x0 a b := by
  have hab : a ≤ b := hx0.1.trans hx0.2
  have : k = 0 ∨ k = 1 := by omega
  rcases this with rfl | rfl
  · have hs : supportedOrder .abs 0 := by simp [supportedOrder]
    have hd : getFunctionData ⟨.abs, 0⟩ = .ok ⟨[0], [], false, false, true⟩ := rfl
    have hext : ExtremaOf (derivFun .abs 0) [0] [] := by
      refine ⟨?_, ?_, by simp, by simp⟩
      · intro m hm u _ x hx y hy h
        rw [List.mem_singleton.1 hm] at hx hy
        simp only [derivFun]
        rw [abs_of_nonpos hx.2, abs_of_nonpos hy.2]
        linarith
      · intro m hm u _ x hx y hy h
        rw [List.mem_singleton.1 hm] at hx hy
        simp only [derivFun]
        rwa [abs_of_nonneg hx.1, abs_of_nonneg hy.1]
    have hmo := C28_monotone_over (d := ⟨[0], [], false, false, true⟩) hext (by simp) (by simp) a b
    unfold BuiltinSound
    have hr := getRange_ok hs hd a b
    have hch : Chain (derivFun .abs) 0 (Icc a b) := fun i hi => by omega
    have hcx : Convex ℝ (Icc a b) := convex_Icc a b
    have hl : ((taylorCoeffs (derivFun .abs) 0 x0).take 0).length = 0 := by simp
    rw [elementwise_eq hs hd ha hb hr, ← derivFun_zero]
    simp only [Bool.false_eq_true, Bool.or_self, if_false, OfNat.zero_ne_ofNat, false_and]
    split_ifs with h3 h4
    · exact ⟨_, rfl, hl, enc_of_mono hx0 (Or.inr ⟨rho_anti hcx hch (hmo.1 h3) hx0, le_rfl, le_rfl⟩)⟩
    · exact ⟨_, rfl, hl, enc_of_mono hx0 (Or.inl ⟨rho_mono hcx hch (hmo.2 h4) hx0, le_rfl, le_rfl⟩)⟩
    · have hR : ∀ x ∈ Icc a b, minimumValue (derivFun .abs 0) a b [0] ≤ |x| ∧
          |x| ≤ maximumValue (derivFun .abs 0) a b [] := by
        intro x hx
        constructor
        · rcases minimumValue_spec (derivFun .abs 0) a b [0] with ⟨y, hy, -, -, h, -⟩ | ⟨h1, h⟩
          · rw [h, List.mem_singleton.1 hy]; simp [derivFun]
          · rw [h]
            have := h1 0 (by simp)
            simp only [derivFun]
            rcases not_and_or.1 this with h2 | h2
            · have h2 := not_le.1 h2
              rw [abs_of_pos h2, abs_of_pos (h2.trans_le hx.1)]
              exact (min_le_left _ _).trans hx.1
            · have h2 := not_le.1 h2
              rw [abs_of_neg h2, abs_of_neg (hx.2.trans_lt h2)]
              exact (min_le_right _ _).trans (neg_le_neg hx.2)
        · rcases maximumValue_spec (derivFun .abs 0) a b [] with ⟨y, hy, -⟩ | ⟨h1, h⟩
          · cases hy
          · rw [h]; simp only [derivFun]; exact abs_le_max_abs_abs hx.1 hx.2
      refine ⟨_, rfl, hl, ?_, fun x h1 h2 => has_of_rho ?_ ?_⟩
      · have := (hR x0 hx0).1.trans (hR x0 hx0).2
        simp only
        gcongr
      · exact le_rho hcx hch (fun x hx => (hR x hx).1) hx0 ⟨h1, h2⟩
      · exact rho_le hcx hch (fun x hx => (hR x hx).2) hx0 ⟨h1, h2⟩
  · have hs : supportedOrder .abs 1 := by simp [supportedOrder]
    have hd : getFunctionData ⟨.abs, 1⟩ = .ok ⟨[], [], false, true, false⟩ := rfl
    unfold BuiltinSound
    rw [elementwise_eq hs hd ha hb (getRange_ok hs hd a b), ← derivFun_zero]
    simp only [Bool.true_or, if_true]
    exact ⟨_, rfl, by simp [taylorCoeffs], enc_of_mono hx0
      (Or.inl ⟨(abs_rho_mono x0).monotoneOn _, le_rfl, le_rfl⟩)⟩

/-- C33 is not vacuous: `abs` of degree 1 at `x0 = 0` over `[-1, 2]`, `log` of degree 3 over `[1/2, 3]`. -/
example : BuiltinSound .abs 1 0 (-1) 2 ∧ BuiltinSound .log 3 1 (1 / 2) 3 :=
  ⟨C33_abs le_rfl (by norm_num) (Or.inr (by norm_num)) (Or.inr (by norm_num)),
    C33_log 3 (by norm_num) (by norm_num) (Or.inr (by norm_num [abs_of_neg]))
      (Or.inr (by norm_num))⟩

/-- **C33 (rejection).** `abs_enclosure` of degree 2 or more raises `NotImplementedError`. -/
theorem C33_abs_unsupported {k : ℕ} (hk : 2 ≤ k) (x0 a b : ℝ) :
    getElementwiseTaylorEnclosure ABS x0 a b k = .error .notImplemented := by
  obtain ⟨k, rfl⟩ := Nat.exists_eq_add_of_le hk
  have : getFunctionData (ABS.derivativeId (2 + k)) = .error .notImplemented := by
    have : ABS.derivativeId (2 + k) = ⟨.abs, k + 2⟩ := by simp [ABS, FunctionId.derivativeId, Nat.add_comm]
    rw [this]; rfl
  unfold getElementwiseTaylorEnclosure
  rw [show getFunction ABS = .ok _ from rfl, py_ok_bind]
  simp only [this]
  rfl

end AB
