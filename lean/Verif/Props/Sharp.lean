/-
C77: where the code uses the rule for monotone derivatives (or the quadratic rule for softplus), no better enclosure of the
same degree exists: the coefficients are forced, and the final interval is contained in that of every other enclosure.
-/
import Verif.Spec.Sharp
import Verif.Props.Builtin
import Verif.Props.Pow
import Verif.Props.TaylorCoef
import Mathlib.Data.List.GetD

set_option linter.unusedSectionVars false

namespace AB
open PE EF Set Filter Topology

/-- the ratio is continuous at the expansion point -/
theorem rho_continuous {D : ℕ → ℝ → ℝ} {k : ℕ} {x0 a b δ : ℝ} (hδ : 0 < δ) (hx0 : x0 ∈ Icc a b)
    (hD : Chain D k (Icc a b ∩ Icc (x0 - δ) (x0 + δ))) (hc : ContinuousWithinAt (D k) (Icc a b) x0) :
    ContinuousWithinAt (rho D x0 k) (Icc a b) x0 := by
  have h0 : rho D x0 k x0 = D k x0 / k.factorial := by rw [rho, if_pos rfl]
  rw [Metric.continuousWithinAt_iff] at hc ⊢
  intro ε hε
  have hk : (0 : ℝ) < k.factorial := by exact_mod_cast k.factorial_pos
  obtain ⟨η, hη, hc⟩ := hc (ε * k.factorial / 2) (by positivity)
  refine ⟨min (η / 2) δ, lt_min (half_pos hη) hδ, fun {x} hx hd => ?_⟩
  rw [Real.dist_eq] at hd
  set s := Icc a b ∩ Icc (x0 - min (η / 2) δ) (x0 + min (η / 2) δ) with hs
  have hsub : s ⊆ Icc a b ∩ Icc (x0 - δ) (x0 + δ) := by
    intro y hy
    exact ⟨hy.1, by linarith [hy.2.1, min_le_right (η / 2) δ], by linarith [hy.2.2, min_le_right (η / 2) δ]⟩
  have hcx : Convex ℝ s := (convex_Icc _ _).inter (convex_Icc _ _)
  have hm : 0 < min (η / 2) δ := lt_min (half_pos hη) hδ
  have m0 : x0 ∈ s := ⟨hx0, by linarith, by linarith⟩
  have hch : Chain D k s := fun i hi y hy => (hD i hi y (hsub hy)).mono hsub
  have hb : ∀ y ∈ s, |D k y - D k x0| ≤ ε * k.factorial / 2 := by
    intro y hy
    have := hc hy.1 (by
      rw [Real.dist_eq, abs_lt]
      constructor <;> linarith [hy.2.1, hy.2.2, min_le_left (η / 2) δ])
    rw [Real.dist_eq] at this
    exact this.le
  have hxs : x ∈ s := by
    have := abs_lt.1 hd
    exact ⟨hx, by linarith [this.1], by linarith [this.2]⟩
  have u := rho_le hcx hch (M := D k x0 + ε * k.factorial / 2) (fun y hy => by linarith [(abs_le.1 (hb y hy)).2]) m0 hxs
  have l := le_rho hcx hch (m := D k x0 - ε * k.factorial / 2) (fun y hy => by linarith [(abs_le.1 (hb y hy)).1]) m0 hxs
  rw [h0, Real.dist_eq, abs_lt]
  have e1 : (D k x0 + ε * k.factorial / 2) / k.factorial = D k x0 / k.factorial + ε / 2 := by field_simp
  have e2 : (D k x0 - ε * k.factorial / 2) / k.factorial = D k x0 / k.factorial - ε / 2 := by field_simp
  rw [e1] at u
  rw [e2] at l
  constructor <;> linarith

/-- an enclosure whose end points are values of the ratio is the smallest one -/
theorem smallest_of_attained {D : ℕ → ℝ → ℝ} {k : ℕ} {x0 a b l u e1 e2 : ℝ} (hab : a < b) (hx0 : x0 ∈ Icc a b)
    (he1 : e1 ∈ Icc a b) (he2 : e2 ∈ Icc a b)
    (hc : e1 = x0 ∨ e2 = x0 → ContinuousWithinAt (rho D x0 k) (Icc a b) x0)
    (hl : l = rho D x0 k e1) (hu : u = rho D x0 k e2)
    (henc : SEncl.EnclosesFun ((taylorCoeffs D k x0).take k, (l, u)) (D 0) x0 a b) :
    SEncl.Smallest ((taylorCoeffs D k x0).take k, (l, u)) (D 0) x0 a b := by
  refine ⟨henc, fun t ht henc' => ?_⟩
  have hlen : ((taylorCoeffs D k x0).take k).length = k := by simp [taylorCoeffs]
  replace ht : t.1.length = k := ht.trans hlen
  have hget : ∀ i ∈ Finset.range k, ((taylorCoeffs D k x0).take k).getD i 0 = D i x0 / i.factorial := by
    intro i hi
    have hi := Finset.mem_range.1 hi
    rw [List.getD_eq_getElem?_getD, List.getElem?_take, if_pos hi, ← List.getD_eq_getElem?_getD,
      taylorCoeffs_getD D hi.le]
  -- the coefficients
  have hcoef : ∀ i < k, t.1.getD i 0 - ((taylorCoeffs D k x0).take k).getD i 0 = 0 := by
    have key : ∀ σ : ℝ, (σ = 1 ∨ σ = -1) → ∀ ε > 0, (∀ τ ∈ Ioo 0 ε, x0 + σ * τ ∈ Icc a b) →
        ∀ i < k, t.1.getD i 0 - ((taylorCoeffs D k x0).take k).getD i 0 = 0 := by
      intro σ hσ ε hε hmem i hi
      have hσ1 : |σ| = 1 := by rcases hσ with rfl | rfl <;> simp
      have hσ0 : σ ≠ 0 := by rcases hσ with rfl | rfl <;> norm_num
      have := poly_zero_of_bound (d := k)
        (r := fun i => (t.1.getD i 0 - ((taylorCoeffs D k x0).take k).getD i 0) * σ ^ i)
        (C := max |t.2.1| |t.2.2| + max |l| |u|) hε ?_ i hi
      · exact (mul_eq_zero.1 this).resolve_right (pow_ne_zero _ hσ0)
      · intro τ hτ
        obtain ⟨m1, m2⟩ := hmem τ hτ
        obtain ⟨r, r1, r2, r3⟩ := henc _ m1 m2
        obtain ⟨q, q1, q2, q3⟩ := henc' _ m1 m2
        simp only [hlen, ht, add_sub_cancel_left] at r1 r2 r3 q3
        have e : ∑ i ∈ Finset.range k, (t.1.getD i 0 - ((taylorCoeffs D k x0).take k).getD i 0) * σ ^ i * τ ^ i =
            (r - q) * (σ * τ) ^ k := by
          have : ∑ i ∈ Finset.range k, (t.1.getD i 0 - ((taylorCoeffs D k x0).take k).getD i 0) * σ ^ i * τ ^ i =
              ∑ i ∈ Finset.range k, t.1.getD i 0 * (σ * τ) ^ i -
                ∑ i ∈ Finset.range k, ((taylorCoeffs D k x0).take k).getD i 0 * (σ * τ) ^ i := by
            rw [← Finset.sum_sub_distrib]
            refine Finset.sum_congr rfl fun i _ => ?_
            rw [mul_pow]; ring
          rw [this]
          linarith
        rw [e, abs_mul, abs_pow, abs_mul, hσ1, one_mul, abs_of_pos hτ.1]
        refine mul_le_mul_of_nonneg_right ?_ (pow_nonneg hτ.1.le _)
        refine (abs_sub _ _).trans ?_
        have := abs_le_max_abs_abs r1 r2
        have := abs_le_max_abs_abs q1 q2
        linarith
    rcases lt_or_ge x0 b with h | h
    · exact key 1 (Or.inl rfl) (b - x0) (by linarith) fun τ hτ =>
        ⟨by linarith [hτ.1, hx0.1], by linarith [hτ.2]⟩
    · exact key (-1) (Or.inr rfl) (x0 - a) (by linarith) fun τ hτ =>
        ⟨by linarith [hτ.2], by linarith [hτ.1, hx0.2]⟩
  have hlist : t.1 = (taylorCoeffs D k x0).take k := by
    refine List.ext_getElem (ht.trans hlen.symm) fun i h1 h2 => ?_
    have := sub_eq_zero.1 (hcoef i (ht ▸ h1))
    rwa [List.getD_eq_getElem _ _ h1, List.getD_eq_getElem _ _ h2] at this
  -- the final interval
  have hrho : ∀ e ∈ Icc a b, e ≠ x0 → t.2.1 ≤ rho D x0 k e ∧ rho D x0 k e ≤ t.2.2 := by
    intro e he hne
    obtain ⟨r, h1, h2, h3⟩ := henc' e he.1 he.2
    have hsum : ∑ i ∈ Finset.range k, ((taylorCoeffs D k x0).take k).getD i 0 * (e - x0) ^ i =
        ∑ i ∈ Finset.range k, D i x0 / i.factorial * (e - x0) ^ i :=
      Finset.sum_congr rfl fun i hi => by rw [hget i hi]
    rw [hlist, hlen, rho_spec D x0 k e, hsum] at h3
    have h4 := mul_right_cancel₀ (pow_ne_zero _ (sub_ne_zero.2 hne)) (add_left_cancel h3)
    rw [h4]; exact ⟨h1, h2⟩
  have hall : ∀ e ∈ Icc a b, (e = x0 → ContinuousWithinAt (rho D x0 k) (Icc a b) x0) →
      t.2.1 ≤ rho D x0 k e ∧ rho D x0 k e ≤ t.2.2 := by
    intro e he hce
    by_cases hne : e = x0
    · subst hne
      have hcw := (hce rfl).mono (sdiff_subset (t := {e}))
      have : (𝓝[Icc a b \ {e}] e).NeBot := by
        have : (𝓝[Icc a b ∩ {e}ᶜ] e).NeBot := by
          rw [mem_closure_iff_nhdsWithin_neBot.symm]
          rcases lt_or_ge e b with h | h
          · have : closure (Ioo e b) ⊆ closure (Icc a b ∩ {e}ᶜ) := closure_mono fun y hy =>
              ⟨⟨he.1.trans hy.1.le, hy.2.le⟩, hy.1.ne'⟩
            exact this (by rw [closure_Ioo h.ne]; exact left_mem_Icc.2 h.le)
          · have h' : a < e := hab.trans_le h
            have : closure (Ioo a e) ⊆ closure (Icc a b ∩ {e}ᶜ) := closure_mono fun y hy =>
              ⟨⟨hy.1.le, hy.2.le.trans he.2⟩, hy.2.ne⟩
            exact this (by rw [closure_Ioo h'.ne]; exact right_mem_Icc.2 h'.le)
        exact this
      have hev : ∀ᶠ y in 𝓝[Icc a b \ {e}] e, y ∈ Icc a b \ {e} := self_mem_nhdsWithin
      exact ⟨ge_of_tendsto hcw (hev.mono fun y hy => (hrho y hy.1 hy.2).1),
        le_of_tendsto hcw (hev.mono fun y hy => (hrho y hy.1 hy.2).2)⟩
    · exact hrho e he hne
  refine ⟨hlist, ?_, ?_⟩
  · show t.2.1 ≤ l
    rw [hl]; exact (hall e1 he1 fun h => hc (Or.inl h)).1
  · show u ≤ t.2.2
    rw [hu]; exact (hall e2 he2 fun h => hc (Or.inr h)).2

/-- the enclosure returned for the built-in function `n` is the smallest one of degree `k` -/
def BuiltinSmallest (n : FName) (k : ℕ) (x0 a b : ℝ) : Prop :=
  ∃ s, getElementwiseTaylorEnclosure ⟨n, 0⟩ x0 a b k = .ok s ∧ s.1.length = k ∧ SEncl.Smallest s (mathFun n) x0 a b

theorem continuous_sigmoid : Continuous sigmoid :=
  continuous_iff_continuousAt.2 fun x => (hasDerivAt_sigmoid x).continuousAt

theorem continuous_sigD (k : ℕ) : Continuous (sigD k) := by
  have h := continuous_sigmoid
  have h' : Continuous fun x : ℝ => sigmoid (-x) := h.comp continuous_neg
  match k with
  | 0 => exact h
  | 1 => exact h.mul h'
  | 2 => exact (h.mul h').mul (by fun_prop)
  | 3 => show Continuous fun x => sigmoid x * sigmoid (-x) * ((1 - 2 * sigmoid x) ^ 2 - 2 * sigmoid x * sigmoid (-x)); fun_prop
  | 4 => show Continuous fun x => sigmoid x * sigmoid (-x) * (1 - 2 * sigmoid x) *
        ((1 - 2 * sigmoid x) ^ 2 - 2 * sigmoid x * sigmoid (-x)) +
      sigmoid x * sigmoid (-x) * (-4 * (1 - 2 * sigmoid x) * sigmoid x * sigmoid (-x) -
        2 * sigmoid x * sigmoid (-x) * (1 - 2 * sigmoid x)); fun_prop
  | k + 5 => exact continuous_const

theorem continuousAt_derivFun {n : FName} {k : ℕ} (hk : supportedOrder n k) {x : ℝ} (hx : x ∈ smoothDomain n) :
    ContinuousAt (derivFun n k) x := by
  match n, k with
  | .abs, 0 => exact continuous_abs.continuousAt
  | .abs, 1 =>
    have : derivFun .abs 1 =ᶠ[𝓝 x] fun _ => sgn x := by
      rcases lt_or_gt_of_ne (show x ≠ 0 from hx) with h | h
      · filter_upwards [Iio_mem_nhds h] with y hy
        have hy : y < 0 := hy
        simp [derivFun, sgn, h, hy, not_lt.2 h.le, not_lt.2 hy.le]
      · filter_upwards [Ioi_mem_nhds h] with y hy
        have hy : 0 < y := hy
        simp [derivFun, sgn, h, hy]
    exact continuousAt_const.congr this.symm
  | .abs, k + 2 => simp [supportedOrder] at hk
  | .exp, k => exact (hasDerivAt_derivFun (n := .exp) (k := k) trivial hx).continuousAt
  | .log, k => exact (hasDerivAt_derivFun (n := .log) (k := k) trivial hx).continuousAt
  | .sigmoid, k => exact (continuous_sigD k).continuousAt
  | .softplus, 0 => exact (hasDerivAt_derivFun (n := .softplus) (k := 0) (by simp [supportedOrder]) hx).continuousAt
  | .softplus, k + 1 => exact (continuous_sigD k).continuousAt
  | .swish, k =>
    have : Continuous (swishD k) := by
      have h1 := continuous_sigD (k - 1)
      have h2 := continuous_sigD k
      show Continuous fun x => (k : ℝ) * sigD (k - 1) x + x * sigD k x
      fun_prop
    exact this.continuousAt
  | .other _, _ => exact continuousAt_const

theorem derivFun_rho_continuous {n : FName} {k : ℕ} (hk : supportedOrder n k) {x0 a b : ℝ} (hx0 : x0 ∈ Icc a b)
    (hdom : x0 ∈ smoothDomain n) : ContinuousWithinAt (rho (derivFun n) x0 k) (Icc a b) x0 := by
  obtain ⟨δ, hδ, hb⟩ := Metric.isOpen_iff.1 (isOpen_smoothDomain n) x0 hdom
  refine rho_continuous (half_pos hδ) hx0 (fun i hi x hx => ?_) (continuousAt_derivFun hk hdom).continuousWithinAt
  have hx' : x ∈ smoothDomain n := hb (by
    rw [Metric.mem_ball, Real.dist_eq, abs_lt]
    constructor <;> linarith [hx.2.1, hx.2.2])
  exact (hasDerivAt_derivFun (supportedOrder_mono hk hi) hx').hasDerivWithinAt

/-- whenever one of the sharp rules is used and the result is sound, it is the smallest enclosure -/
theorem smallest_of_rule {n : FName} {k : ℕ} (hk : supportedOrder n k) {d : FunctionData ℝ}
    (hd : getFunctionData ⟨n, k⟩ = .ok d) {x0 a b : ℝ} (hab : a < b) (hx0 : x0 ∈ Icc a b)
    (hc : ContinuousWithinAt (rho (derivFun n) x0 k) (Icc a b) x0 ∨ (k = 1 ∧ a < x0 ∧ x0 < b))
    (ha : NotCapped x0 k a) (hb : NotCapped x0 k b)
    (hcl : k = 2 → d.evenSymmetric = true → NotCapped x0 2 (clip (-x0) a b))
    (hrule : k = 0 ∨ (k = 2 ∧ d.evenSymmetric = true) ∨ d.increasing = true ∨ d.decreasing = true ∨
      (d.monotoneOver a b).1 = true ∨ (d.monotoneOver a b).2 = true)
    (hsound : BuiltinSound n k x0 a b) : BuiltinSmallest n k x0 a b := by
  obtain ⟨s, hs, hlen, -, henc⟩ := hsound
  refine ⟨s, hs, hlen, ?_⟩
  have hl := left_mem_Icc.2 hab.le
  have hr := right_mem_Icc.2 hab.le
  rw [elementwise_eq hk hd ha hb (getRange_ok hk hd a b)] at hs
  rw [← derivFun_zero] at henc ⊢
  have hce : ∀ {e1 e2 : ℝ}, (e1 = a ∨ e1 = b) → (e2 = a ∨ e2 = b) → e1 = x0 ∨ e2 = x0 →
      ContinuousWithinAt (rho (derivFun n) x0 k) (Icc a b) x0 := by
    intro e1 e2 h1 h2 h
    refine hc.resolve_right ?_
    rintro ⟨-, h3, h4⟩
    rcases h with h | h
    · rcases h1 with rfl | rfl <;> linarith
    · rcases h2 with rfl | rfl <;> linarith
  have hc2 : k ≠ 1 → ContinuousWithinAt (rho (derivFun n) x0 k) (Icc a b) x0 := fun h => hc.resolve_right fun h' => h h'.1
  split_ifs at hs with h1 h2 h3 h4 h5
  · obtain rfl := Except.ok.inj hs
    exact smallest_of_attained hab hx0 hl hr (hce (Or.inl rfl) (Or.inr rfl)) rfl rfl henc
  · obtain rfl := Except.ok.inj hs
    exact smallest_of_attained hab hx0 hr hl (hce (Or.inr rfl) (Or.inl rfl)) rfl rfl henc
  · obtain rfl := h3.1
    unfold sharpQuadratic at hs
    rw [ratio_rho (derivFun n) ha, ratio_rho (derivFun n) hb, ratio_rho (derivFun n) (hcl rfl h3.2)] at hs
    obtain rfl := Except.ok.inj hs
    have hcm : clip (-x0) a b ∈ Icc a b := ⟨le_min (le_max_right _ _) hab.le, min_le_right _ _⟩
    rcases min_choice (rho (derivFun n) x0 2 a) (rho (derivFun n) x0 2 b) with h | h
    · exact smallest_of_attained hab hx0 hl hcm (fun _ => hc2 (by norm_num)) h rfl henc
    · exact smallest_of_attained hab hx0 hr hcm (fun _ => hc2 (by norm_num)) h rfl henc
  · obtain rfl := Except.ok.inj hs
    exact smallest_of_attained hab hx0 hr hl (hce (Or.inr rfl) (Or.inl rfl)) rfl rfl henc
  · obtain rfl := Except.ok.inj hs
    exact smallest_of_attained hab hx0 hl hr (hce (Or.inl rfl) (Or.inr rfl)) rfl rfl henc
  · have hk0 : k = 0 := by
      rcases hrule with h | h | h | h | h | h
      · exact h
      · exact absurd h h3
      · simp [h] at h1
      · simp [h] at h1
      · exact absurd h h4
      · exact absurd h h5
    subst hk0
    obtain rfl := Except.ok.inj hs
    have hrho : ∀ e, rho (derivFun n) x0 0 e = derivFun n 0 e := fun e => by
      have := rho_spec (derivFun n) x0 0 e
      simpa using this.symm
    obtain ⟨e1, m1, q1⟩ : ∃ e ∈ Icc a b, minimumValue (derivFun n 0) a b d.localMinima = derivFun n 0 e := by
      rcases minimumValue_spec (derivFun n 0) a b d.localMinima with ⟨y, -, y1, y2, h, -⟩ | ⟨-, h⟩
      · exact ⟨y, ⟨y1, y2⟩, h⟩
      · rcases min_choice (derivFun n 0 a) (derivFun n 0 b) with h' | h'
        · exact ⟨a, hl, h.trans h'⟩
        · exact ⟨b, hr, h.trans h'⟩
    obtain ⟨e2, m2, q2⟩ : ∃ e ∈ Icc a b, maximumValue (derivFun n 0) a b d.localMaxima = derivFun n 0 e := by
      rcases maximumValue_spec (derivFun n 0) a b d.localMaxima with ⟨y, -, y1, y2, h, -⟩ | ⟨-, h⟩
      · exact ⟨y, ⟨y1, y2⟩, h⟩
      · rcases max_choice (derivFun n 0 a) (derivFun n 0 b) with h' | h'
        · exact ⟨a, hl, h.trans h'⟩
        · exact ⟨b, hr, h.trans h'⟩
    refine smallest_of_attained hab hx0 m1 m2 (fun _ => hc2 (by norm_num)) ?_ ?_ henc
    · rw [hrho, q1]; simp
    · rw [hrho, q2]; simp

/-- **C77 (where the code uses a sharp rule).** Every built-in function and supported degree `k`: if the degree is 0, or the
`k`-th derivative is tabulated as monotone over the trust region, or the quadratic rule for even second derivatives is
used, and the result is an enclosure of the function, then no enclosure of the same degree is smaller. -/
theorem C77_sharp_rule {n : FName} {k : ℕ} (hk : supportedOrder n k) {d : FunctionData ℝ}
    (hd : getFunctionData ⟨n, k⟩ = .ok d) {x0 a b : ℝ} (hab : a < b) (hx0 : x0 ∈ Icc a b) (hdom : x0 ∈ smoothDomain n)
    (ha : NotCapped x0 k a) (hb : NotCapped x0 k b) (hcl : k = 2 → d.evenSymmetric = true → NotCapped x0 2 (clip (-x0) a b))
    (hrule : k = 0 ∨ (k = 2 ∧ d.evenSymmetric = true) ∨ d.increasing = true ∨ d.decreasing = true ∨
      (d.monotoneOver a b).1 = true ∨ (d.monotoneOver a b).2 = true)
    (hsound : BuiltinSound n k x0 a b) : BuiltinSmallest n k x0 a b :=
  smallest_of_rule hk hd hab hx0 (Or.inl (derivFun_rho_continuous hk hx0 hdom)) ha hb hcl hrule hsound

/-- the rule for functions with a flag -/
theorem smallest_of_flag {n : FName} {k : ℕ} (hk : supportedOrder n k) {x y : Bool}
    (hd : getFunctionData ⟨n, k⟩ = .ok ⟨[], [], x, y, false⟩) (hxy : x = true ∨ y = true) {x0 a b : ℝ} (hab : a < b)
    (hx0 : x0 ∈ Icc a b) (hdom : Icc a b ⊆ smoothDomain n) (ha : NotCapped x0 k a) (hb : NotCapped x0 k b) :
    BuiltinSmallest n k x0 a b := by
  refine C77_sharp_rule hk hd hab hx0 (hdom hx0) ha hb (fun _ h => by cases h) ?_ (builtin_of_flag hk hd hxy hx0 hdom ha hb)
  rcases hxy with h | h
  · exact Or.inr (Or.inr (Or.inr (Or.inl h)))
  · exact Or.inr (Or.inr (Or.inl h))

/-- **C77 (exp).** Every degree, every trust region with more than one point. -/
theorem C77_exp (k : ℕ) {x0 a b : ℝ} (hab : a < b) (hx0 : x0 ∈ Icc a b) (ha : NotCapped x0 k a)
    (hb : NotCapped x0 k b) : BuiltinSmallest .exp k x0 a b :=
  smallest_of_flag (n := .exp) (k := k) trivial rfl (Or.inr rfl) hab hx0 (subset_univ _) ha hb

/-- **C77 (log).** Every degree, every positive trust region with more than one point. -/
theorem C77_log (k : ℕ) {x0 a b : ℝ} (hpos : 0 < a) (hab : a < b) (hx0 : x0 ∈ Icc a b) (ha : NotCapped x0 k a)
    (hb : NotCapped x0 k b) : BuiltinSmallest .log k x0 a b := by
  refine smallest_of_flag (n := .log) (k := k) (x := k % 2 == 1) (y := k % 2 == 0) trivial rfl ?_ hab hx0
    (fun x hx => hpos.trans_le hx.1) ha hb
  rcases Nat.mod_two_eq_zero_or_one k with h | h <;> simp [h]

/-- **C77 (softplus).** Degrees 0, 1 and 2. -/
theorem C77_softplus {k : ℕ} (hk : k ≤ 2) {x0 a b : ℝ} (hab : a < b) (hx0 : x0 ∈ Icc a b) (ha : NotCapped x0 k a)
    (hb : NotCapped x0 k b) (hc : k = 2 → NotCapped x0 2 (clip (-x0) a b)) : BuiltinSmallest .softplus k x0 a b := by
  have : k = 0 ∨ k = 1 ∨ k = 2 := by omega
  rcases this with rfl | rfl | rfl
  · exact smallest_of_flag (n := .softplus) (k := 0) (by simp [supportedOrder]) rfl (Or.inr rfl) hab hx0
      (subset_univ _) ha hb
  · exact smallest_of_flag (n := .softplus) (k := 1) (by simp [supportedOrder]) rfl (Or.inr rfl) hab hx0
      (subset_univ _) ha hb
  · exact C77_sharp_rule (d := ⟨[], [0], false, false, true⟩) (by simp [supportedOrder]) rfl hab hx0 trivial ha hb
      (fun _ _ => hc rfl) (Or.inr (Or.inl ⟨rfl, rfl⟩)) (C32_softplus2 hx0 ha hb (hc rfl))

/-- **C77 (sigmoid).** Degree 0; degree 1 on either side of 0. -/
theorem C77_sigmoid {k : ℕ} {x0 a b : ℝ} (hk : k = 0 ∨ (k = 1 ∧ (0 ≤ a ∨ b ≤ 0))) (hab : a < b) (hx0 : x0 ∈ Icc a b)
    (ha : NotCapped x0 k a) (hb : NotCapped x0 k b) : BuiltinSmallest .sigmoid k x0 a b := by
  rcases hk with rfl | ⟨rfl, h⟩
  · exact smallest_of_flag (n := .sigmoid) (k := 0) (by simp [supportedOrder]) rfl (Or.inr rfl) hab hx0
      (subset_univ _) ha hb
  · refine C77_sharp_rule (d := ⟨[], [0], false, false, true⟩) (by simp [supportedOrder]) rfl hab hx0 trivial ha hb
      (fun h => by cases h) ?_ (C33_sigmoid le_rfl hx0 ha hb)
    rcases h with h | h
    · simp [FunctionData.monotoneOver, sorted, monotoneLoop, monotoneStep, h]
    · simp [FunctionData.monotoneOver, sorted, monotoneLoop, monotoneStep, betweenExtrema, h]

/-- **C77 (abs).** Degree 0; degree 1 unless `x0 = 0` is an end point. -/
theorem C77_abs {k : ℕ} {x0 a b : ℝ} (hk : k = 0 ∨ (k = 1 ∧ (x0 ≠ 0 ∨ (a < 0 ∧ 0 < b)))) (hab : a < b)
    (hx0 : x0 ∈ Icc a b) (ha : NotCapped x0 k a) (hb : NotCapped x0 k b) : BuiltinSmallest .abs k x0 a b := by
  rcases hk with rfl | ⟨rfl, h⟩
  · refine smallest_of_rule (d := ⟨[0], [], false, false, true⟩) (by simp [supportedOrder]) rfl hab hx0 (Or.inl ?_) ha hb
      (fun h => by cases h) (Or.inl rfl) (C33_abs (by norm_num) hx0 ha hb)
    exact rho_continuous one_pos hx0 (fun i hi => by omega) continuous_abs.continuousAt.continuousWithinAt
  · refine smallest_of_rule (d := ⟨[], [], false, true, false⟩) (by simp [supportedOrder]) rfl hab hx0 ?_ ha hb
      (fun h => by cases h) (Or.inr (Or.inr (Or.inl rfl))) (C33_abs le_rfl hx0 ha hb)
    by_cases h0 : x0 = 0
    · subst h0
      exact Or.inr ⟨rfl, h.resolve_left (by simp)⟩
    · exact Or.inl (derivFun_rho_continuous (by simp [supportedOrder]) hx0 h0)

/-- **C77 (powers).** `pow_enclosure`, every exponent and degree, on the regions of C34 with more than one point. -/
theorem C77_pow {p : Expo ℝ} {k : ℕ} {x0 a b : ℝ} (hab : a < b) (hx0 : x0 ∈ Icc a b) (hreg : PowRegion p k a b)
    (hfin : powFinite p k x0 a b) (ha : NotCapped x0 k a) (hb : NotCapped x0 k b) :
    ∃ s, powEnclosure (fun x p : ℝ => x ^ p) p x0 a b k = .ok s ∧ s.1.length = k ∧
      SEncl.Smallest s (powFun p) x0 a b := by
  obtain ⟨s, hs, hlen, -, henc⟩ := C34_pow hx0 hreg hfin ha hb
  refine ⟨s, hs, hlen, ?_⟩
  rw [← powD_zero] at henc ⊢
  have hok : ∃ δ > 0, ∀ x ∈ Icc a b ∩ Icc (x0 - δ) (x0 + δ), powOk p x := by
    cases p with
    | frac q =>
      have h0 : 0 < x0 := hfin.1
      exact ⟨x0 / 2, half_pos h0, fun x hx => by
        show 0 < x
        linarith [hx.2.1]⟩
    | int n =>
      refine ⟨1, one_pos, fun x hx => ?_⟩
      rcases hreg with h | h | h
      · exact Or.inr (h.trans_le hx.1.1).ne'
      · exact Or.inr (hx.1.2.trans_lt h).ne
      · exact Or.inl h.1
  obtain ⟨δ, hδ, hok⟩ := hok
  have hc : ContinuousWithinAt (rho (powD p) x0 k) (Icc a b) x0 :=
    rho_continuous hδ hx0 (powChain hok k)
      (hasDerivAt_powD (hok x0 ⟨hx0, by linarith, by linarith⟩) k).continuousAt.continuousWithinAt
  have hl := left_mem_Icc.2 hab.le
  have hr := right_mem_Icc.2 hab.le
  obtain ⟨rp, hrp⟩ := (C35_errors 1 p (k + 1)).2.2.1
  obtain ⟨e1, e2⟩ := powEnclosure_eq hfin ha hb hrp
  have fin : ∀ {l u : ℝ}, (l = rho (powD p) x0 k a ∨ l = rho (powD p) x0 k b) →
      (u = rho (powD p) x0 k a ∨ u = rho (powD p) x0 k b) → s = ((taylorCoeffs (powD p) k x0).take k, (l, u)) →
      SEncl.Smallest s (powD p 0) x0 a b := by
    rintro l u h1 h2 rfl
    rcases h1 with h1 | h1 <;> rcases h2 with h2 | h2
    · exact smallest_of_attained hab hx0 hl hl (fun _ => hc) h1 h2 henc
    · exact smallest_of_attained hab hx0 hl hr (fun _ => hc) h1 h2 henc
    · exact smallest_of_attained hab hx0 hr hl (fun _ => hc) h1 h2 henc
    · exact smallest_of_attained hab hx0 hr hr (fun _ => hc) h1 h2 henc
  cases p with
  | frac q =>
    rw [e1 q rfl] at hs
    have hs := (Except.ok.inj hs).symm
    split_ifs at hs
    · exact fin (Or.inl rfl) (Or.inr rfl) hs
    · exact fin (Or.inr rfl) (Or.inl rfl) hs
  | int n =>
    obtain ⟨rn, hrn⟩ := (C35_errors 1 (.int n) (k + 1)).2.2.2 n
    rw [e2 n rn rfl hrn _ _ rfl rfl] at hs
    have hs := (Except.ok.inj hs).symm
    have mc : ∀ {u v : ℝ}, (u = rho (powD (.int n)) x0 k a ∨ u = rho (powD (.int n)) x0 k b) →
        (v = rho (powD (.int n)) x0 k a ∨ v = rho (powD (.int n)) x0 k b) →
        (min u v = rho (powD (.int n)) x0 k a ∨ min u v = rho (powD (.int n)) x0 k b) ∧
        (max u v = rho (powD (.int n)) x0 k a ∨ max u v = rho (powD (.int n)) x0 k b) := by
      intro u v hu hv
      constructor
      · rcases min_choice u v with h | h <;> rw [h] <;> assumption
      · rcases max_choice u v with h | h <;> rw [h] <;> assumption
    have side : ∀ r : ℤ, ((if r ≥ 0 then (rho (powD (.int n)) x0 k a, rho (powD (.int n)) x0 k b)
        else (rho (powD (.int n)) x0 k b, rho (powD (.int n)) x0 k a)).1 = rho (powD (.int n)) x0 k a ∨
        (if r ≥ 0 then (rho (powD (.int n)) x0 k a, rho (powD (.int n)) x0 k b)
        else (rho (powD (.int n)) x0 k b, rho (powD (.int n)) x0 k a)).1 = rho (powD (.int n)) x0 k b) ∧
        ((if r ≥ 0 then (rho (powD (.int n)) x0 k a, rho (powD (.int n)) x0 k b)
        else (rho (powD (.int n)) x0 k b, rho (powD (.int n)) x0 k a)).2 = rho (powD (.int n)) x0 k a ∨
        (if r ≥ 0 then (rho (powD (.int n)) x0 k a, rho (powD (.int n)) x0 k b)
        else (rho (powD (.int n)) x0 k b, rho (powD (.int n)) x0 k a)).2 = rho (powD (.int n)) x0 k b) := by
      intro r
      split_ifs <;> simp
    by_cases h1 : a ≥ 0
    · rw [if_pos h1] at hs
      exact fin (side rp).1 (side rp).2 hs
    · rw [if_neg h1] at hs
      by_cases h3 : b ≤ 0
      · rw [if_pos h3] at hs
        exact fin (side rn).1 (side rn).2 hs
      · rw [if_neg h3] at hs
        exact fin (mc (side rp).1 (side rn).1).1 (mc (side rp).2 (side rn).2).2 hs

/-- The hypotheses are met, e.g. exp of degree 3 about 0 on [-1, 2], softplus of degree 2 about -1 on [-3, 2], and
`x ** -1` of degree 2 about 1 (an end point) on [1, 2]. -/
example : BuiltinSmallest .exp 3 0 (-1) 2 ∧ BuiltinSmallest .softplus 2 (-1) (-3) 2 ∧
    ∃ s, powEnclosure (fun x p : ℝ => x ^ p) (.int (-1)) 1 1 2 2 = .ok s ∧ s.1.length = 2 ∧
      SEncl.Smallest s (powFun (.int (-1))) 1 1 2 :=
  ⟨C77_exp 3 (by norm_num) (by norm_num) (Or.inr (by norm_num)) (Or.inr (by norm_num)),
    C77_softplus le_rfl (by norm_num) (by norm_num) (Or.inr (by norm_num)) (Or.inr (by norm_num))
      fun _ => Or.inr (by norm_num [clip]),
    C77_pow (by norm_num) (by norm_num) (Or.inl (by norm_num)) ⟨by norm_num, fun _ => Or.inl (by norm_num)⟩
      (Or.inl rfl) (Or.inr (by norm_num))⟩

/-- **C77 (counterexample).** Where the range of the derivative is used instead, the enclosure need not be the smallest: sigmoid,
degree 1, about 0 on [-1, 1]. -/
theorem C77_sigmoid1_counterexample : BuiltinSound .sigmoid 1 0 (-1) 1 ∧ ¬ BuiltinSmallest .sigmoid 1 0 (-1) 1 := by
  have hs := C33_sigmoid (k := 1) (x0 := 0) (a := -1) (b := 1) le_rfl (by norm_num) (Or.inr (by norm_num)) (Or.inr (by norm_num))
  refine ⟨hs, ?_⟩
  rintro ⟨s, h, -, -, hmin⟩
  have hso : supportedOrder .sigmoid 1 := by simp [supportedOrder]
  have hd : getFunctionData ⟨.sigmoid, 1⟩ = .ok ⟨[], [0], false, false, true⟩ := rfl
  have hmo : (⟨[], [0], false, false, true⟩ : FunctionData ℝ).monotoneOver (-1) 1 = (false, false) := by
    simp [FunctionData.monotoneOver, sorted, monotoneLoop, monotoneStep, betweenExtrema]
    try norm_num
  rw [elementwise_eq hso hd (Or.inr (by norm_num)) (Or.inr (by norm_num)) (getRange_ok hso hd _ _), hmo] at h
  simp only [Bool.or_self, Bool.false_eq_true, if_false, OfNat.one_ne_ofNat, false_and] at h
  obtain rfl := Except.ok.inj h
  have hrho : ∀ x : ℝ, x ≠ 0 → rho (derivFun .sigmoid) 0 1 x = (sigmoid x - 1 / 2) / x := by
    intro x hx
    have e : sigmoid 0 = 1 / 2 := by rw [sigmoid_eq]; norm_num
    rw [rho, if_neg hx]
    simp [derivFun, sigD, e]
  have hA : AntitoneOn (derivFun .sigmoid 1) (Icc 0 1) := softplus_evenHessian.antitone2.mono fun x hx => hx.1
  have hpos : AntitoneOn (rho (derivFun .sigmoid) 0 1) (Icc 0 1) :=
    rho_anti (F := derivFun .sigmoid) (k := 1) (x0 := 0) (convex_Icc 0 1) (fun i hi x _ => (hasDerivAt_derivFun (n := .sigmoid) (by simp [supportedOrder]; omega)
      trivial).hasDerivWithinAt) hA (by norm_num)
  have hneg : ∀ x : ℝ, rho (derivFun .sigmoid) 0 1 (-x) = rho (derivFun .sigmoid) 0 1 x := by
    intro x
    by_cases hx : x = 0
    · simp [hx]
    · rw [hrho x hx, hrho (-x) (neg_ne_zero.2 hx), sigmoid_neg]
      field_simp
      ring
  have hbd : ∀ x ∈ Icc (-1 : ℝ) 1, rho (derivFun .sigmoid) 0 1 1 ≤ rho (derivFun .sigmoid) 0 1 x ∧
      rho (derivFun .sigmoid) 0 1 x ≤ rho (derivFun .sigmoid) 0 1 0 := by
    intro x hx
    rcases le_total 0 x with h0 | h0
    · exact ⟨hpos ⟨h0, hx.2⟩ (by norm_num) hx.2, hpos (by norm_num) ⟨h0, hx.2⟩ h0⟩
    · have hm : -x ∈ Icc (0 : ℝ) 1 := ⟨by linarith, by linarith [hx.1]⟩
      rw [← hneg x]
      exact ⟨hpos hm (by norm_num) hm.2, hpos (by norm_num) hm hm.1⟩
  have := hmin ((taylorCoeffs (derivFun .sigmoid) 1 0).take 1, (rho (derivFun .sigmoid) 0 1 1, rho (derivFun .sigmoid) 0 1 0))
    (by simp [taylorCoeffs]) (by
      rw [← derivFun_zero]
      exact fun x h1 h2 => has_of_rho (hbd x ⟨h1, h2⟩).1 (hbd x ⟨h1, h2⟩).2)
  have h1 := this.2.1
  have hmv : minimumValue (derivFun .sigmoid 1) (-1) 1 [] ≤ sigD 1 1 := by
    rcases minimumValue_spec (derivFun .sigmoid 1) (-1) 1 [] with ⟨y, hy, -⟩ | ⟨-, h⟩
    · cases hy
    · rw [h]; exact min_le_right _ _
  replace h1 : rho (derivFun .sigmoid) 0 1 1 ≤ sigD 1 1 := le_trans (by simpa using h1) hmv
  rw [hrho 1 one_ne_zero] at h1
  simp only [sigD, sigmoid_neg] at h1
  have hsg : 5 / 7 < sigmoid 1 := by
    rw [sigmoid_eq]
    have : Real.exp (-1) < 2 / 5 := by
      have := Real.exp_neg_one_lt_d9
      linarith
    rw [lt_div_iff₀ (by positivity)]
    linarith
  nlinarith

end AB
