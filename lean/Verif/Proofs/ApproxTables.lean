/-
The exact extrema of the derivatives of sigmoid and swish, and how far they are from the listed ones.
-/
import Verif.Proofs.Approx
import Verif.Proofs.ExpBounds
import Mathlib.Topology.Order.IntermediateValue
import Mathlib.Tactic.Polyrith

set_option linter.unusedSectionVars false

namespace AB
open PE EF Set

/-! ### patterns of extrema -/

theorem extrema_one {f : ℝ → ℝ} {m : ℝ} (h1 : AntitoneOn f (Iic m)) (h2 : MonotoneOn f (Ici m)) :
    ExtremaOf f [m] [] := by
  refine ⟨?_, ?_, by simp, by simp⟩
  · intro m' hm u _
    obtain rfl := List.mem_singleton.1 hm
    exact h1.mono fun x hx => hx.2
  · intro m' hm u _
    obtain rfl := List.mem_singleton.1 hm
    exact h2.mono fun x hx => hx.1

theorem extrema_two {f : ℝ → ℝ} {m M : ℝ} (h : M < m) (h1 : MonotoneOn f (Iic M)) (h2 : AntitoneOn f (Icc M m))
    (h3 : MonotoneOn f (Ici m)) : ExtremaOf f [m] [M] := by
  refine ⟨?_, ?_, ?_, ?_⟩
  · intro m' hm u hu
    obtain rfl := List.mem_singleton.1 hm
    have : M ≤ u := by
      by_contra hc
      exact hu M (by simp) ⟨not_le.1 hc, h⟩
    exact h2.mono fun x hx => ⟨this.trans hx.1, hx.2⟩
  · intro m' hm u _
    obtain rfl := List.mem_singleton.1 hm
    exact h3.mono fun x hx => hx.1
  · intro m' hm u _
    obtain rfl := List.mem_singleton.1 hm
    exact h1.mono fun x hx => hx.2
  · intro m' hm v hv
    obtain rfl := List.mem_singleton.1 hm
    have : v ≤ m := by
      by_contra hc
      exact hv m (by simp) ⟨h, not_le.1 hc⟩
    exact h2.mono fun x hx => ⟨hx.1, hx.2.trans this⟩

theorem extrema_three {f : ℝ → ℝ} {l c r : ℝ} (hl : l < c) (hr : c < r) (h1 : MonotoneOn f (Iic l))
    (h2 : AntitoneOn f (Icc l c)) (h3 : MonotoneOn f (Icc c r)) (h4 : AntitoneOn f (Ici r)) :
    ExtremaOf f [c] [l, r] := by
  refine ⟨?_, ?_, ?_, ?_⟩
  · intro m hm u hu
    obtain rfl := List.mem_singleton.1 hm
    have : l ≤ u := by
      by_contra hc
      exact hu l (by simp) ⟨not_le.1 hc, hl⟩
    exact h2.mono fun x hx => ⟨this.trans hx.1, hx.2⟩
  · intro m hm v hv
    obtain rfl := List.mem_singleton.1 hm
    have : v ≤ r := by
      by_contra hc
      exact hv r (by simp) ⟨hr, not_le.1 hc⟩
    exact h3.mono fun x hx => ⟨hx.1, hx.2.trans this⟩
  · intro m hm u hu
    simp only [List.mem_cons, List.not_mem_nil, or_false] at hm
    rcases hm with rfl | rfl
    · exact h1.mono fun x hx => hx.2
    · have : c ≤ u := by
        by_contra hc
        exact hu c (by simp) ⟨not_le.1 hc, hr⟩
      exact h3.mono fun x hx => ⟨this.trans hx.1, hx.2⟩
  · intro m hm v hv
    simp only [List.mem_cons, List.not_mem_nil, or_false] at hm
    rcases hm with rfl | rfl
    · have : v ≤ c := by
        by_contra hc
        exact hv c (by simp) ⟨hl, not_le.1 hc⟩
      exact h2.mono fun x hx => ⟨hx.1, hx.2.trans this⟩
    · exact h4.mono fun x hx => hx.1

theorem neg_neg_fun (f : ℝ → ℝ) : - -f = f := by funext x; simp

/-! ### the change of variable taking listed extrema to exact ones -/

/-- moves the points left of `-1` by `d1` and those right of `1` by `d2` -/
noncomputable def shift (d1 d2 x : ℝ) : ℝ := x + d1 * min (max (-x) 0) 1 + d2 * min (max x 0) 1

theorem shift_left {d1 d2 x : ℝ} (h : x ≤ -1) : shift d1 d2 x = x + d1 := by
  unfold shift
  rw [max_eq_left (by linarith : (0 : ℝ) ≤ -x), min_eq_right (by linarith : (1 : ℝ) ≤ -x),
    max_eq_right (by linarith : x ≤ 0)]
  norm_num

theorem shift_right {d1 d2 x : ℝ} (h : 1 ≤ x) : shift d1 d2 x = x + d2 := by
  unfold shift
  rw [max_eq_right (by linarith : -x ≤ (0 : ℝ)), max_eq_left (by linarith : (0 : ℝ) ≤ x),
    min_eq_right (by linarith : (1 : ℝ) ≤ x)]
  norm_num

theorem shift_zero (d1 d2 : ℝ) : shift d1 d2 0 = 0 := by simp [shift]

theorem shift_continuous (d1 d2 : ℝ) : Continuous (shift d1 d2) := by
  unfold shift
  fun_prop

theorem shift_near {d1 d2 ε : ℝ} (h1 : |d1| ≤ ε) (h2 : |d2| ≤ ε) (x : ℝ) : |shift d1 d2 x - x| ≤ ε := by
  have h0 : 0 ≤ ε := (abs_nonneg _).trans h1
  have key : ∀ d t : ℝ, |d| ≤ ε → 0 ≤ t → t ≤ 1 → |d * t| ≤ ε := by
    intro d t hd t0 t1
    rw [abs_mul, abs_of_nonneg t0]
    calc |d| * t ≤ |d| * 1 := by gcongr
      _ ≤ ε := by rw [mul_one]; exact hd
  rcases le_total x 0 with h | h
  · have e : shift d1 d2 x - x = d1 * min (max (-x) 0) 1 := by
      unfold shift
      rw [max_eq_right h]
      norm_num
    rw [e]
    exact key _ _ h1 (le_min (le_max_right _ _) zero_le_one) (min_le_right _ _)
  · have e : shift d1 d2 x - x = d2 * min (max x 0) 1 := by
      unfold shift
      rw [max_eq_right (by linarith : -x ≤ (0 : ℝ))]
      norm_num
    rw [e]
    exact key _ _ h2 (le_min (le_max_right _ _) zero_le_one) (min_le_right _ _)

theorem shift_strictMono {d1 d2 : ℝ} (h1 : |d1| < 1 / 2) (h2 : |d2| < 1 / 2) : StrictMono (shift d1 d2) := by
  obtain ⟨a1, a2⟩ := abs_lt.1 h1
  obtain ⟨b1, b2⟩ := abs_lt.1 h2
  intro x y hxy
  unfold shift
  have p1 : ∀ x y : ℝ, x < y → min (max x 0) 1 ≤ min (max y 0) 1 := fun x y h => by gcongr
  have p2 : ∀ x y : ℝ, x < y → min (max y 0) 1 - min (max x 0) 1 ≤ y - x := by
    intro x y h
    rcases le_total x 0 with hx | hx <;> rcases le_total y 0 with hy | hy <;>
      rcases le_total (1 : ℝ) x with hx1 | hx1 <;> rcases le_total (1 : ℝ) y with hy1 | hy1 <;>
      simp only [max_eq_left, max_eq_right, min_eq_left, min_eq_right, hx, hy, hx1, hy1, zero_le_one] <;> linarith
  have q1 := p1 x y hxy
  have q2 := p2 x y hxy
  have r1 := p1 (-y) (-x) (by linarith)
  have r2 := p2 (-y) (-x) (by linarith)
  generalize min (max x 0) 1 = A at *
  generalize min (max y 0) 1 = B at *
  generalize min (max (-x) 0) 1 = C at *
  generalize min (max (-y) 0) 1 = E at *
  nlinarith

/-! ### shapes -/

/-- `f` is odd about the value `c`, below `c` on the right of 0, decreasing up to `e` and increasing after it. -/
theorem odd_shape {f : ℝ → ℝ} {c e : ℝ} (he : 0 < e) (hodd : ∀ x, f (-x) = 2 * c - f x)
    (hc : ∀ x, 0 ≤ x → f x ≤ c) (h1 : AntitoneOn f (Icc 0 e)) (h2 : MonotoneOn f (Ici e)) :
    ExtremaOf f [e] [-e] ∧ (∀ x, f e ≤ f x) ∧ ∀ x, f x ≤ f (-e) := by
  have low : ∀ x, 0 ≤ x → f e ≤ f x := by
    intro x hx
    rcases le_total x e with h | h
    · exact h1 ⟨hx, h⟩ ⟨he.le, le_rfl⟩ h
    · exact h2 (mem_Ici.2 le_rfl) h h
  have hmin : ∀ x, f e ≤ f x := by
    intro x
    rcases le_total 0 x with h | h
    · exact low x h
    · have := hodd (-x)
      rw [neg_neg] at this
      have h3 := hc (-x) (by linarith)
      have h4 := hc e he.le
      linarith
  refine ⟨extrema_two (by linarith) ?_ ?_ h2, hmin, ?_⟩
  · intro x hx y hy hxy
    have hx' : x ≤ -e := hx
    have hy' : y ≤ -e := hy
    have := h2 (show -y ∈ Ici e from by rw [mem_Ici]; linarith) (show -x ∈ Ici e from by rw [mem_Ici]; linarith)
      (by linarith)
    rw [hodd, hodd] at this
    linarith
  · have h0 : f 0 = c := by
      have := hodd 0
      rw [neg_zero] at this
      linarith
    have hneg : AntitoneOn f (Icc (-e) 0) := by
      intro x hx y hy hxy
      have := h1 (show -y ∈ Icc 0 e from ⟨by linarith [hy.2], by linarith [hy.1]⟩)
        (show -x ∈ Icc 0 e from ⟨by linarith [hx.2], by linarith [hx.1]⟩) (by linarith)
      rw [hodd, hodd] at this
      linarith
    intro x hx y hy hxy
    rcases le_total y 0 with h | h
    · exact hneg ⟨hx.1, hxy.trans h⟩ ⟨hy.1, h⟩ hxy
    · rcases le_total x 0 with h' | h'
      · have a1 := hneg ⟨hx.1, h'⟩ ⟨by linarith, le_rfl⟩ h'
        have a2 := h1 ⟨le_rfl, he.le⟩ ⟨h, hy.2⟩ h
        exact a2.trans a1
      · exact h1 ⟨h', hx.2⟩ ⟨h, hy.2⟩ hxy
  · intro x
    have h3 := hmin (-x)
    rw [hodd] at h3
    rw [hodd]
    linarith

/-- `f` is even, increasing from 0 to `e` and decreasing after it, and nowhere below its value at 0. -/
theorem even_shape {f : ℝ → ℝ} {e : ℝ} (he : 0 < e) (heven : ∀ x, f (-x) = f x) (h0 : ∀ x, f 0 ≤ f x)
    (h1 : MonotoneOn f (Icc 0 e)) (h2 : AntitoneOn f (Ici e)) :
    ExtremaOf f [0] [-e, e] ∧ (∀ x, f 0 ≤ f x) ∧ ∀ x, f x ≤ f e := by
  have hi : ∀ x, 0 ≤ x → f x ≤ f e := by
    intro x hx
    rcases le_total x e with h | h
    · exact h1 ⟨hx, h⟩ ⟨he.le, le_rfl⟩ h
    · exact h2 (mem_Ici.2 le_rfl) h h
  refine ⟨extrema_three (by linarith) he ?_ ?_ h1 h2, h0, ?_⟩
  · intro x hx y hy hxy
    have hx' : x ≤ -e := hx
    have hy' : y ≤ -e := hy
    have := h2 (show -y ∈ Ici e from by rw [mem_Ici]; linarith) (show -x ∈ Ici e from by rw [mem_Ici]; linarith)
      (by linarith)
    rwa [heven, heven] at this
  · intro x hx y hy hxy
    have := h1 (show -y ∈ Icc 0 e from ⟨by linarith [hy.2], by linarith [hy.1]⟩)
      (show -x ∈ Icc 0 e from ⟨by linarith [hx.2], by linarith [hx.1]⟩) (by linarith)
    rwa [heven, heven] at this
  · intro x
    rcases le_total 0 x with h | h
    · exact hi x h
    · rw [← heven]
      exact hi _ (by linarith)

/-! ### monotonicity from the sign of the derivative -/

theorem mono_Icc {f f' : ℝ → ℝ} (hd : ∀ x, HasDerivAt f (f' x) x) {a b : ℝ} (h : ∀ x ∈ Icc a b, 0 ≤ f' x) :
    MonotoneOn f (Icc a b) :=
  monotone_of_hasDerivWithinAt (convex_Icc a b) (fun x _ => (hd x).hasDerivWithinAt) h

theorem anti_Icc {f f' : ℝ → ℝ} (hd : ∀ x, HasDerivAt f (f' x) x) {a b : ℝ} (h : ∀ x ∈ Icc a b, f' x ≤ 0) :
    AntitoneOn f (Icc a b) :=
  antitone_of_hasDerivWithinAt (convex_Icc a b) (fun x _ => (hd x).hasDerivWithinAt) h

theorem mono_Ici {f f' : ℝ → ℝ} (hd : ∀ x, HasDerivAt f (f' x) x) {a : ℝ} (h : ∀ x ∈ Ici a, 0 ≤ f' x) :
    MonotoneOn f (Ici a) :=
  monotone_of_hasDerivWithinAt (convex_Ici a) (fun x _ => (hd x).hasDerivWithinAt) h

theorem anti_Ici {f f' : ℝ → ℝ} (hd : ∀ x, HasDerivAt f (f' x) x) {a : ℝ} (h : ∀ x ∈ Ici a, f' x ≤ 0) :
    AntitoneOn f (Ici a) :=
  antitone_of_hasDerivWithinAt (convex_Ici a) (fun x _ => (hd x).hasDerivWithinAt) h

theorem anti_Iic {f f' : ℝ → ℝ} (hd : ∀ x, HasDerivAt f (f' x) x) {a : ℝ} (h : ∀ x ∈ Iic a, f' x ≤ 0) :
    AntitoneOn f (Iic a) :=
  antitone_of_hasDerivWithinAt (convex_Iic a) (fun x _ => (hd x).hasDerivWithinAt) h

/-! ### sigmoid -/

theorem sig_exp (x : ℝ) : sigmoid x = Real.exp x / (1 + Real.exp x) := by
  rw [sigmoid_eq, Real.exp_neg]
  have := Real.exp_pos x
  field_simp
  ring

theorem sigD1_exp (x : ℝ) : sigD 1 x = Real.exp x / (1 + Real.exp x) ^ 2 := by
  simp only [sigD, sigmoid_neg]
  rw [sig_exp]
  have := Real.exp_pos x
  field_simp
  ring

theorem sigD1_pos (x : ℝ) : 0 < sigD 1 x := by rw [sigD1_exp]; positivity

theorem sigD1_le (x : ℝ) : sigD 1 x ≤ 1 / 4 := by
  simp only [sigD, sigmoid_neg]
  nlinarith [sq_nonneg (2 * sigmoid x - 1)]

theorem sigD1_anti : AntitoneOn (sigD 1) (Ici 0) := softplus_evenHessian.antitone2

theorem sigD2_eq (x : ℝ) : sigD 2 x = sigD 1 x * (1 - 2 * sigmoid x) := rfl
theorem sigD3_eq (x : ℝ) : sigD 3 x = sigD 1 x * (1 - 6 * sigD 1 x) := by
  simp only [sigD, sigmoid_neg]; ring
theorem sigD4_eq (x : ℝ) : sigD 4 x = sigD 1 x * (1 - 2 * sigmoid x) * (1 - 12 * sigD 1 x) := by
  simp only [sigD, sigmoid_neg]; ring

theorem sigD1_even (x : ℝ) : sigD 1 (-x) = sigD 1 x := by simp only [sigD, sigmoid_neg]; ring

theorem sigmoid_ge_half {x : ℝ} (hx : 0 ≤ x) : 1 / 2 ≤ sigmoid x := by
  have := sigmoid_strictMono.monotone hx
  have e : sigmoid 0 = 1 / 2 := by rw [sigmoid_eq]; norm_num
  rwa [e] at this

theorem continuous_sigD1 : Continuous (sigD 1) :=
  continuous_iff_continuousAt.2 fun x => (hasDerivAt_sigD (k := 1) (by norm_num) x).continuousAt

/-- a root of `u = c` between two points -/
theorem exists_sigD1 {A B c : ℝ} (hAB : A ≤ B) (hA : c ≤ sigD 1 A) (hB : sigD 1 B ≤ c) :
    ∃ e ∈ Icc A B, sigD 1 e = c := by
  obtain ⟨e, he, h⟩ := intermediate_value_Icc' hAB continuous_sigD1.continuousOn ⟨hB, hA⟩
  exact ⟨e, he, h⟩

theorem sig2_point : ∃ e ∈ Icc (1.31695789692481 : ℝ) 1.31695789692482, sigD 1 e = 1 / 6 := by
  refine exists_sigD1 (by norm_num) ?_ ?_
  · obtain ⟨h1, h2⟩ := exp_sig2A
    rw [sigD1_exp, div_le_div_iff₀ (by norm_num) (by positivity)]
    generalize Real.exp 1.31695789692481 = y at *
    nlinarith
  · obtain ⟨h1, h2⟩ := exp_sig2B
    rw [sigD1_exp, div_le_div_iff₀ (by positivity) (by norm_num)]
    generalize Real.exp 1.31695789692482 = y at *
    nlinarith

theorem sig3_point : ∃ e ∈ Icc (2.29243166956117 : ℝ) 2.29243166956118, sigD 1 e = 1 / 12 := by
  refine exists_sigD1 (by norm_num) ?_ ?_
  · obtain ⟨h1, h2⟩ := exp_sig3A
    rw [sigD1_exp, div_le_div_iff₀ (by norm_num) (by positivity)]
    generalize Real.exp 2.29243166956117 = y at *
    nlinarith
  · obtain ⟨h1, h2⟩ := exp_sig3B
    rw [sigD1_exp, div_le_div_iff₀ (by positivity) (by norm_num)]
    generalize Real.exp 2.29243166956118 = y at *
    nlinarith

/-- the extrema of the second derivative of sigmoid -/
theorem sig2_shape : ∃ e ∈ Icc (1.31695789692481 : ℝ) 1.31695789692482,
    ExtremaOf (sigD 2) [e] [-e] ∧ (∀ x, sigD 2 e ≤ sigD 2 x) ∧ ∀ x, sigD 2 x ≤ sigD 2 (-e) := by
  obtain ⟨e, he, hu⟩ := sig2_point
  have he0 : 0 < e := lt_of_lt_of_le (by norm_num) he.1
  have hd : ∀ x, HasDerivAt (sigD 2) (sigD 3 x) x := fun x => hasDerivAt_sigD (by norm_num) x
  refine ⟨e, he, odd_shape (c := 0) he0 ?_ (fun x hx => sigD2_nonpos hx) ?_ ?_⟩
  · intro x
    simp only [sigD2_eq, sigD1_even, sigmoid_neg]
    ring
  · refine anti_Icc hd fun x hx => ?_
    have := sigD1_anti (mem_Ici.2 hx.1) (mem_Ici.2 he0.le) hx.2
    rw [hu] at this
    rw [sigD3_eq]
    exact mul_nonpos_of_nonneg_of_nonpos (sigD1_pos x).le (by linarith)
  · refine mono_Ici hd fun x hx => ?_
    have := sigD1_anti (mem_Ici.2 he0.le) (mem_Ici.2 (he0.le.trans hx)) hx
    rw [hu] at this
    rw [sigD3_eq]
    exact mul_nonneg (sigD1_pos x).le (by linarith)

/-- the extrema of the third derivative of sigmoid -/
theorem sig3_shape : ∃ e ∈ Icc (2.29243166956117 : ℝ) 2.29243166956118,
    ExtremaOf (sigD 3) [0] [-e, e] ∧ (∀ x, sigD 3 0 ≤ sigD 3 x) ∧ ∀ x, sigD 3 x ≤ sigD 3 e := by
  obtain ⟨e, he, hu⟩ := sig3_point
  have he0 : 0 < e := lt_of_lt_of_le (by norm_num) he.1
  have hd : ∀ x, HasDerivAt (sigD 3) (sigD 4 x) x := fun x => hasDerivAt_sigD (by norm_num) x
  have hneg : ∀ x, 0 ≤ x → sigD 1 x * (1 - 2 * sigmoid x) ≤ 0 := fun x hx =>
    mul_nonpos_of_nonneg_of_nonpos (sigD1_pos x).le (by linarith [sigmoid_ge_half hx])
  refine ⟨e, he, even_shape he0 ?_ ?_ ?_ ?_⟩
  · intro x
    rw [sigD3_eq, sigD3_eq, sigD1_even]
  · intro x
    have h0 : sigD 1 0 = 1 / 4 := by rw [sigD1_exp]; norm_num
    rw [sigD3_eq, sigD3_eq, h0]
    have h1 := sigD1_pos x
    have h2 := sigD1_le x
    nlinarith
  · refine mono_Icc hd fun x hx => ?_
    have := sigD1_anti (mem_Ici.2 hx.1) (mem_Ici.2 he0.le) hx.2
    rw [hu] at this
    rw [sigD4_eq]
    exact mul_nonneg_of_nonpos_of_nonpos (hneg x hx.1) (by linarith)
  · refine anti_Ici hd fun x hx => ?_
    have := sigD1_anti (mem_Ici.2 he0.le) (mem_Ici.2 (he0.le.trans hx)) hx
    rw [hu] at this
    rw [sigD4_eq]
    exact mul_nonpos_of_nonpos_of_nonneg (hneg x (he0.le.trans hx)) (by linarith)

/-! ### swish -/

theorem swishD1_eq (x : ℝ) : swishD 1 x = sigmoid x + x * sigD 1 x := by simp [swishD, sigD]
theorem swishD2_eq (x : ℝ) : swishD 2 x = sigD 1 x * (2 - x * (2 * sigmoid x - 1)) := by
  simp only [swishD, sigD2_eq]; push_cast; ring
theorem swishD3_eq (x : ℝ) : swishD 3 x =
    sigD 1 x / 2 * (x * (3 * (2 * sigmoid x - 1) ^ 2 - 1) - 6 * (2 * sigmoid x - 1)) := by
  simp only [swishD, sigD2_eq, sigD3_eq]
  simp only [sigD, sigmoid_neg]; push_cast; ring

theorem swish_mono : MonotoneOn (fun x => x * (2 * sigmoid x - 1)) (Ici 0) := by
  intro x hx y hy hxy
  have h1 := sigmoid_strictMono.monotone hxy
  have h2 := sigmoid_ge_half hx
  have hx' : (0 : ℝ) ≤ x := hx
  show x * (2 * sigmoid x - 1) ≤ y * (2 * sigmoid y - 1)
  apply mul_le_mul hxy (by linarith) (by linarith) (hx'.trans hxy)

theorem continuous_sigmoid : Continuous sigmoid :=
  continuous_iff_continuousAt.2 fun x => (hasDerivAt_sigmoid x).continuousAt

/-- the extremum of swish -/
theorem sw0_shape : ∃ e ∈ Icc (1.27846454276107 : ℝ) 1.27846454276108,
    ExtremaOf (swishD 0) [-e] [] ∧ ∀ x, swishD 0 (-e) ≤ swishD 0 x := by
  have hm : StrictMono fun x : ℝ => 1 + Real.exp x + x := fun x y h => by
    have := Real.exp_lt_exp.2 h
    simp only
    linarith
  have hc : Continuous fun x : ℝ => 1 + Real.exp (-x) + -x := by fun_prop
  obtain ⟨e, he, h⟩ : ∃ e ∈ Icc (1.27846454276107 : ℝ) 1.27846454276108, 1 + Real.exp (-e) + -e = 0 := by
    refine intermediate_value_Icc' (by norm_num) hc.continuousOn ⟨?_, ?_⟩
    · obtain ⟨h1, h2⟩ := exp_sw0B
      show 1 + Real.exp (-1.27846454276108) + -1.27846454276108 ≤ 0
      rw [Real.exp_neg]
      have h3 : (Real.exp 1.27846454276108)⁻¹ ≤ 0.27846454276108 := by
        rw [inv_le_comm₀ (Real.exp_pos _) (by norm_num)]
        refine le_trans ?_ h1
        norm_num
      linarith
    · obtain ⟨h1, h2⟩ := exp_sw0A
      show 0 ≤ 1 + Real.exp (-1.27846454276107) + -1.27846454276107
      rw [Real.exp_neg]
      have h3 : 0.27846454276107 ≤ (Real.exp 1.27846454276107)⁻¹ := by
        rw [le_inv_comm₀ (by norm_num) (Real.exp_pos _)]
        refine le_trans h2 ?_
        norm_num
      linarith
  have hd : ∀ x, HasDerivAt (swishD 0) (swishD 1 x) x := fun x => hasDerivAt_swishD (by norm_num) x
  have hs : ∀ x, swishD 1 x = sigmoid x / (1 + Real.exp x) * (1 + Real.exp x + x) := by
    intro x
    rw [swishD1_eq, sigD1_exp, sig_exp]
    have := Real.exp_pos x
    field_simp
  have hp : ∀ x, 0 ≤ sigmoid x / (1 + Real.exp x) := fun x =>
    div_nonneg (sigmoid_pos x).le (by have := Real.exp_pos x; linarith)
  have h1 : AntitoneOn (swishD 0) (Iic (-e)) := anti_Iic hd fun x hx => by
    have := hm.monotone (show x ≤ -e from hx)
    rw [hs]
    exact mul_nonpos_of_nonneg_of_nonpos (hp x) (by linarith)
  have h2 : MonotoneOn (swishD 0) (Ici (-e)) := mono_Ici hd fun x hx => by
    have := hm.monotone (show -e ≤ x from hx)
    rw [hs]
    exact mul_nonneg (hp x) (by linarith)
  refine ⟨e, he, extrema_one h1 h2, fun x => ?_⟩
  rcases le_total x (-e) with hx | hx
  · exact h1 hx (mem_Iic.2 le_rfl) hx
  · exact h2 (mem_Ici.2 le_rfl) hx hx

/-- the extrema of the first derivative of swish -/
theorem sw1_shape : ∃ e ∈ Icc (2.39935728051546 : ℝ) 2.39935728051547,
    ExtremaOf (swishD 1) [-e] [e] ∧ (∀ x, swishD 1 (-e) ≤ swishD 1 x) ∧ ∀ x, swishD 1 x ≤ swishD 1 e := by
  have hc : Continuous fun x : ℝ => x * (2 * sigmoid x - 1) := by
    have := continuous_sigmoid
    fun_prop
  have ht : ∀ x : ℝ, 2 * sigmoid x - 1 = (Real.exp x - 1) / (Real.exp x + 1) := by
    intro x
    rw [sig_exp]
    have := Real.exp_pos x
    field_simp
    ring
  obtain ⟨e, he, h⟩ : ∃ e ∈ Icc (2.39935728051546 : ℝ) 2.39935728051547, e * (2 * sigmoid e - 1) = 2 := by
    refine intermediate_value_Icc (by norm_num) hc.continuousOn ⟨?_, ?_⟩
    · obtain ⟨h1, h2⟩ := exp_sw1A
      show 2.39935728051546 * (2 * sigmoid 2.39935728051546 - 1) ≤ 2
      rw [ht, ← mul_div_assoc, div_le_iff₀ (by positivity)]
      linarith
    · obtain ⟨h1, h2⟩ := exp_sw1B
      show 2 ≤ 2.39935728051547 * (2 * sigmoid 2.39935728051547 - 1)
      rw [ht, ← mul_div_assoc, le_div_iff₀ (by positivity)]
      linarith
  have he0 : 0 < e := lt_of_lt_of_le (by norm_num) he.1
  have hd : ∀ x, HasDerivAt (-swishD 1) (-swishD 2 x) x := fun x => (hasDerivAt_swishD (by norm_num) x).neg
  obtain ⟨g1, g2, g3⟩ := odd_shape (f := -swishD 1) (c := -(1 / 2)) he0 (by
      intro x
      simp only [Pi.neg_apply, swishD1_eq, sigD1_even, sigmoid_neg]
      ring) (by
      intro x hx
      simp only [Pi.neg_apply, swishD1_eq]
      have := sigmoid_ge_half hx
      have := mul_nonneg hx (sigD1_pos x).le
      linarith) (by
      refine anti_Icc hd fun x hx => ?_
      have := swish_mono (mem_Ici.2 hx.1) (mem_Ici.2 he0.le) hx.2
      simp only [h] at this
      rw [swishD2_eq]
      have := mul_nonneg (sigD1_pos x).le (show 0 ≤ 2 - x * (2 * sigmoid x - 1) by linarith)
      linarith) (by
      refine mono_Ici hd fun x hx => ?_
      have := swish_mono (mem_Ici.2 he0.le) (mem_Ici.2 (he0.le.trans hx)) hx
      simp only [h] at this
      rw [swishD2_eq]
      have := mul_nonneg (sigD1_pos x).le (show 0 ≤ x * (2 * sigmoid x - 1) - 2 by linarith)
      linarith)
  refine ⟨e, he, ?_, fun x => ?_, fun x => ?_⟩
  · have := g1.neg
    rwa [neg_neg_fun] at this
  · have := g3 x
    simpa using this
  · have := g2 x
    simpa using this

/-- the extrema of the second derivative of swish -/
theorem sw2_shape : ∃ e ∈ Icc (3.43584099353511 : ℝ) 3.43584099353512,
    ExtremaOf (swishD 2) [-e, e] [0] ∧ (∀ x, swishD 2 e ≤ swishD 2 x) ∧ ∀ x, swishD 2 x ≤ swishD 2 0 := by
  have hc : Continuous fun x : ℝ => x * (3 * (2 * sigmoid x - 1) ^ 2 - 1) - 6 * (2 * sigmoid x - 1) := by
    have := continuous_sigmoid
    fun_prop
  have ht : ∀ x : ℝ, 2 * sigmoid x - 1 = (Real.exp x - 1) / (Real.exp x + 1) := by
    intro x
    rw [sig_exp]
    have := Real.exp_pos x
    field_simp
    ring
  obtain ⟨e, he, h⟩ : ∃ e ∈ Icc (3.43584099353511 : ℝ) 3.43584099353512,
      e * (3 * (2 * sigmoid e - 1) ^ 2 - 1) - 6 * (2 * sigmoid e - 1) = 0 := by
    have key : ∀ x : ℝ, x * (3 * (2 * sigmoid x - 1) ^ 2 - 1) - 6 * (2 * sigmoid x - 1) =
        2 * (x * (Real.exp x ^ 2 - 4 * Real.exp x + 1) - 3 * (Real.exp x ^ 2 - 1)) / (Real.exp x + 1) ^ 2 := by
      intro x
      rw [ht]
      have := Real.exp_pos x
      field_simp
      ring
    refine intermediate_value_Icc (by norm_num) hc.continuousOn ⟨?_, ?_⟩
    · obtain ⟨h1, h2⟩ := exp_sw2A
      simp only [key]
      apply div_nonpos_of_nonpos_of_nonneg _ (by positivity)
      generalize Real.exp 3.43584099353511 = y at *
      nlinarith
    · obtain ⟨h1, h2⟩ := exp_sw2B
      simp only [key]
      apply div_nonneg _ (by positivity)
      generalize Real.exp 3.43584099353512 = y at *
      nlinarith
  have he0 : 0 < e := lt_of_lt_of_le (by norm_num) he.1
  have htm : ∀ x y : ℝ, x ≤ y → 2 * sigmoid x - 1 ≤ 2 * sigmoid y - 1 := fun x y hxy => by
    have := sigmoid_strictMono.monotone hxy
    linarith
  have ht0 : ∀ x : ℝ, 0 ≤ x → 0 ≤ 2 * sigmoid x - 1 := fun x hx => by
    have := sigmoid_ge_half hx
    linarith
  have hte : 0 < 2 * sigmoid e - 1 := by
    have := sigmoid_strictMono he0
    have e0 : sigmoid 0 = 1 / 2 := by rw [sigmoid_eq]; norm_num
    linarith
  have hge : ∀ x, e ≤ x → 0 ≤ x * (3 * (2 * sigmoid x - 1) ^ 2 - 1) - 6 * (2 * sigmoid x - 1) := by
    intro x hx
    have h1 := htm e x hx
    generalize 2 * sigmoid e - 1 = s at *
    generalize 2 * sigmoid x - 1 = t at *
    have p1 : 0 < 3 * s ^ 2 - 1 := by
      by_contra hcon
      have : e * (3 * s ^ 2 - 1) ≤ 0 := mul_nonpos_of_nonneg_of_nonpos he0.le (not_lt.1 hcon)
      linarith
    have p2 : (3 * s ^ 2 - 1) * t ≤ (3 * t ^ 2 - 1) * s := by nlinarith [mul_nonneg (sub_nonneg.2 h1) (show 0 ≤ 3 * s * t + 1 by nlinarith)]
    have p3 : e * ((3 * s ^ 2 - 1) * t) ≤ x * ((3 * t ^ 2 - 1) * s) :=
      mul_le_mul hx p2 (mul_nonneg p1.le (by linarith)) (by linarith)
    have p4 : 0 ≤ (x * (3 * t ^ 2 - 1) - 6 * t) * s := by
      have : e * ((3 * s ^ 2 - 1) * t) = 6 * s * t := by linear_combination t * h
      linarith
    exact nonneg_of_mul_nonneg_left p4 hte
  have hle : ∀ x, 0 ≤ x → x ≤ e → x * (3 * (2 * sigmoid x - 1) ^ 2 - 1) - 6 * (2 * sigmoid x - 1) ≤ 0 := by
    intro x hx0 hx
    have h1 := htm x e hx
    have h2 := ht0 x hx0
    generalize 2 * sigmoid e - 1 = s at *
    generalize 2 * sigmoid x - 1 = t at *
    by_cases ht1 : 3 * t ^ 2 - 1 ≤ 0
    · have := mul_nonpos_of_nonneg_of_nonpos hx0 ht1
      linarith
    · have p2 : (3 * t ^ 2 - 1) * s ≤ (3 * s ^ 2 - 1) * t := by nlinarith [mul_nonneg (sub_nonneg.2 h1) (show 0 ≤ 3 * s * t + 1 by nlinarith)]
      have p3 : x * ((3 * t ^ 2 - 1) * s) ≤ e * ((3 * s ^ 2 - 1) * t) :=
        mul_le_mul hx p2 (mul_nonneg (not_le.1 ht1).le hte.le) he0.le
      have p4 : (x * (3 * t ^ 2 - 1) - 6 * t) * s ≤ 0 := by
        have : e * ((3 * s ^ 2 - 1) * t) = 6 * s * t := by linear_combination t * h
        linarith
      by_contra hcon
      have := mul_pos (not_le.1 hcon) hte
      linarith
  have hd : ∀ x, HasDerivAt (-swishD 2) (-swishD 3 x) x := fun x => (hasDerivAt_swishD (by norm_num) x).neg
  obtain ⟨g1, g2, g3⟩ := even_shape (f := -swishD 2) he0 (by
      intro x
      simp only [Pi.neg_apply, swishD2_eq, sigD1_even, sigmoid_neg]
      ring) (by
      intro x
      simp only [Pi.neg_apply, swishD2_eq]
      have h0 : sigD 1 0 = 1 / 4 := by rw [sigD1_exp]; norm_num
      rw [h0]
      have a1 := sigD1_pos x
      have a2 := sigD1_le x
      have a3 : 0 ≤ x * (2 * sigmoid x - 1) := by
        rcases le_total 0 x with hx | hx
        · exact mul_nonneg hx (ht0 x hx)
        · have := ht0 (-x) (by linarith)
          rw [sigmoid_neg] at this
          exact mul_nonneg_of_nonpos_of_nonpos hx (by linarith)
      nlinarith [mul_nonneg a1.le a3]) (by
      refine mono_Icc hd fun x hx => ?_
      rw [swishD3_eq]
      have := mul_nonneg (div_nonneg (sigD1_pos x).le (by norm_num : (0 : ℝ) ≤ 2))
        (neg_nonneg.2 (hle x hx.1 hx.2))
      linarith) (by
      refine anti_Ici hd fun x hx => ?_
      rw [swishD3_eq]
      have := mul_nonneg (div_nonneg (sigD1_pos x).le (by norm_num : (0 : ℝ) ≤ 2)) (hge x hx)
      linarith)
  refine ⟨e, he, ?_, fun x => ?_, fun x => ?_⟩
  · have := g1.neg
    rwa [neg_neg_fun] at this
  · have := g3 x
    simpa using this
  · have := g2 x
    simpa using this

/-! ### sizes of the derivatives -/

theorem abs_mul_sigD1 (x : ℝ) : |x| * sigD 1 x ≤ 1 := by
  have key : ∀ x : ℝ, 0 ≤ x → x * sigD 1 x ≤ 1 := by
    intro x hx
    rw [sigD1_exp]
    have h1 := Real.add_one_le_exp x
    have h2 := Real.exp_pos x
    rw [← mul_div_assoc, div_le_one (by positivity)]
    nlinarith
  rcases le_total 0 x with h | h
  · rw [abs_of_nonneg h]; exact key x h
  · rw [abs_of_nonpos h, ← sigD1_even]; exact key _ (by linarith)

theorem abs_sig (x : ℝ) : |1 - 2 * sigmoid x| ≤ 1 := by
  have := sigmoid_pos x
  have := sigmoid_lt_one x
  rw [abs_le]
  constructor <;> linarith

theorem abs_sigD3 (x : ℝ) : |sigD 3 x| ≤ 1 := by
  have := sigD1_pos x
  have := sigD1_le x
  rw [sigD3_eq, abs_le]
  constructor <;> nlinarith

theorem abs_sigD4 (x : ℝ) : |sigD 4 x| ≤ 1 := by
  have h1 := sigD1_pos x
  have h2 := sigD1_le x
  rw [sigD4_eq, mul_right_comm, abs_mul]
  have h3 : |sigD 1 x * (1 - 12 * sigD 1 x)| ≤ 1 := by
    rw [abs_le]
    constructor <;> nlinarith
  calc _ ≤ 1 * 1 := mul_le_mul h3 (abs_sig x) (abs_nonneg _) zero_le_one
    _ = 1 := one_mul 1

theorem abs_swishD1 (x : ℝ) : |swishD 1 x| ≤ 2 := by
  rw [swishD1_eq]
  have h1 := sigmoid_pos x
  have h2 := sigmoid_lt_one x
  have h3 : |x * sigD 1 x| ≤ 1 := by
    rw [abs_mul, abs_of_pos (sigD1_pos x)]; exact abs_mul_sigD1 x
  have := abs_add_le (sigmoid x) (x * sigD 1 x)
  rw [abs_of_pos h1] at this
  linarith

theorem abs_swishD2 (x : ℝ) : |swishD 2 x| ≤ 2 := by
  have e : swishD 2 x = 2 * sigD 1 x + x * sigD 1 x * (1 - 2 * sigmoid x) := by rw [swishD2_eq]; ring
  rw [e]
  have h3 : |x * sigD 1 x * (1 - 2 * sigmoid x)| ≤ 1 := by
    rw [abs_mul, abs_mul, abs_of_pos (sigD1_pos x)]
    calc _ ≤ 1 * 1 := mul_le_mul (abs_mul_sigD1 x) (abs_sig x) (abs_nonneg _) zero_le_one
      _ = 1 := one_mul 1
  have := abs_add_le (2 * sigD 1 x) (x * sigD 1 x * (1 - 2 * sigmoid x))
  rw [abs_of_pos (show 0 < 2 * sigD 1 x by linarith [sigD1_pos x])] at this
  have := sigD1_le x
  linarith

theorem abs_swishD3 (x : ℝ) : |swishD 3 x| ≤ 2 := by
  have e : swishD 3 x = 3 * sigD 1 x * (1 - 2 * sigmoid x) + x * sigD 1 x * (1 - 6 * sigD 1 x) := by
    simp only [swishD, sigD3_eq, show 3 - 1 = 2 from rfl, sigD2_eq]; push_cast; ring
  rw [e]
  have h1 := sigD1_pos x
  have h2 := sigD1_le x
  have h3 : |3 * sigD 1 x * (1 - 2 * sigmoid x)| ≤ 3 / 4 := by
    rw [abs_mul, abs_of_pos (by linarith)]
    calc _ ≤ 3 / 4 * 1 := mul_le_mul (by linarith) (abs_sig x) (abs_nonneg _) (by norm_num)
      _ = 3 / 4 := mul_one _
  have h4 : |x * sigD 1 x * (1 - 6 * sigD 1 x)| ≤ 1 := by
    rw [abs_mul, abs_mul, abs_of_pos h1]
    have : |1 - 6 * sigD 1 x| ≤ 1 := by rw [abs_le]; constructor <;> linarith
    calc _ ≤ 1 * 1 := mul_le_mul (abs_mul_sigD1 x) this (abs_nonneg _) zero_le_one
      _ = 1 := one_mul 1
  have := abs_add_le (3 * sigD 1 x * (1 - 2 * sigmoid x)) (x * sigD 1 x * (1 - 6 * sigD 1 x))
  linarith

theorem near_of_deriv {f f' : ℝ → ℝ} (hd : ∀ x, HasDerivAt f (f' x) x) {L : ℝ} (hL : ∀ x, |f' x| ≤ L) (x y : ℝ) :
    |f x - f y| ≤ L * |x - y| := by
  have := convex_univ.norm_image_sub_le_of_norm_hasDerivWithin_le (f := f) (f' := f') (C := L)
    (fun x _ => (hd x).hasDerivWithinAt) (fun x _ => by rw [Real.norm_eq_abs]; exact hL x) (mem_univ y) (mem_univ x)
  simpa [Real.norm_eq_abs] using this

end AB
