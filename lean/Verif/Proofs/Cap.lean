/-
`taylor_remainder_ratio` with the cap (/repo/autobound/primitive_enclosures.py:277-305): what the cap changes.
-/
import Verif.Proofs.Approx

set_option linter.unusedSectionVars false

namespace AB
open PE EF Set

/-- how much of the difference to the Taylor coefficient the cap leaves -/
noncomputable def capTheta (x0 : ℝ) (k : ℕ) (e : ℝ) : ℝ := min 1 (|e - x0| ^ k * 10 ^ 12)

theorem capTheta_nonneg (x0 : ℝ) (k : ℕ) (e : ℝ) : 0 ≤ capTheta x0 k e :=
  le_min zero_le_one (by positivity)

theorem capTheta_le (x0 : ℝ) (k : ℕ) (e : ℝ) : capTheta x0 k e ≤ 1 := min_le_left _ _

theorem small_of_capTheta {x0 : ℝ} {k : ℕ} {e : ℝ} (h : capTheta x0 k e ≠ 1) : |e - x0| ^ k ≤ 1 / 10 ^ 12 := by
  by_contra hc
  apply h
  push Not at hc
  unfold capTheta
  apply min_eq_left
  rw [div_lt_iff₀ (by positivity)] at hc
  exact hc.le

/-- the value with the cap -/
noncomputable def capRho (D : ℕ → ℝ → ℝ) (x0 : ℝ) (k : ℕ) (e : ℝ) : ℝ :=
  rho D x0 k x0 + capTheta x0 k e * (rho D x0 k e - rho D x0 k x0)

theorem rho_self (D : ℕ → ℝ → ℝ) (x0 : ℝ) (k : ℕ) : rho D x0 k x0 = D k x0 / k.factorial := by
  rw [rho, if_pos rfl]

/-- `taylor_remainder_ratio`, in closed form -/
theorem ratio_cap (D : ℕ → ℝ → ℝ) (k : ℕ) (x0 e : ℝ) :
    taylorRemainderRatio x0 k (D 0) (taylorCoeffs D k x0) e = .ok (capRho D x0 k e) := by
  by_cases hc : NotCapped x0 k e
  · rw [ratio_rho D hc]
    congr 1
    unfold capRho
    rcases hc with rfl | h
    · rw [sub_self, mul_zero, add_zero]
    · have : capTheta x0 k e = 1 := by
        unfold capTheta
        apply min_eq_left
        rw [div_le_iff₀ (by positivity)] at h
        exact h
      rw [this]; ring
  · unfold NotCapped at hc
    push Not at hc
    obtain ⟨hne, hcap⟩ := hc
    have hspec := rho_spec D x0 k e
    have hd : (e - x0) ^ k ≠ 0 := pow_ne_zero _ (sub_ne_zero.2 hne)
    rw [taylorRemainderRatio_field]
    rw [if_neg (by simp [taylorCoeffs_length])]
    have h1 := enum_pow_sum (taylorCoeffs D k x0) fun i => (e - x0) ^ i
    simp only at h1 ⊢
    rw [h1, taylorCoeffs_length, Finset.sum_range_succ, taylorCoeffs_getD D le_rfl]
    have hsum : ∑ i ∈ Finset.range k, (taylorCoeffs D k x0).getD i 0 * (e - x0) ^ i =
        ∑ i ∈ Finset.range k, D i x0 / i.factorial * (e - x0) ^ i :=
      Finset.sum_congr rfl fun i hi => by
        rw [taylorCoeffs_getD D (Finset.mem_range.1 hi).le]
    rw [hsum, hspec, abs_pow, max_eq_left hcap.le]
    unfold capRho
    have hth : capTheta x0 k e = |e - x0| ^ k * 10 ^ 12 := by
      unfold capTheta
      apply min_eq_right
      rw [lt_div_iff₀ (by positivity)] at hcap
      exact hcap.le
    rw [rho_self, hth]
    congr 2
    have hs : (e - x0) ^ k * sgn ((e - x0) ^ k) = |e - x0| ^ k := by
      rw [← abs_pow]
      unfold sgn
      split_ifs with h1 h2
      · rw [abs_of_pos h1, mul_one]
      · rw [abs_of_neg h2, mul_neg_one]
      · exact absurd (le_antisymm (not_lt.1 h1) (not_lt.1 h2)) hd
    rw [← hs]
    ring

theorem sharp_cap (D : ℕ → ℝ → ℝ) (k : ℕ) (x0 a b : ℝ) (inc : Bool) :
    sharpMonotonic x0 k a b (D 0) (taylorCoeffs D k x0) inc = .ok ((taylorCoeffs D k x0).take k,
      if inc then (capRho D x0 k a, capRho D x0 k b) else (capRho D x0 k b, capRho D x0 k a)) := by
  unfold sharpMonotonic
  rw [ratio_cap D, ratio_cap D]
  rfl

/-- the heart of the matter: a ratio that is increasing up to `η` -/
theorem cap_core {ρ : ℝ → ℝ} {x0 a b η V : ℝ} {k : ℕ} (hx0 : x0 ∈ Icc a b) (hη : 0 ≤ η)
    (hm : ∀ x ∈ Icc a b, ∀ y ∈ Icc a b, x ≤ y → ρ x ≤ ρ y + η) (hV : ∀ x ∈ Icc a b, ∀ y ∈ Icc a b, ρ x - ρ y ≤ V)
    {x : ℝ} (hx : x ∈ Icc a b) :
    ∃ r, ρ x0 + capTheta x0 k a * (ρ a - ρ x0) - η ≤ r ∧ r ≤ ρ x0 + capTheta x0 k b * (ρ b - ρ x0) + η ∧
      |(ρ x - r) * (x - x0) ^ k| ≤ V / 10 ^ 12 := by
  have hab : a ≤ b := hx0.1.trans hx0.2
  have haI : a ∈ Icc a b := left_mem_Icc.2 hab
  have hbI : b ∈ Icc a b := right_mem_Icc.2 hab
  have hV0 : 0 ≤ V := by have := hV x hx x hx; linarith
  have t0 := capTheta_nonneg x0 k a
  have t1 := capTheta_le x0 k a
  have u0 := capTheta_nonneg x0 k b
  have u1 := capTheta_le x0 k b
  have ma := hm a haI x0 hx0 hx0.1
  have mb := hm x0 hx0 b hbI hx0.2
  have mx1 := hm a haI x hx hx.1
  have mx2 := hm x hx b hbI hx.2
  set α := ρ x0 + capTheta x0 k a * (ρ a - ρ x0) with hα
  set β := ρ x0 + capTheta x0 k b * (ρ b - ρ x0) with hβ
  have hαle : α ≤ ρ x0 + η := by
    have : capTheta x0 k a * (ρ a - ρ x0) ≤ η := by nlinarith
    linarith
  have hβge : ρ x0 - η ≤ β := by
    have : -η ≤ capTheta x0 k b * (ρ b - ρ x0) := by nlinarith
    linarith
  by_cases h1 : ρ x < α - η
  · refine ⟨α - η, le_rfl, by linarith, ?_⟩
    -- `a` is capped, and `x` lies between `a` and `x0`
    have hne : capTheta x0 k a ≠ 1 := by
      intro h
      rw [h] at hα
      linarith
    have hα2 : α ≤ max (ρ a) (ρ x0) := by
      rcases le_total (ρ a) (ρ x0) with h | h
      · rw [max_eq_right h]
        have : capTheta x0 k a * (ρ a - ρ x0) ≤ 0 := mul_nonpos_of_nonneg_of_nonpos t0 (by linarith)
        linarith
      · rw [max_eq_left h]
        nlinarith
    have hlt : x < x0 := by
      by_contra hc
      push Not at hc
      have m3 := hm x0 hx0 x hx hc
      rcases le_total (ρ a) (ρ x0) with h | h
      · rw [max_eq_right h] at hα2; linarith
      · rw [max_eq_left h] at hα2; linarith
    have hsm := small_of_capTheta hne
    have hpow : |x - x0| ^ k ≤ 1 / 10 ^ 12 := by
      refine le_trans (pow_le_pow_left₀ (abs_nonneg _) ?_ k) hsm
      rw [abs_of_neg (by linarith), abs_of_nonpos (by linarith [hx0.1])]
      linarith [hx.1]
    rw [abs_mul, abs_pow]
    have hd : |ρ x - (α - η)| ≤ V := by
      rw [abs_of_neg (by linarith)]
      rcases le_total (ρ a) (ρ x0) with h | h
      · rw [max_eq_right h] at hα2
        have := hV x0 hx0 x hx
        linarith
      · rw [max_eq_left h] at hα2
        have := hV a haI x hx
        linarith
    calc |ρ x - (α - η)| * |x - x0| ^ k ≤ V * (1 / 10 ^ 12) := by gcongr
      _ = V / 10 ^ 12 := by ring
  by_cases h2 : β + η < ρ x
  · refine ⟨β + η, by linarith, le_rfl, ?_⟩
    have hne : capTheta x0 k b ≠ 1 := by
      intro h
      rw [h] at hβ
      linarith
    have hβ2 : min (ρ b) (ρ x0) ≤ β := by
      rcases le_total (ρ b) (ρ x0) with h | h
      · rw [min_eq_left h]
        nlinarith
      · rw [min_eq_right h]
        have : 0 ≤ capTheta x0 k b * (ρ b - ρ x0) := mul_nonneg u0 (by linarith)
        linarith
    have hlt : x0 < x := by
      by_contra hc
      push Not at hc
      have m3 := hm x hx x0 hx0 hc
      rcases le_total (ρ b) (ρ x0) with h | h
      · rw [min_eq_left h] at hβ2; linarith
      · rw [min_eq_right h] at hβ2; linarith
    have hsm := small_of_capTheta hne
    have hpow : |x - x0| ^ k ≤ 1 / 10 ^ 12 := by
      refine le_trans (pow_le_pow_left₀ (abs_nonneg _) ?_ k) hsm
      rw [abs_of_pos (by linarith), abs_of_nonneg (by linarith [hx0.2])]
      linarith [hx.2]
    rw [abs_mul, abs_pow]
    have hd : |ρ x - (β + η)| ≤ V := by
      rw [abs_of_pos (by linarith)]
      rcases le_total (ρ b) (ρ x0) with h | h
      · rw [min_eq_left h] at hβ2
        have := hV x hx b hbI
        linarith
      · rw [min_eq_right h] at hβ2
        have := hV x hx x0 hx0
        linarith
    calc |ρ x - (β + η)| * |x - x0| ^ k ≤ V * (1 / 10 ^ 12) := by gcongr
      _ = V / 10 ^ 12 := by ring
  · refine ⟨ρ x, by linarith, by linarith, ?_⟩
    rw [sub_self, zero_mul, abs_zero]
    positivity

/-- the same for a decreasing ratio -/
theorem cap_core_anti {ρ : ℝ → ℝ} {x0 a b η V : ℝ} {k : ℕ} (hx0 : x0 ∈ Icc a b) (hη : 0 ≤ η)
    (hm : ∀ x ∈ Icc a b, ∀ y ∈ Icc a b, x ≤ y → ρ y ≤ ρ x + η) (hV : ∀ x ∈ Icc a b, ∀ y ∈ Icc a b, ρ x - ρ y ≤ V)
    {x : ℝ} (hx : x ∈ Icc a b) :
    ∃ r, ρ x0 + capTheta x0 k b * (ρ b - ρ x0) - η ≤ r ∧ r ≤ ρ x0 + capTheta x0 k a * (ρ a - ρ x0) + η ∧
      |(ρ x - r) * (x - x0) ^ k| ≤ V / 10 ^ 12 := by
  obtain ⟨r, h1, h2, h3⟩ := cap_core (ρ := fun x => - ρ x) (k := k) hx0 hη
    (fun x hx y hy h => by have := hm x hx y hy h; linarith)
    (fun x hx y hy => by have := hV y hy x hx; linarith) hx
  refine ⟨-r, by linarith, by linarith, ?_⟩
  rw [← abs_neg]
  convert h3 using 2
  ring

/-- from ratios to values -/
theorem near_of_ratio {D : ℕ → ℝ → ℝ} {k : ℕ} {x0 x l u r ε : ℝ} (h1 : l ≤ r) (h2 : r ≤ u)
    (h : |(rho D x0 k x - r) * (x - x0) ^ k| ≤ ε) :
    ∃ w, SEncl.Has ((taylorCoeffs D k x0).take k, (l, u)) (x - x0) w ∧ |D 0 x - w| ≤ ε := by
  have hl : ((taylorCoeffs D k x0).take k).length = k := by simp [taylorCoeffs]
  refine ⟨D 0 x - (rho D x0 k x - r) * (x - x0) ^ k, ⟨r, h1, h2, ?_⟩, by rwa [sub_sub_cancel]⟩
  obtain ⟨r', e1, e2, e3⟩ := has_of_rho (D := D) (k := k) (x0 := x0) (x := x) le_rfl le_rfl
  have : r' = rho D x0 k x := le_antisymm e2 e1
  subst this
  rw [e3]
  simp only [hl]
  ring

/-- bounds on the `k`-th derivative bound the variation of the ratio -/
theorem rho_var {D : ℕ → ℝ → ℝ} {k : ℕ} {a b x0 V : ℝ} (hch : Chain D k (Icc a b)) (hx0 : x0 ∈ Icc a b)
    (hV : ∀ x ∈ Icc a b, ∀ y ∈ Icc a b, D k x - D k y ≤ V) :
    ∀ x ∈ Icc a b, ∀ y ∈ Icc a b, rho D x0 k x - rho D x0 k y ≤ V / k.factorial := by
  intro x hx y hy
  have hcx : Convex ℝ (Icc a b) := convex_Icc a b
  set S := (D k) '' Icc a b with hS
  have hne : S.Nonempty := ⟨_, mem_image_of_mem _ hx0⟩
  have hbd : BddAbove S := by
    refine ⟨D k x0 + V, ?_⟩
    rintro _ ⟨z, hz, rfl⟩
    have := hV z hz x0 hx0
    linarith
  have hle : ∀ z ∈ Icc a b, D k z ≤ sSup S := fun z hz => le_csSup hbd (mem_image_of_mem _ hz)
  have hge : ∀ z ∈ Icc a b, sSup S - V ≤ D k z := by
    intro z hz
    have : sSup S ≤ D k z + V := csSup_le hne (by
      rintro _ ⟨w, hw, rfl⟩
      have := hV w hw z hz
      linarith)
    linarith
  have r1 := rho_le hcx hch hle hx0 hx
  have r2 := le_rho hcx hch hge hx0 hy
  rw [sub_div] at r2
  linarith

end AB
