import Verif.Spec.Scalar
import Verif.Proofs.Taylor
import Verif.Proofs.PolyAlg

set_option linter.unusedSectionVars false

/-! The code's remainder ratio is `rho` away from the cap; scalar soundness of the basic enclosures. -/

namespace AB
open PE EF Set

section
variable {K : Type} [Field K] [LinearOrder K] [IsStrictOrderedRing K]

theorem enum_pow_sum (l : List K) (g : ℕ → K) :
    ((Poly.enum l).map fun ic => ic.2 * g ic.1).sum =
      ∑ i ∈ Finset.range l.length, l.getD i 0 * g i := by
  have : (Poly.enum l).map (fun ic => ic.2 * g ic.1) =
      (Poly.enum l).map fun ic => l.getD ic.1 0 * g ic.1 := by
    apply List.map_congr_left
    rintro ⟨i, c⟩ h
    rw [Poly.mem_enum] at h
    simp [List.getD_eq_getElem?_getD, h]
  rw [this, Poly.enum_sum l fun i => l.getD i 0 * g i]

theorem sgn_div_max {d : K} (h : d = 0 ∨ 1 / 10 ^ 12 ≤ |d|) (r : K) :
    r * sgn d / max (1 / 10 ^ 12) |d| = r / d := by
  unfold sgn
  rcases h with h | h
  · subst h; simp
  · rw [max_eq_right h]
    split_ifs with h1 h2
    · rw [abs_of_pos h1, mul_one]
    · rw [abs_of_neg h2, mul_neg_one, neg_div_neg_eq]
    · have : d = 0 := le_antisymm (not_lt.1 h1) (not_lt.1 h2)
      rw [this]; simp

/-- `taylor_remainder_ratio` over a field -/
theorem taylorRemainderRatio_field (x0 : K) (degree : ℕ) (sigma : K → K) (coeffs : List K) (x : K) :
    taylorRemainderRatio x0 degree sigma coeffs x =
      if coeffs.length ≠ degree + 1 then .error .valueError
      else
        let rk := sigma x - ((Poly.enum coeffs).map fun ic => ic.2 * (x - x0) ^ ic.1).sum
        let denom := (x - x0) ^ degree
        .ok (coeffs.getD degree 0 + rk * sgn denom / max (1 / 10 ^ 12) |denom|) := by
  unfold taylorRemainderRatio
  rw [← List.sum_eq_foldl, show (((10 ^ 12 : ℕ) : ℕ) : K) = 10 ^ 12 by rw [Nat.cast_pow, Nat.cast_ofNat]]
  rfl

/-- `taylor_remainder_ratio` away from the cap, in closed form -/
theorem ratio_eq {x0 : K} {k : ℕ} {f : K → K} {cs : List K} (hl : cs.length = k + 1) {x : K}
    (hc : NotCapped x0 k x) :
    taylorRemainderRatio x0 k f cs x = .ok (if (x - x0) ^ k = 0 then cs.getD k 0
      else (f x - ∑ i ∈ Finset.range k, cs.getD i 0 * (x - x0) ^ i) / (x - x0) ^ k) := by
  rw [taylorRemainderRatio_field]
  rw [if_neg (by simpa using hl)]
  simp only
  have h1 := enum_pow_sum cs fun i => (x - x0) ^ i
  rw [h1, hl, Finset.sum_range_succ]
  have hd : (x - x0) ^ k = 0 ∨ 1 / 10 ^ 12 ≤ |(x - x0) ^ k| := by
    rcases hc with rfl | h
    · rcases Nat.eq_zero_or_pos k with rfl | hk
      · right
        simp only [pow_zero, abs_one]
        rw [div_le_one (by positivity)]
        exact one_le_pow₀ (by norm_num)
      · left; rw [sub_self, zero_pow hk.ne']
    · right; rwa [abs_pow]
  rw [sgn_div_max hd]
  congr 1
  split_ifs with h0
  · rw [h0]; simp
  · field_simp
    ring
end

theorem taylorCoeffs_length (D : ℕ → ℝ → ℝ) (k : ℕ) (x0 : ℝ) : (taylorCoeffs D k x0).length = k + 1 := by
  simp [taylorCoeffs]

theorem taylorCoeffs_getD (D : ℕ → ℝ → ℝ) {k i : ℕ} (h : i ≤ k) (x0 : ℝ) :
    (taylorCoeffs D k x0).getD i 0 = D i x0 / i.factorial := by
  simp [taylorCoeffs, List.getD_eq_getElem?_getD, List.getElem?_range (show i < k + 1 by omega)]

theorem ratio_rho (D : ℕ → ℝ → ℝ) {k : ℕ} {x0 x : ℝ} (hc : NotCapped x0 k x) :
    taylorRemainderRatio x0 k (D 0) (taylorCoeffs D k x0) x = .ok (rho D x0 k x) := by
  rw [ratio_eq (taylorCoeffs_length D k x0) hc]
  congr 1
  have hsum : ∑ i ∈ Finset.range k, (taylorCoeffs D k x0).getD i 0 * (x - x0) ^ i =
      ∑ i ∈ Finset.range k, D i x0 / i.factorial * (x - x0) ^ i :=
    Finset.sum_congr rfl fun i hi => by
      rw [taylorCoeffs_getD D (Finset.mem_range.1 hi).le]
  rw [hsum, taylorCoeffs_getD D le_rfl]
  unfold rho
  by_cases h : x = x0
  · subst h
    rw [if_pos rfl]
    rcases Nat.eq_zero_or_pos k with rfl | hk
    · simp
    · rw [if_pos (by rw [sub_self, zero_pow hk.ne'])]
  · rw [if_neg h, if_neg (pow_ne_zero _ (sub_ne_zero.2 h))]

/-- a final interval containing the values of `rho` gives an enclosure -/
theorem has_of_rho {D : ℕ → ℝ → ℝ} {k : ℕ} {x0 x : ℝ} {l u : ℝ} (h1 : l ≤ rho D x0 k x)
    (h2 : rho D x0 k x ≤ u) :
    SEncl.Has ((taylorCoeffs D k x0).take k, (l, u)) (x - x0) (D 0 x) := by
  refine ⟨_, h1, h2, ?_⟩
  have hl : ((taylorCoeffs D k x0).take k).length = k := by simp [taylorCoeffs]
  simp only [hl]
  rw [rho_spec D x0 k x]
  congr 1
  apply Finset.sum_congr rfl
  intro i hi
  have hi := Finset.mem_range.1 hi
  rw [List.getD_eq_getElem?_getD, List.getElem?_take, if_pos hi, ← List.getD_eq_getElem?_getD,
    taylorCoeffs_getD D hi.le]

theorem sharp_eq (D : ℕ → ℝ → ℝ) {k : ℕ} {x0 a b : ℝ} (ha : NotCapped x0 k a)
    (hb : NotCapped x0 k b) (inc : Bool) :
    sharpMonotonic x0 k a b (D 0) (taylorCoeffs D k x0) inc = .ok ((taylorCoeffs D k x0).take k,
      if inc then (rho D x0 k a, rho D x0 k b) else (rho D x0 k b, rho D x0 k a)) := by
  unfold sharpMonotonic
  rw [ratio_rho D ha, ratio_rho D hb]
  rfl

end AB
