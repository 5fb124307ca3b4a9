/-
Decimal bounds for the exponential near the extrema of the derivatives of sigmoid and swish.
-/
import Mathlib.Analysis.Complex.ExponentialBounds

namespace AB

theorem exp_sig2A : (3.732050807568852256 : ℝ) ≤ Real.exp 1.31695789692481 ∧ Real.exp 1.31695789692481 ≤ (3.732050807568852257 : ℝ) := by
  have e : Real.exp 1.31695789692481 = Real.exp (1.31695789692481 / 4) ^ 4 := by
    rw [← Real.exp_nat_mul]; norm_num
  have h1 : (1.38991066352414538680 : ℝ) ≤ Real.exp (1.31695789692481 / 4) := by
    refine le_trans ?_ (Real.sum_le_exp_of_nonneg (by norm_num) 22)
    norm_num [Finset.sum_range_succ, Nat.factorial]
  have h2 : Real.exp (1.31695789692481 / 4) ≤ (1.38991066352414538683 : ℝ) := by
    refine le_trans (Real.exp_bound' (by norm_num) (by norm_num) (n := 22) (by norm_num)) ?_
    norm_num [Finset.sum_range_succ, Nat.factorial]
  rw [e]
  constructor
  · refine le_trans ?_ (pow_le_pow_left₀ (by norm_num) h1 4)
    norm_num
  · refine le_trans (pow_le_pow_left₀ (Real.exp_pos _).le h2 4) ?_
    norm_num

theorem exp_sig2B : (3.732050807568889576 : ℝ) ≤ Real.exp 1.31695789692482 ∧ Real.exp 1.31695789692482 ≤ (3.732050807568889578 : ℝ) := by
  have e : Real.exp 1.31695789692482 = Real.exp (1.31695789692482 / 4) ^ 4 := by
    rw [← Real.exp_nat_mul]; norm_num
  have h1 : (1.38991066352414886158 : ℝ) ≤ Real.exp (1.31695789692482 / 4) := by
    refine le_trans ?_ (Real.sum_le_exp_of_nonneg (by norm_num) 22)
    norm_num [Finset.sum_range_succ, Nat.factorial]
  have h2 : Real.exp (1.31695789692482 / 4) ≤ (1.38991066352414886161 : ℝ) := by
    refine le_trans (Real.exp_bound' (by norm_num) (by norm_num) (n := 22) (by norm_num)) ?_
    norm_num [Finset.sum_range_succ, Nat.factorial]
  rw [e]
  constructor
  · refine le_trans ?_ (pow_le_pow_left₀ (by norm_num) h1 4)
    norm_num
  · refine le_trans (pow_le_pow_left₀ (Real.exp_pos _).le h2 4) ?_
    norm_num

theorem exp_sig3A : (9.898979485566280094 : ℝ) ≤ Real.exp 2.29243166956117 ∧ Real.exp 2.29243166956117 ≤ (9.898979485566280096 : ℝ) := by
  have e : Real.exp 2.29243166956117 = Real.exp (2.29243166956117 / 4) ^ 4 := by
    rw [← Real.exp_nat_mul]; norm_num
  have h1 : (1.77377122818641983077 : ℝ) ≤ Real.exp (2.29243166956117 / 4) := by
    refine le_trans ?_ (Real.sum_le_exp_of_nonneg (by norm_num) 22)
    norm_num [Finset.sum_range_succ, Nat.factorial]
  have h2 : Real.exp (2.29243166956117 / 4) ≤ (1.77377122818641983080 : ℝ) := by
    refine le_trans (Real.exp_bound' (by norm_num) (by norm_num) (n := 22) (by norm_num)) ?_
    norm_num [Finset.sum_range_succ, Nat.factorial]
  rw [e]
  constructor
  · refine le_trans ?_ (pow_le_pow_left₀ (by norm_num) h1 4)
    norm_num
  · refine le_trans (pow_le_pow_left₀ (Real.exp_pos _).le h2 4) ?_
    norm_num

theorem exp_sig3B : (9.898979485566379084 : ℝ) ≤ Real.exp 2.29243166956118 ∧ Real.exp 2.29243166956118 ≤ (9.898979485566379086 : ℝ) := by
  have e : Real.exp 2.29243166956118 = Real.exp (2.29243166956118 / 4) ^ 4 := by
    rw [← Real.exp_nat_mul]; norm_num
  have h1 : (1.77377122818642426520 : ℝ) ≤ Real.exp (2.29243166956118 / 4) := by
    refine le_trans ?_ (Real.sum_le_exp_of_nonneg (by norm_num) 22)
    norm_num [Finset.sum_range_succ, Nat.factorial]
  have h2 : Real.exp (2.29243166956118 / 4) ≤ (1.77377122818642426523 : ℝ) := by
    refine le_trans (Real.exp_bound' (by norm_num) (by norm_num) (n := 22) (by norm_num)) ?_
    norm_num [Finset.sum_range_succ, Nat.factorial]
  rw [e]
  constructor
  · refine le_trans ?_ (pow_le_pow_left₀ (by norm_num) h1 4)
    norm_num
  · refine le_trans (pow_le_pow_left₀ (Real.exp_pos _).le h2 4) ?_
    norm_num

theorem exp_sw0A : (3.591121476668608507 : ℝ) ≤ Real.exp 1.27846454276107 ∧ Real.exp 1.27846454276107 ≤ (3.591121476668608509 : ℝ) := by
  have e : Real.exp 1.27846454276107 = Real.exp (1.27846454276107 / 4) ^ 4 := by
    rw [← Real.exp_nat_mul]; norm_num
  have h1 : (1.37659923558543876941 : ℝ) ≤ Real.exp (1.27846454276107 / 4) := by
    refine le_trans ?_ (Real.sum_le_exp_of_nonneg (by norm_num) 22)
    norm_num [Finset.sum_range_succ, Nat.factorial]
  have h2 : Real.exp (1.27846454276107 / 4) ≤ (1.37659923558543876944 : ℝ) := by
    refine le_trans (Real.exp_bound' (by norm_num) (by norm_num) (n := 22) (by norm_num)) ?_
    norm_num [Finset.sum_range_succ, Nat.factorial]
  rw [e]
  constructor
  · refine le_trans ?_ (pow_le_pow_left₀ (by norm_num) h1 4)
    norm_num
  · refine le_trans (pow_le_pow_left₀ (Real.exp_pos _).le h2 4) ?_
    norm_num

theorem exp_sw0B : (3.591121476668644418 : ℝ) ≤ Real.exp 1.27846454276108 ∧ Real.exp 1.27846454276108 ≤ (3.591121476668644420 : ℝ) := by
  have e : Real.exp 1.27846454276108 = Real.exp (1.27846454276108 / 4) ^ 4 := by
    rw [← Real.exp_nat_mul]; norm_num
  have h1 : (1.37659923558544221090 : ℝ) ≤ Real.exp (1.27846454276108 / 4) := by
    refine le_trans ?_ (Real.sum_le_exp_of_nonneg (by norm_num) 22)
    norm_num [Finset.sum_range_succ, Nat.factorial]
  have h2 : Real.exp (1.27846454276108 / 4) ≤ (1.37659923558544221093 : ℝ) := by
    refine le_trans (Real.exp_bound' (by norm_num) (by norm_num) (n := 22) (by norm_num)) ?_
    norm_num [Finset.sum_range_succ, Nat.factorial]
  rw [e]
  constructor
  · refine le_trans ?_ (pow_le_pow_left₀ (by norm_num) h1 4)
    norm_num
  · refine le_trans (pow_le_pow_left₀ (Real.exp_pos _).le h2 4) ?_
    norm_num

theorem exp_sw1A : (11.016093846685338327 : ℝ) ≤ Real.exp 2.39935728051546 ∧ Real.exp 2.39935728051546 ≤ (11.016093846685338329 : ℝ) := by
  have e : Real.exp 2.39935728051546 = Real.exp (2.39935728051546 / 4) ^ 4 := by
    rw [← Real.exp_nat_mul]; norm_num
  have h1 : (1.82182604609696050926 : ℝ) ≤ Real.exp (2.39935728051546 / 4) := by
    refine le_trans ?_ (Real.sum_le_exp_of_nonneg (by norm_num) 22)
    norm_num [Finset.sum_range_succ, Nat.factorial]
  have h2 : Real.exp (2.39935728051546 / 4) ≤ (1.82182604609696050929 : ℝ) := by
    refine le_trans (Real.exp_bound' (by norm_num) (by norm_num) (n := 22) (by norm_num)) ?_
    norm_num [Finset.sum_range_succ, Nat.factorial]
  rw [e]
  constructor
  · refine le_trans ?_ (pow_le_pow_left₀ (by norm_num) h1 4)
    norm_num
  · refine le_trans (pow_le_pow_left₀ (Real.exp_pos _).le h2 4) ?_
    norm_num

theorem exp_sw1B : (11.016093846685448488 : ℝ) ≤ Real.exp 2.39935728051547 ∧ Real.exp 2.39935728051547 ≤ (11.016093846685448490 : ℝ) := by
  have e : Real.exp 2.39935728051547 = Real.exp (2.39935728051547 / 4) ^ 4 := by
    rw [← Real.exp_nat_mul]; norm_num
  have h1 : (1.82182604609696506382 : ℝ) ≤ Real.exp (2.39935728051547 / 4) := by
    refine le_trans ?_ (Real.sum_le_exp_of_nonneg (by norm_num) 22)
    norm_num [Finset.sum_range_succ, Nat.factorial]
  have h2 : Real.exp (2.39935728051547 / 4) ≤ (1.82182604609696506385 : ℝ) := by
    refine le_trans (Real.exp_bound' (by norm_num) (by norm_num) (n := 22) (by norm_num)) ?_
    norm_num [Finset.sum_range_succ, Nat.factorial]
  rw [e]
  constructor
  · refine le_trans ?_ (pow_le_pow_left₀ (by norm_num) h1 4)
    norm_num
  · refine le_trans (pow_le_pow_left₀ (Real.exp_pos _).le h2 4) ?_
    norm_num

theorem exp_sw2A : (31.057520759753495840 : ℝ) ≤ Real.exp 3.43584099353511 ∧ Real.exp 3.43584099353511 ≤ (31.057520759753495843 : ℝ) := by
  have e : Real.exp 3.43584099353511 = Real.exp (3.43584099353511 / 4) ^ 4 := by
    rw [← Real.exp_nat_mul]; norm_num
  have h1 : (2.36070487049944065476 : ℝ) ≤ Real.exp (3.43584099353511 / 4) := by
    refine le_trans ?_ (Real.sum_le_exp_of_nonneg (by norm_num) 22)
    norm_num [Finset.sum_range_succ, Nat.factorial]
  have h2 : Real.exp (3.43584099353511 / 4) ≤ (2.36070487049944065479 : ℝ) := by
    refine le_trans (Real.exp_bound' (by norm_num) (by norm_num) (n := 22) (by norm_num)) ?_
    norm_num [Finset.sum_range_succ, Nat.factorial]
  rw [e]
  constructor
  · refine le_trans ?_ (pow_le_pow_left₀ (by norm_num) h1 4)
    norm_num
  · refine le_trans (pow_le_pow_left₀ (Real.exp_pos _).le h2 4) ?_
    norm_num

theorem exp_sw2B : (31.057520759753806416 : ℝ) ≤ Real.exp 3.43584099353512 ∧ Real.exp 3.43584099353512 ≤ (31.057520759753806418 : ℝ) := by
  have e : Real.exp 3.43584099353512 = Real.exp (3.43584099353512 / 4) ^ 4 := by
    rw [← Real.exp_nat_mul]; norm_num
  have h1 : (2.36070487049944655653 : ℝ) ≤ Real.exp (3.43584099353512 / 4) := by
    refine le_trans ?_ (Real.sum_le_exp_of_nonneg (by norm_num) 22)
    norm_num [Finset.sum_range_succ, Nat.factorial]
  have h2 : Real.exp (3.43584099353512 / 4) ≤ (2.36070487049944655656 : ℝ) := by
    refine le_trans (Real.exp_bound' (by norm_num) (by norm_num) (n := 22) (by norm_num)) ?_
    norm_num [Finset.sum_range_succ, Nat.factorial]
  rw [e]
  constructor
  · refine le_trans ?_ (pow_le_pow_left₀ (by norm_num) h1 4)
    norm_num
  · refine le_trans (pow_le_pow_left₀ (Real.exp_pos _).le h2 4) ?_
    norm_num

end AB
