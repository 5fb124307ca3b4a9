/-
Decimal bounds for the exponential near the extrema of higher derivatives of sigmoid and swish.
-/
import Mathlib.Analysis.Complex.ExponentialBounds

namespace AB

theorem exp_sig4iA : (2.322473886940412399 : ℝ) ≤ Real.exp 0.84263294812937 ∧ Real.exp 0.84263294812937 ≤ (2.322473886940412400 : ℝ) := by
  have e : Real.exp 0.84263294812937 = Real.exp (0.84263294812937 / 8) ^ 8 := by
    rw [← Real.exp_nat_mul]; norm_num
  have h1 : (1.11107622594581115823 : ℝ) ≤ Real.exp (0.84263294812937 / 8) := by
    refine le_trans ?_ (Real.sum_le_exp_of_nonneg (by norm_num) 22)
    norm_num [Finset.sum_range_succ, Nat.factorial]
  have h2 : Real.exp (0.84263294812937 / 8) ≤ (1.11107622594581115826 : ℝ) := by
    refine le_trans (Real.exp_bound' (by norm_num) (by norm_num) (n := 22) (by norm_num)) ?_
    norm_num [Finset.sum_range_succ, Nat.factorial]
  rw [e]
  constructor
  · refine le_trans ?_ (pow_le_pow_left₀ (by norm_num) h1 8)
    norm_num
  · refine le_trans (pow_le_pow_left₀ (Real.exp_pos _).le h2 8) ?_
    norm_num

theorem exp_sig4iB : (2.322473886940435624 : ℝ) ≤ Real.exp 0.84263294812938 ∧ Real.exp 0.84263294812938 ≤ (2.322473886940435625 : ℝ) := by
  have e : Real.exp 0.84263294812938 = Real.exp (0.84263294812938 / 8) ^ 8 := by
    rw [← Real.exp_nat_mul]; norm_num
  have h1 : (1.11107622594581254707 : ℝ) ≤ Real.exp (0.84263294812938 / 8) := by
    refine le_trans ?_ (Real.sum_le_exp_of_nonneg (by norm_num) 22)
    norm_num [Finset.sum_range_succ, Nat.factorial]
  have h2 : Real.exp (0.84263294812938 / 8) ≤ (1.11107622594581254710 : ℝ) := by
    refine le_trans (Real.exp_bound' (by norm_num) (by norm_num) (n := 22) (by norm_num)) ?_
    norm_num [Finset.sum_range_succ, Nat.factorial]
  rw [e]
  constructor
  · refine le_trans ?_ (pow_le_pow_left₀ (by norm_num) h1 8)
    norm_num
  · refine le_trans (pow_le_pow_left₀ (Real.exp_pos _).le h2 8) ?_
    norm_num

theorem exp_sig4oA : (23.203854477756323459 : ℝ) ≤ Real.exp 3.14431840615493 ∧ Real.exp 3.14431840615493 ≤ (23.203854477756323464 : ℝ) := by
  have e : Real.exp 3.14431840615493 = Real.exp (3.14431840615493 / 8) ^ 8 := by
    rw [← Real.exp_nat_mul]; norm_num
  have h1 : (1.48147735209428688966 : ℝ) ≤ Real.exp (3.14431840615493 / 8) := by
    refine le_trans ?_ (Real.sum_le_exp_of_nonneg (by norm_num) 22)
    norm_num [Finset.sum_range_succ, Nat.factorial]
  have h2 : Real.exp (3.14431840615493 / 8) ≤ (1.48147735209428688969 : ℝ) := by
    refine le_trans (Real.exp_bound' (by norm_num) (by norm_num) (n := 22) (by norm_num)) ?_
    norm_num [Finset.sum_range_succ, Nat.factorial]
  rw [e]
  constructor
  · refine le_trans ?_ (pow_le_pow_left₀ (by norm_num) h1 8)
    norm_num
  · refine le_trans (pow_le_pow_left₀ (Real.exp_pos _).le h2 8) ?_
    norm_num

theorem exp_sig4oB : (23.203854477756555498 : ℝ) ≤ Real.exp 3.14431840615494 ∧ Real.exp 3.14431840615494 ≤ (23.203854477756555503 : ℝ) := by
  have e : Real.exp 3.14431840615494 = Real.exp (3.14431840615494 / 8) ^ 8 := by
    rw [← Real.exp_nat_mul]; norm_num
  have h1 : (1.48147735209428874151 : ℝ) ≤ Real.exp (3.14431840615494 / 8) := by
    refine le_trans ?_ (Real.sum_le_exp_of_nonneg (by norm_num) 22)
    norm_num [Finset.sum_range_succ, Nat.factorial]
  have h2 : Real.exp (3.14431840615494 / 8) ≤ (1.48147735209428874154 : ℝ) := by
    refine le_trans (Real.exp_bound' (by norm_num) (by norm_num) (n := 22) (by norm_num)) ?_
    norm_num [Finset.sum_range_succ, Nat.factorial]
  rw [e]
  constructor
  · refine le_trans ?_ (pow_le_pow_left₀ (by norm_num) h1 8)
    norm_num
  · refine le_trans (pow_le_pow_left₀ (Real.exp_pos _).le h2 8) ?_
    norm_num

theorem exp_sw3iA : (2.806556372993381407 : ℝ) ≤ Real.exp 1.03195824178074 ∧ Real.exp 1.03195824178074 ≤ (2.806556372993381409 : ℝ) := by
  have e : Real.exp 1.03195824178074 = Real.exp (1.03195824178074 / 8) ^ 8 := by
    rw [← Real.exp_nat_mul]; norm_num
  have h1 : (1.13768418569202349500 : ℝ) ≤ Real.exp (1.03195824178074 / 8) := by
    refine le_trans ?_ (Real.sum_le_exp_of_nonneg (by norm_num) 22)
    norm_num [Finset.sum_range_succ, Nat.factorial]
  have h2 : Real.exp (1.03195824178074 / 8) ≤ (1.13768418569202349503 : ℝ) := by
    refine le_trans (Real.exp_bound' (by norm_num) (by norm_num) (n := 22) (by norm_num)) ?_
    norm_num [Finset.sum_range_succ, Nat.factorial]
  rw [e]
  constructor
  · refine le_trans ?_ (pow_le_pow_left₀ (by norm_num) h1 8)
    norm_num
  · refine le_trans (pow_le_pow_left₀ (Real.exp_pos _).le h2 8) ?_
    norm_num

theorem exp_sw3iB : (2.806556372993409472 : ℝ) ≤ Real.exp 1.03195824178075 ∧ Real.exp 1.03195824178075 ≤ (2.806556372993409474 : ℝ) := by
  have e : Real.exp 1.03195824178075 = Real.exp (1.03195824178075 / 8) ^ 8 := by
    rw [← Real.exp_nat_mul]; norm_num
  have h1 : (1.13768418569202491710 : ℝ) ≤ Real.exp (1.03195824178075 / 8) := by
    refine le_trans ?_ (Real.sum_le_exp_of_nonneg (by norm_num) 22)
    norm_num [Finset.sum_range_succ, Nat.factorial]
  have h2 : Real.exp (1.03195824178075 / 8) ≤ (1.13768418569202491713 : ℝ) := by
    refine le_trans (Real.exp_bound' (by norm_num) (by norm_num) (n := 22) (by norm_num)) ?_
    norm_num [Finset.sum_range_succ, Nat.factorial]
  rw [e]
  constructor
  · refine le_trans ?_ (pow_le_pow_left₀ (by norm_num) h1 8)
    norm_num
  · refine le_trans (pow_le_pow_left₀ (Real.exp_pos _).le h2 8) ?_
    norm_num

theorem exp_sw3oA : (83.867242362909078354 : ℝ) ≤ Real.exp 4.42923510055722 ∧ Real.exp 4.42923510055722 ≤ (83.867242362909078367 : ℝ) := by
  have e : Real.exp 4.42923510055722 = Real.exp (4.42923510055722 / 8) ^ 8 := by
    rw [← Real.exp_nat_mul]; norm_num
  have h1 : (1.73959858366749806280 : ℝ) ≤ Real.exp (4.42923510055722 / 8) := by
    refine le_trans ?_ (Real.sum_le_exp_of_nonneg (by norm_num) 22)
    norm_num [Finset.sum_range_succ, Nat.factorial]
  have h2 : Real.exp (4.42923510055722 / 8) ≤ (1.73959858366749806283 : ℝ) := by
    refine le_trans (Real.exp_bound' (by norm_num) (by norm_num) (n := 22) (by norm_num)) ?_
    norm_num [Finset.sum_range_succ, Nat.factorial]
  rw [e]
  constructor
  · refine le_trans ?_ (pow_le_pow_left₀ (by norm_num) h1 8)
    norm_num
  · refine le_trans (pow_le_pow_left₀ (Real.exp_pos _).le h2 8) ?_
    norm_num

theorem exp_sw3oB : (83.867242362909917027 : ℝ) ≤ Real.exp 4.42923510055723 ∧ Real.exp 4.42923510055723 ≤ (83.867242362909917040 : ℝ) := by
  have e : Real.exp 4.42923510055723 = Real.exp (4.42923510055723 / 8) ^ 8 := by
    rw [← Real.exp_nat_mul]; norm_num
  have h1 : (1.73959858366750023730 : ℝ) ≤ Real.exp (4.42923510055723 / 8) := by
    refine le_trans ?_ (Real.sum_le_exp_of_nonneg (by norm_num) 22)
    norm_num [Finset.sum_range_succ, Nat.factorial]
  have h2 : Real.exp (4.42923510055723 / 8) ≤ (1.73959858366750023733 : ℝ) := by
    refine le_trans (Real.exp_bound' (by norm_num) (by norm_num) (n := 22) (by norm_num)) ?_
    norm_num [Finset.sum_range_succ, Nat.factorial]
  rw [e]
  constructor
  · refine le_trans ?_ (pow_le_pow_left₀ (by norm_num) h1 8)
    norm_num
  · refine le_trans (pow_le_pow_left₀ (Real.exp_pos _).le h2 8) ?_
    norm_num

theorem exp_sw4iA : (6.170473712577719124 : ℝ) ≤ Real.exp 1.81977561172501 ∧ Real.exp 1.81977561172501 ≤ (6.170473712577719126 : ℝ) := by
  have e : Real.exp 1.81977561172501 = Real.exp (1.81977561172501 / 8) ^ 8 := by
    rw [← Real.exp_nat_mul]; norm_num
  have h1 : (1.25542222650681705758 : ℝ) ≤ Real.exp (1.81977561172501 / 8) := by
    refine le_trans ?_ (Real.sum_le_exp_of_nonneg (by norm_num) 22)
    norm_num [Finset.sum_range_succ, Nat.factorial]
  have h2 : Real.exp (1.81977561172501 / 8) ≤ (1.25542222650681705761 : ℝ) := by
    refine le_trans (Real.exp_bound' (by norm_num) (by norm_num) (n := 22) (by norm_num)) ?_
    norm_num [Finset.sum_range_succ, Nat.factorial]
  rw [e]
  constructor
  · refine le_trans ?_ (pow_le_pow_left₀ (by norm_num) h1 8)
    norm_num
  · refine le_trans (pow_le_pow_left₀ (Real.exp_pos _).le h2 8) ?_
    norm_num

theorem exp_sw4iB : (6.170473712577780828 : ℝ) ≤ Real.exp 1.81977561172502 ∧ Real.exp 1.81977561172502 ≤ (6.170473712577780831 : ℝ) := by
  have e : Real.exp 1.81977561172502 = Real.exp (1.81977561172502 / 8) ^ 8 := by
    rw [← Real.exp_nat_mul]; norm_num
  have h1 : (1.25542222650681862686 : ℝ) ≤ Real.exp (1.81977561172502 / 8) := by
    refine le_trans ?_ (Real.sum_le_exp_of_nonneg (by norm_num) 22)
    norm_num [Finset.sum_range_succ, Nat.factorial]
  have h2 : Real.exp (1.81977561172502 / 8) ≤ (1.25542222650681862689 : ℝ) := by
    refine le_trans (Real.exp_bound' (by norm_num) (by norm_num) (n := 22) (by norm_num)) ?_
    norm_num [Finset.sum_range_succ, Nat.factorial]
  rw [e]
  constructor
  · refine le_trans ?_ (pow_le_pow_left₀ (by norm_num) h1 8)
    norm_num
  · refine le_trans (pow_le_pow_left₀ (Real.exp_pos _).le h2 8) ?_
    norm_num

end AB
