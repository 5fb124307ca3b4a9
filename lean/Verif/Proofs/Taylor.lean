import Mathlib.Analysis.Calculus.Deriv.MeanValue
import Mathlib.Analysis.Calculus.Deriv.Pow
import Mathlib.Analysis.Calculus.Deriv.Shift
import Mathlib.Analysis.Calculus.Deriv.Comp
import Mathlib.Data.Nat.Factorial.Basic
import Mathlib.Algebra.BigOperators.Field
import Mathlib.Tactic.FieldSimp
import Mathlib.Tactic.Ring
import Mathlib.Tactic.Linarith

/-! The Taylor remainder ratio of a function with monotone `k`-th derivative is monotone. -/

namespace AB
open Set Finset

/-- `F (i+1)` is the derivative of `F i` on `s`, for `i < k` -/
def Chain (F : ℕ → ℝ → ℝ) (k : ℕ) (s : Set ℝ) : Prop :=
  ∀ i < k, ∀ x ∈ s, HasDerivWithinAt (F i) (F (i + 1) x) s x

theorem antitone_of_hasDerivWithinAt {g g' : ℝ → ℝ} {s : Set ℝ} (hs : Convex ℝ s)
    (h : ∀ x ∈ s, HasDerivWithinAt g (g' x) s x) (hle : ∀ x ∈ s, g' x ≤ 0) : AntitoneOn g s := by
  refine antitoneOn_of_deriv_nonpos hs (fun x hx => (h x hx).continuousWithinAt)
    (fun x hx => ((h x (interior_subset hx)).mono interior_subset).differentiableWithinAt)
    fun x hx => ?_
  rw [((h x (interior_subset hx)).hasDerivAt (mem_interior_iff_mem_nhds.1 hx)).deriv]
  exact hle x (interior_subset hx)

theorem monotone_of_hasDerivWithinAt {g g' : ℝ → ℝ} {s : Set ℝ} (hs : Convex ℝ s)
    (h : ∀ x ∈ s, HasDerivWithinAt g (g' x) s x) (hle : ∀ x ∈ s, 0 ≤ g' x) : MonotoneOn g s := by
  have := antitone_of_hasDerivWithinAt (g := fun x => - g x) (g' := fun x => - g' x) hs
    (fun x hx => (h x hx).neg) (fun x hx => neg_nonpos.2 (hle x hx))
  intro x hx y hy hxy
  exact neg_le_neg_iff.1 (this hx hy hxy)

/-- derivative of a Taylor polynomial in the variable `t` -/
theorem hasDerivAt_taylorSum (c : ℕ → ℝ) (k : ℕ) (t : ℝ) :
    HasDerivAt (fun t => ∑ i ∈ range (k + 1), c i * t ^ i / i.factorial)
      (∑ i ∈ range k, c (i + 1) * t ^ i / i.factorial) t := by
  have h : ∀ i ∈ range (k + 1), HasDerivAt (fun t : ℝ => c i * t ^ i / i.factorial)
      (c i * (i * t ^ (i - 1)) / i.factorial) t := fun i _ =>
    ((hasDerivAt_pow i t).const_mul (c i)).div_const _
  refine (HasDerivAt.fun_sum h).congr_deriv ?_
  rw [Finset.sum_range_succ' (n := k)]
  simp only [Nat.cast_zero, zero_mul, mul_zero, zero_div, add_zero]
  apply Finset.sum_congr rfl
  intro i _
  rw [Nat.factorial_succ]
  have : (i.factorial : ℝ) ≠ 0 := by positivity
  have h2 : ((i + 1 : ℕ) : ℝ) ≠ 0 := by positivity
  push_cast at h2 ⊢
  field_simp

/-- Taylor's theorem, as a sign statement -/
theorem taylor_sign (k : ℕ) : ∀ (G : ℕ → ℝ → ℝ), Chain G k (Icc 0 1) →
    (∀ t ∈ Icc (0 : ℝ) 1, G k t ≤ 0) →
    ∀ t ∈ Icc (0 : ℝ) 1, G 0 t ≤ ∑ i ∈ range k, G i 0 * t ^ i / i.factorial := by
  induction k with
  | zero => intro G _ h t ht; simpa using h t ht
  | succ k ih =>
    intro G hG h t ht
    have ih' := ih (fun i => G (i + 1)) (fun i hi => hG (i + 1) (by omega)) h
    have hanti := antitone_of_hasDerivWithinAt (convex_Icc (0 : ℝ) 1)
      (g := fun t => G 0 t - ∑ i ∈ range (k + 1), G i 0 * t ^ i / i.factorial)
      (g' := fun t => G 1 t - ∑ i ∈ range k, G (i + 1) 0 * t ^ i / i.factorial)
      (fun x hx => (hG 0 (by omega) x hx).sub
        (hasDerivAt_taylorSum (fun i => G i 0) k x).hasDerivWithinAt)
      (fun x hx => sub_nonpos.2 (ih' x hx))
    have h0 := hanti (left_mem_Icc.2 zero_le_one) ht ht.1
    simp only at h0
    rw [Finset.sum_range_succ' (n := k)] at h0
    simp only [Finset.sum_range_succ' (n := k)] at h0 ⊢
    simpa [pow_succ] using h0

/-- the Taylor remainder ratio `(f(x) - sum_{i<k} c_i (x-x0)^i) / (x-x0)^k`, extended by
continuity to `x0` -/
noncomputable def rho (F : ℕ → ℝ → ℝ) (x0 : ℝ) (k : ℕ) (x : ℝ) : ℝ :=
  if x = x0 then F k x0 / k.factorial
  else (F 0 x - ∑ i ∈ range k, F i x0 / i.factorial * (x - x0) ^ i) / (x - x0) ^ k

/-- the defining property of the ratio -/
theorem rho_spec (F : ℕ → ℝ → ℝ) (x0 : ℝ) (k : ℕ) (x : ℝ) :
    F 0 x = (∑ i ∈ range k, F i x0 / i.factorial * (x - x0) ^ i) + rho F x0 k x * (x - x0) ^ k := by
  unfold rho
  split_ifs with h
  · subst h
    cases k with
    | zero => simp
    | succ k =>
      rw [Finset.sum_range_succ']
      simp
  · have : (x - x0) ^ k ≠ 0 := pow_ne_zero _ (sub_ne_zero.2 h)
    field_simp
    ring

/-- for every `x` a function on `[0,1]` whose `k`-th derivative is `F k` along the segment from
`x0` to `x`, and whose remainder at 1 is `rho` -/
theorem rho_chain {F : ℕ → ℝ → ℝ} {k : ℕ} {s : Set ℝ} (hs : Convex ℝ s) (hF : Chain F k s)
    {x0 x : ℝ} (h0 : x0 ∈ s) (hx : x ∈ s) :
    ∃ G : ℕ → ℝ → ℝ, Chain G k (Icc 0 1) ∧
      (∀ t ∈ Icc (0 : ℝ) 1, G k t = F k (x0 + t * (x - x0))) ∧
      G 0 1 - (∑ i ∈ range k, G i 0 / i.factorial) = rho F x0 k x := by
  have hseg : ∀ t ∈ Icc (0 : ℝ) 1, x0 + t * (x - x0) ∈ s := fun t ht => by
    have := hs h0 hx (sub_nonneg.2 ht.2) ht.1 (by ring)
    simp only [smul_eq_mul] at this
    convert this using 1; ring
  by_cases h : x = x0
  · subst h
    refine ⟨fun i t => F k x * t ^ (k - i) / (k - i).factorial, ?_, ?_, ?_⟩
    · intro i hi t _
      have e : k - i = (k - (i + 1)) + 1 := by omega
      have := ((hasDerivAt_pow (k - i) t).const_mul (F k x)).div_const ((k - i).factorial : ℝ)
      refine (this.congr_deriv ?_).hasDerivWithinAt
      rw [e, Nat.factorial_succ]
      have : ((k - (i + 1)).factorial : ℝ) ≠ 0 := by positivity
      have h2 : (((k - (i + 1)) + 1 : ℕ) : ℝ) ≠ 0 := by positivity
      push_cast at h2 ⊢
      field_simp
    · intro t _; simp
    · simp only [rho, if_true, Nat.sub_zero, one_pow, mul_one]
      rw [Finset.sum_eq_zero, sub_zero]
      intro i hi
      have : k - i ≠ 0 := by have := Finset.mem_range.1 hi; omega
      simp [this]
  · have hu : x - x0 ≠ 0 := sub_ne_zero.2 h
    refine ⟨fun i t => (x - x0) ^ i / (x - x0) ^ k * F i (x0 + t * (x - x0)), ?_, ?_, ?_⟩
    · intro i hi t ht
      have h1 := hF i hi _ (hseg t ht)
      have h2 : HasDerivWithinAt (fun t : ℝ => x0 + t * (x - x0)) (x - x0) (Icc 0 1) t := by
        simpa using (((hasDerivAt_id t).mul_const (x - x0)).const_add x0).hasDerivWithinAt
      have h3 := (h1.comp t h2 (fun t ht => hseg t ht)).const_mul ((x - x0) ^ i / (x - x0) ^ k)
      refine h3.congr_deriv ?_
      show _ = (x - x0) ^ (i + 1) / (x - x0) ^ k * F (i + 1) (x0 + t * (x - x0))
      rw [pow_succ]; ring
    · intro t _
      have : (x - x0) ^ k ≠ 0 := pow_ne_zero _ hu
      show (x - x0) ^ k / (x - x0) ^ k * _ = _
      rw [div_self this, one_mul]
    · unfold rho
      rw [if_neg h]
      simp only [pow_zero, one_mul, zero_mul, add_zero, add_sub_cancel]
      rw [sub_div, Finset.sum_div, one_div_mul_eq_div]
      congr 1
      apply Finset.sum_congr rfl
      intro i _
      ring

/-- the remainder ratio is monotone if the `k`-th derivative is -/
theorem rho_mono {F : ℕ → ℝ → ℝ} {k : ℕ} {s : Set ℝ} (hs : Convex ℝ s) (hF : Chain F k s)
    (hk : MonotoneOn (F k) s) {x0 : ℝ} (h0 : x0 ∈ s) : MonotoneOn (rho F x0 k) s := by
  intro x hx y hy hxy
  have hseg : ∀ z ∈ s, ∀ t ∈ Icc (0 : ℝ) 1, x0 + t * (z - x0) ∈ s := fun z hz t ht => by
    have := hs h0 hz (sub_nonneg.2 ht.2) ht.1 (by ring)
    simp only [smul_eq_mul] at this
    convert this using 1; ring
  obtain ⟨G, g1, g2, g3⟩ := rho_chain hs hF h0 hx
  obtain ⟨H, h1, h2, h3⟩ := rho_chain hs hF h0 hy
  have := taylor_sign k (fun i t => G i t - H i t) (fun i hi t ht => (g1 i hi t ht).sub (h1 i hi t ht))
    (fun t ht => by
      show G k t - H k t ≤ 0
      rw [g2 t ht, h2 t ht, sub_nonpos]
      exact hk (hseg x hx t ht) (hseg y hy t ht) (by nlinarith [ht.1])) 1 (right_mem_Icc.2 zero_le_one)
  rw [← g3, ← h3]
  simp only [one_pow, mul_one, sub_div, Finset.sum_sub_distrib] at this
  linarith

theorem rho_anti {F : ℕ → ℝ → ℝ} {k : ℕ} {s : Set ℝ} (hs : Convex ℝ s) (hF : Chain F k s)
    (hk : AntitoneOn (F k) s) {x0 : ℝ} (h0 : x0 ∈ s) : AntitoneOn (rho F x0 k) s := by
  have := rho_mono (F := fun i x => - F i x) hs (fun i hi x hx => (hF i hi x hx).neg)
    (fun x hx y hy h => neg_le_neg (hk hx hy h)) h0
  have e : ∀ x, rho (fun i x => - F i x) x0 k x = - rho F x0 k x := by
    intro x
    unfold rho
    split_ifs
    · ring
    · rw [← neg_div]
      congr 1
      simp only [neg_div, neg_mul, Finset.sum_neg_distrib]
      ring
  intro x hx y hy h
  have := this hx hy h
  rw [e, e] at this
  exact neg_le_neg_iff.1 this

/-- the remainder ratio lies between the bounds of the `k`-th derivative -/
theorem rho_le {F : ℕ → ℝ → ℝ} {k : ℕ} {s : Set ℝ} (hs : Convex ℝ s) (hF : Chain F k s)
    {M : ℝ} (hk : ∀ x ∈ s, F k x ≤ M) {x0 x : ℝ} (h0 : x0 ∈ s) (hx : x ∈ s) :
    rho F x0 k x ≤ M / k.factorial := by
  have hseg : ∀ t ∈ Icc (0 : ℝ) 1, x0 + t * (x - x0) ∈ s := fun t ht => by
    have := hs h0 hx (sub_nonneg.2 ht.2) ht.1 (by ring)
    simp only [smul_eq_mul] at this
    convert this using 1; ring
  obtain ⟨G, g1, g2, g3⟩ := rho_chain hs hF h0 hx
  let H : ℕ → ℝ → ℝ := fun i t => M * t ^ (k - i) / (k - i).factorial
  have h1 : Chain H k (Icc 0 1) := by
    intro i hi t _
    have e : k - i = (k - (i + 1)) + 1 := by omega
    have := ((hasDerivAt_pow (k - i) t).const_mul M).div_const ((k - i).factorial : ℝ)
    refine (this.congr_deriv ?_).hasDerivWithinAt
    show _ = M * t ^ (k - (i + 1)) / (k - (i + 1)).factorial
    rw [e, Nat.factorial_succ]
    have : ((k - (i + 1)).factorial : ℝ) ≠ 0 := by positivity
    have h2 : (((k - (i + 1)) + 1 : ℕ) : ℝ) ≠ 0 := by positivity
    push_cast at h2 ⊢
    field_simp
  have := taylor_sign k (fun i t => G i t - H i t) (fun i hi t ht => (g1 i hi t ht).sub (h1 i hi t ht))
    (fun t ht => by
      show G k t - H k t ≤ 0
      rw [g2 t ht, sub_nonpos]
      simpa [H] using hk _ (hseg t ht)) 1 (right_mem_Icc.2 zero_le_one)
  have hH : ∑ i ∈ range k, H i 0 / i.factorial = 0 := by
    apply Finset.sum_eq_zero
    intro i hi
    have : k - i ≠ 0 := by have := Finset.mem_range.1 hi; omega
    simp [H, this]
  simp only [one_pow, mul_one, sub_div, Finset.sum_sub_distrib] at this
  rw [hH] at this
  have hH0 : H 0 1 = M / k.factorial := by simp [H]
  rw [hH0] at this
  rw [← g3]
  linarith

theorem le_rho {F : ℕ → ℝ → ℝ} {k : ℕ} {s : Set ℝ} (hs : Convex ℝ s) (hF : Chain F k s)
    {m : ℝ} (hk : ∀ x ∈ s, m ≤ F k x) {x0 x : ℝ} (h0 : x0 ∈ s) (hx : x ∈ s) :
    m / k.factorial ≤ rho F x0 k x := by
  have := rho_le (F := fun i x => - F i x) (M := -m) hs (fun i hi x hx => (hF i hi x hx).neg)
    (fun x hx => neg_le_neg (hk x hx)) h0 hx
  have e : rho (fun i x => - F i x) x0 k x = - rho F x0 k x := by
    unfold rho
    split_ifs
    · ring
    · rw [← neg_div]
      congr 1
      simp only [neg_div, neg_mul, Finset.sum_neg_distrib]
      ring
  rw [e, neg_div] at this
  exact neg_le_neg_iff.1 this

end AB
