/-
C34, C35: powers (/repo/autobound/primitive_enclosures.py:111-185, 308-326).
-/
import Verif.Spec.Guard
import Verif.Proofs.Pow
import Mathlib.Order.Monotone.Union

namespace AB
open PE EF Set

/-- **C35.** `_pow_kth_deriv_sign(s, p, k)` is the sign of the `k`-th derivative of `x ** p` at every `x`
of sign `s` (`p` any integer or real for `s = 1`, any integer for `s = -1`). -/
theorem C35_sign {s : ℤ} {p : Expo ℝ} {k : ℕ} {r : ℤ} (h : powKthDerivSign s p k = .ok r) {x : ℝ}
    (hx : ((SignType.sign x : SignType) : ℤ) = s) :
    ((SignType.sign (iteratedDeriv k (powFun p) x) : SignType) : ℤ) = r := by
  have key : ∀ t : Set ℝ, IsOpen t → (∀ y ∈ t, powOk p y) → x ∈ t →
      iteratedDeriv k (powFun p) x = powD p k x := by
    intro t ht hok hxt
    rw [← powD_zero]
    exact iteratedDeriv_chain ht (fun i _ y hy => hasDerivAt_powD (hok y hy) i) k le_rfl x hxt
  have hpok : ∀ y : ℝ, 0 < y → powOk p y := fun y hy => by
    cases p with
    | int n => exact Or.inr hy.ne'
    | frac q => exact hy
  rcases lt_trichotomy x 0 with h0 | h0 | h0
  · rw [sign_neg h0] at hx
    obtain rfl : s = -1 := by simpa using hx.symm
    cases p with
    | int n =>
      rw [key (Iio 0) isOpen_Iio (fun y hy => Or.inr (show y < 0 from hy).ne) h0]
      rw [powD_sign_neg h0] at h
      exact Except.ok.inj h
    | frac q => simp [powKthDerivSign] at h
  · subst h0
    simp only [sign_zero, SignType.coe_zero] at hx
    subst hx
    simp [powKthDerivSign] at h
  · rw [sign_pos h0] at hx
    obtain rfl : s = 1 := by simpa using hx.symm
    rw [key (Ioi 0) isOpen_Ioi hpok h0]
    rw [powD_sign_pos h0] at h
    exact Except.ok.inj h

/-- **C35 (rejection).** A negative base with a non-integer exponent, and any sign argument other than
`1` and `-1`, raise `ValueError`; all other calls return. -/
theorem C35_errors (s : ℤ) (p : Expo ℝ) (k : ℕ) :
    (s ≠ 1 → s ≠ -1 → powKthDerivSign s p k = .error .valueError) ∧
    (∀ q, powKthDerivSign (-1) (.frac q : Expo ℝ) k = .error .valueError) ∧
    (∃ r, powKthDerivSign 1 p k = .ok r) ∧ ∀ n, ∃ r, powKthDerivSign (-1) (.int n : Expo ℝ) k = .ok r := by
  refine ⟨fun h1 h2 => by simp [powKthDerivSign, h1, h2], fun q => by simp [powKthDerivSign],
    ⟨_, by simp only [powKthDerivSign, if_true]; rfl⟩, fun n => ⟨_, powD_sign_neg (x := -1) (by norm_num)⟩⟩

/-- C35 at `x = -2`, `p = -3`, `k = 2`: the sign is -1. -/
example : ((SignType.sign (iteratedDeriv 2 (fun x : ℝ => x ^ (-3 : ℤ)) (-2)) : SignType) : ℤ) = -1 := by
  refine C35_sign (p := .int (-3)) (s := -1) (k := 2) ?_ (by simp [sign_neg])
  simp only [powKthDerivSign, Expo.val, fallProd, signInt]
  norm_num

theorem enc_of_mono {D : ℕ → ℝ → ℝ} {k : ℕ} {x0 a b l u : ℝ} (hx0 : x0 ∈ Icc a b)
    (h : (MonotoneOn (rho D x0 k) (Icc a b) ∧ l ≤ rho D x0 k a ∧ rho D x0 k b ≤ u) ∨
      (AntitoneOn (rho D x0 k) (Icc a b) ∧ l ≤ rho D x0 k b ∧ rho D x0 k a ≤ u)) :
    l ≤ u ∧ SEncl.EnclosesFun ((taylorCoeffs D k x0).take k, (l, u)) (D 0) x0 a b := by
  have hab : a ≤ b := hx0.1.trans hx0.2
  have ha := left_mem_Icc.2 hab
  have hb := right_mem_Icc.2 hab
  rcases h with ⟨h, h1, h2⟩ | ⟨h, h1, h2⟩
  · exact ⟨(h1.trans (h ha hb hab)).trans h2, fun x k1 k2 =>
      has_of_rho (h1.trans (h ha ⟨k1, k2⟩ k1)) ((h ⟨k1, k2⟩ hb k2).trans h2)⟩
  · exact ⟨(h1.trans (h ha hb hab)).trans h2, fun x k1 k2 =>
      has_of_rho (h1.trans (h ⟨k1, k2⟩ hb k2)) ((h ha ⟨k1, k2⟩ k1).trans h2)⟩

/-- extending monotonicity of `rho` to a left end point by continuity -/
theorem rho_extend {D : ℕ → ℝ → ℝ} {k : ℕ} {x0 b : ℝ} (hx0 : 0 < x0)
    (hc : ContinuousWithinAt (D 0) (Ioi 0) 0) :
    (MonotoneOn (rho D x0 k) (Ioc 0 b) → MonotoneOn (rho D x0 k) (Icc 0 b)) ∧
    (AntitoneOn (rho D x0 k) (Ioc 0 b) → AntitoneOn (rho D x0 k) (Icc 0 b)) := by
  have hcont : ContinuousWithinAt (rho D x0 k) (Ioi 0) 0 := by
    have h1 : ContinuousWithinAt (fun x => (D 0 x - ∑ i ∈ Finset.range k, D i x0 / i.factorial *
        (x - x0) ^ i) / (x - x0) ^ k) (Ioi 0) 0 := by
      refine ContinuousWithinAt.div (hc.sub ?_) ?_ (pow_ne_zero _ (sub_ne_zero.2 hx0.ne))
      · exact Continuous.continuousWithinAt (by fun_prop)
      · exact Continuous.continuousWithinAt (by fun_prop)
    refine h1.congr_of_eventuallyEq ?_ ?_
    · have : Iio x0 ∈ nhdsWithin (0 : ℝ) (Ioi 0) := mem_nhdsWithin_of_mem_nhds (Iio_mem_nhds hx0)
      filter_upwards [this] with x hx
      rw [rho, if_neg (ne_of_lt hx)]
    · rw [rho, if_neg hx0.ne]
  have hlim : ∀ y ∈ Ioc 0 b, ∀ᶠ x in nhdsWithin (0 : ℝ) (Ioi 0), x ∈ Ioc 0 b ∧ x ≤ y := by
    intro y hy
    have : Ioo 0 y ∈ nhdsWithin (0 : ℝ) (Ioi 0) := Ioo_mem_nhdsGT hy.1
    filter_upwards [this] with x hx
    exact ⟨⟨hx.1, hx.2.le.trans hy.2⟩, hx.2.le⟩
  have split : ∀ y ∈ Icc 0 b, y = 0 ∨ y ∈ Ioc 0 b := fun y hy => by
    rcases eq_or_lt_of_le hy.1 with h | h
    · exact Or.inl h.symm
    · exact Or.inr ⟨h, hy.2⟩
  constructor
  · intro h x hx y hy hxy
    rcases split x hx with rfl | hx'
    · rcases split y hy with rfl | hy'
      · exact le_rfl
      · exact le_of_tendsto hcont ((hlim y hy').mono fun z hz => h hz.1 hy' hz.2)
    · rcases split y hy with rfl | hy'
      · exact absurd hxy (not_le.2 hx'.1)
      · exact h hx' hy' hxy
  · intro h x hx y hy hxy
    rcases split x hx with rfl | hx'
    · rcases split y hy with rfl | hy'
      · exact le_rfl
      · exact ge_of_tendsto hcont ((hlim y hy').mono fun z hz => h hz.1 hy' hz.2)
    · rcases split y hy with rfl | hy'
      · exact absurd hxy (not_le.2 hx'.1)
      · exact h hx' hy' hxy

/-- **C34.** `pow_enclosure(p, x0, (a, b), k)` encloses `x ** p` over the whole trust region, for every
degree `k`, under `PowRegion` (and away from the cap; `powFinite` only excludes inputs for which numpy
computes `inf` or `nan`). -/
theorem C34_pow {p : Expo ℝ} {k : ℕ} {x0 a b : ℝ} (hx0 : x0 ∈ Icc a b) (hreg : PowRegion p k a b)
    (hfin : powFinite p k x0 a b) (ha : NotCapped x0 k a) (hb : NotCapped x0 k b) :
    ∃ s, powEnclosure (fun x p : ℝ => x ^ p) p x0 a b k = .ok s ∧ s.1.length = k ∧ s.2.1 ≤ s.2.2 ∧
      SEncl.EnclosesFun s (powFun p) x0 a b := by
  have hab : a ≤ b := hx0.1.trans hx0.2
  have hl : ((taylorCoeffs (powD p) k x0).take k).length = k := by simp [taylorCoeffs]
  obtain ⟨rp, hrp⟩ := (C35_errors 1 p (k + 1)).2.2.1
  obtain ⟨e1, e2⟩ := powEnclosure_eq hfin ha hb hrp
  rw [← powD_zero]
  cases p with
  | frac q =>
    rw [e1 q rfl]
    refine ⟨_, rfl, hl, ?_⟩
    have hmono : (0 ≤ rp → MonotoneOn (rho (powD (.frac q)) x0 k) (Icc a b)) ∧
        (¬ 0 ≤ rp → AntitoneOn (rho (powD (.frac q)) x0 k) (Icc a b)) := by
      rcases hreg with h | ⟨rfl, hq⟩
      · have hok : ∀ x ∈ Icc a b, powOk (.frac q) x := fun x hx => h.trans_le hx.1
        obtain ⟨m1, m2⟩ := powD_mono_pos (k := k) (convex_Icc a b) hok (fun x hx => h.le.trans hx.1) hrp
        exact ⟨fun h => rho_mono (convex_Icc a b) (powChain hok k) (m1 h) hx0,
          fun h => rho_anti (convex_Icc a b) (powChain hok k) (m2 h) hx0⟩
      · have hok : ∀ x ∈ Ioc 0 b, powOk (.frac q) x := fun x hx => hx.1
        obtain ⟨m1, m2⟩ := powD_mono_pos (k := k) (convex_Ioc 0 b) hok (fun x hx => hx.1.le) hrp
        have hx0' : 0 < x0 := hfin.1
        have hx : x0 ∈ Ioc 0 b := ⟨hx0', hx0.2⟩
        have hc : ContinuousWithinAt (powD (.frac q) 0) (Ioi 0) 0 := by
          rw [powD_zero]
          exact (Real.continuousAt_rpow_const 0 q (Or.inr hq.le)).continuousWithinAt
        obtain ⟨x1, x2⟩ := rho_extend (D := powD (.frac q)) (k := k) (b := b) hx0' hc
        exact ⟨fun h => x1 (rho_mono (convex_Ioc 0 b) (powChain hok k) (m1 h) hx),
          fun h => x2 (rho_anti (convex_Ioc 0 b) (powChain hok k) (m2 h) hx)⟩
    split_ifs with h
    · exact enc_of_mono hx0 (Or.inl ⟨hmono.1 h, le_rfl, le_rfl⟩)
    · exact enc_of_mono hx0 (Or.inr ⟨hmono.2 h, le_rfl, le_rfl⟩)
  | int n =>
    obtain ⟨rn, hrn⟩ := (C35_errors 1 (.int n) (k + 1)).2.2.2 n
    rw [e2 n rn rfl hrn _ _ rfl rfl]
    refine ⟨_, rfl, hl, ?_⟩
    have hok : ∀ x ∈ Icc a b, powOk (.int n) x := by
      intro x hx
      rcases hreg with h | h | h
      · exact Or.inr (h.trans_le hx.1).ne'
      · exact Or.inr (hx.2.trans_lt h).ne
      · exact Or.inl h.1
    have hch := powChain hok k
    have hcx : Convex ℝ (Icc a b) := convex_Icc a b
    by_cases h1 : a ≥ 0
    · rw [if_pos h1]
      split_ifs with h2
      · exact enc_of_mono hx0 (Or.inl ⟨rho_mono hcx hch
          ((powD_mono_pos hcx hok (fun x hx => h1.trans hx.1) hrp).1 h2) hx0, le_rfl, le_rfl⟩)
      · exact enc_of_mono hx0 (Or.inr ⟨rho_anti hcx hch
          ((powD_mono_pos hcx hok (fun x hx => h1.trans hx.1) hrp).2 h2) hx0, le_rfl, le_rfl⟩)
    rw [if_neg h1]
    by_cases h3 : b ≤ 0
    · rw [if_pos h3]
      split_ifs with h4
      · exact enc_of_mono hx0 (Or.inl ⟨rho_mono hcx hch
          ((powD_mono_neg hcx hok (fun x hx => hx.2.trans h3) hrn).1 h4) hx0, le_rfl, le_rfl⟩)
      · exact enc_of_mono hx0 (Or.inr ⟨rho_anti hcx hch
          ((powD_mono_neg hcx hok (fun x hx => hx.2.trans h3) hrn).2 h4) hx0, le_rfl, le_rfl⟩)
    rw [if_neg h3]
    · -- the region contains 0 in its interior
      have hn : 0 ≤ n ∧ (n ≤ k ∨ (n - k) % 2 = 1) := by
        rcases hreg with h | h | ⟨h, h' | h' | h'⟩
        · exact absurd h.le h1
        · exact absurd h.le h3
        · exact absurd h' h1
        · exact absurd h' h3
        · exact ⟨h, h'⟩
      have hsame : (0 ≤ rp ↔ 0 ≤ rn) := by
        have s1 := powD_sign_pos (p := .int n) (k := k + 1) (x := 1) one_pos
        have s2 := powD_sign_neg (n := n) (k := k + 1) (x := -1) (by norm_num)
        rw [hrp] at s1
        rw [hrn] at s2
        have s1 := Except.ok.inj s1
        have s2 := Except.ok.inj s2
        rcases hn.2 with h | h
        · obtain ⟨m, rfl⟩ := Int.eq_ofNat_of_zero_le hn.1
          have h0 : ∀ y, powD (.int m) (k + 1) y = 0 := fun y => by
            simp only [powD, Expo.val]
            rw [fallProd_nat_zero m (k + 1) (by omega), zero_mul]
          rw [h0] at s1 s2
          rw [s1, s2]
        · have h0 : powD (.int n) (k + 1) (-1) = powD (.int n) (k + 1) 1 := by
            simp only [powD, powShift, one_zpow]
            rw [Even.neg_one_zpow (Int.even_iff.2 (by push_cast; omega))]
          rw [h0, ← s1] at s2
          rw [s2]
      have hokp : ∀ x ∈ Icc 0 b, powOk (.int n) x := fun x _ => Or.inl hn.1
      have hokn : ∀ x ∈ Icc a 0, powOk (.int n) x := fun x _ => Or.inl hn.1
      obtain ⟨p1, p2⟩ := powD_mono_pos (k := k) (convex_Icc 0 b) hokp (fun x hx => hx.1) hrp
      obtain ⟨n1, n2⟩ := powD_mono_neg (k := k) (convex_Icc a 0) hokn (fun x hx => hx.2) hrn
      have hu : Icc a b = Icc a 0 ∪ Icc 0 b :=
        (Icc_union_Icc_eq_Icc (not_le.1 h1).le (not_le.1 h3).le).symm
      by_cases h : rp ≥ 0
      · have hm : MonotoneOn (powD (.int n) k) (Icc a b) := by
          rw [hu]
          exact (n1 (hsame.1 h)).union_right (p1 h) (isGreatest_Icc (not_le.1 h1).le)
            (isLeast_Icc (not_le.1 h3).le)
        rw [if_pos h, if_pos (hsame.1 h), min_self, max_self]
        exact enc_of_mono hx0 (Or.inl ⟨rho_mono hcx hch hm hx0, le_rfl, le_rfl⟩)
      · have h' : ¬ rn ≥ 0 := fun h' => h (hsame.2 h')
        have hm : AntitoneOn (powD (.int n) k) (Icc a b) := by
          rw [hu]
          exact (n2 h').union_right (p2 h) (isGreatest_Icc (not_le.1 h1).le)
            (isLeast_Icc (not_le.1 h3).le)
        rw [if_neg h, if_neg h', min_self, max_self]
        exact enc_of_mono hx0 (Or.inr ⟨rho_anti hcx hch hm hx0, le_rfl, le_rfl⟩)

/-- The hypotheses of C34 are met by `x ** 3` on `[-1, 2]` with `x0 = 1`, degree 2 (0 inside), and by
`x ** (1/2)` on `[0, 4]` with `x0 = 1`, degree 2. -/
example : ∃ s, powEnclosure (fun x p : ℝ => x ^ p) (.int 3) 1 (-1) 2 2 = .ok s ∧
    SEncl.EnclosesFun s (fun x : ℝ => x ^ (3 : ℤ)) 1 (-1) 2 := by
  obtain ⟨s, h1, -, -, h2⟩ := C34_pow (p := .int 3) (k := 2) (x0 := 1) (a := -1) (b := 2) (by norm_num)
    (Or.inr (Or.inr ⟨by norm_num, by norm_num⟩)) ⟨by norm_num, by norm_num⟩
    (Or.inr (by norm_num)) (Or.inr (by norm_num))
  exact ⟨s, h1, h2⟩

example : ∃ s, powEnclosure (fun x p : ℝ => x ^ p) (.frac (1 / 2)) 1 0 4 2 = .ok s ∧
    SEncl.EnclosesFun s (fun x : ℝ => x ^ (1 / 2 : ℝ)) 1 0 4 := by
  obtain ⟨s, h1, -, -, h2⟩ := C34_pow (p := .frac (1 / 2)) (k := 2) (x0 := 1) (a := 0) (b := 4)
    (by norm_num) (Or.inr ⟨rfl, by norm_num⟩) ⟨by norm_num, Or.inr ⟨rfl, by norm_num⟩, by norm_num⟩
    (Or.inr (by norm_num)) (Or.inr (by norm_num))
  exact ⟨s, h1, h2⟩

/-- **C34 (counterexample).** For every integer exponent `n > k` with `n - k` even, the degree-`k`
enclosure of `x ** n` over the trust region `[-1, 1]` with `x0 = 0` excludes the value at `x = 1/2`. -/
theorem C34_straddle_counterexample {n k : ℕ} (hnk : k < n) (heven : (n - k) % 2 = 0) :
    ∃ s, powEnclosure (fun x p : ℝ => x ^ p) (.int n) 0 (-1) 1 k = .ok s ∧
      ¬ SEncl.EnclosesFun s (fun x : ℝ => x ^ n) 0 (-1) 1 := by
  have hrp := powD_sign_pos (p := .int n) (k := k + 1) (x := 1) one_pos
  have hrn := powD_sign_neg (n := n) (k := k + 1) (x := -1) (by norm_num)
  obtain ⟨-, e2⟩ := powEnclosure_eq (p := .int n) (x0 := 0) (a := -1) (b := 1) (k := k)
    ⟨fun _ => by exact_mod_cast hnk.le, fun h => by omega⟩
    (Or.inr (by simp; norm_num)) (Or.inr (by simp; norm_num)) hrp
  have hr : ∀ x : ℝ, x ≠ 0 → rho (powD (.int n)) 0 k x = x ^ (n - k) := by
    intro x hx
    rw [rho, if_neg hx, powD_zero, Finset.sum_eq_zero]
    · simp only [sub_zero, powFun, zpow_natCast]
      rw [div_eq_iff (pow_ne_zero _ hx), ← pow_add]
      congr 1; omega
    · intro i hi
      have hi := Finset.mem_range.1 hi
      simp only [powD, powShift]
      rw [zero_zpow _ (by omega)]
      simp
  have ra : rho (powD (.int n)) 0 k (-1) = 1 := by
    rw [hr _ (by norm_num)]
    exact Even.neg_one_pow (Nat.even_iff.2 heven)
  have rb : rho (powD (.int n)) 0 k 1 = 1 := by
    rw [hr _ (by norm_num), one_pow]
  refine ⟨_, e2 n _ rfl hrn _ _ rfl rfl, fun h => ?_⟩
  obtain ⟨r, h1, -, h3⟩ := h (1 / 2) (by norm_num) (by norm_num)
  rw [if_neg (by norm_num), if_neg (by norm_num)] at h1
  simp only [ra, rb, ite_self, min_self] at h1
  have hl : ((taylorCoeffs (powD (.int n)) k 0).take k).length = k := by simp [taylorCoeffs]
  simp only [hl] at h3
  rw [Finset.sum_eq_zero, zero_add, sub_zero] at h3
  · have h5 : ((1 : ℝ) / 2) ^ n = (1 / 2) ^ (n - k) * (1 / 2) ^ k := by
      rw [← pow_add]; congr 1; omega
    rw [h5] at h3
    have h6 := mul_right_cancel₀ (pow_ne_zero k (by norm_num : (1 / 2 : ℝ) ≠ 0)) h3
    have h7 : ((1 : ℝ) / 2) ^ (n - k) < 1 := pow_lt_one₀ (by norm_num) (by norm_num) (by omega)
    linarith
  · intro i hi
    have hi := Finset.mem_range.1 hi
    rw [List.getD_eq_getElem?_getD, List.getElem?_take, if_pos hi, ← List.getD_eq_getElem?_getD,
        taylorCoeffs_getD _ hi.le]
    simp only [powD, powShift]
    rw [zero_zpow _ (by omega)]
    simp

/-- e.g. `pow_enclosure(2, 0, (-1, 1), 0)` is `([1, 1])`, excluding `0.25` at `x = 0.5`. -/
example : ∃ s, powEnclosure (fun x p : ℝ => x ^ p) (.int 2) 0 (-1) 1 0 = .ok s ∧
    ¬ SEncl.EnclosesFun s (fun x : ℝ => x ^ 2) 0 (-1) 1 :=
  C34_straddle_counterexample (n := 2) (k := 0) (by norm_num) (by norm_num)

end AB
