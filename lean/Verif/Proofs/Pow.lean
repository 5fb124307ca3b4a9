import Verif.Proofs.Scalar
import Verif.Proofs.Functions
import Mathlib.Analysis.SpecialFunctions.Pow.Deriv

/-! Derivatives of powers and soundness of `pow_enclosure`. -/

namespace AB
open PE EF Set

/-- the power function of the exponent: `x ** p` -/
noncomputable def powFun (p : Expo ℝ) (x : ℝ) : ℝ :=
  match p with
  | .int n => x ^ n
  | .frac q => x ^ q

/-- the derivatives of `x ** p` -/
noncomputable def powD (p : Expo ℝ) (i : ℕ) (x : ℝ) : ℝ :=
  fallProd p.val i * powShift (fun x p : ℝ => x ^ p) p i x

theorem powShift_zero (p : Expo ℝ) : powShift (fun x p : ℝ => x ^ p) p 0 = powFun p := by
  cases p <;> funext x <;> simp [powShift, powFun]

theorem powD_zero (p : Expo ℝ) : powD p 0 = powFun p := by
  funext x
  rw [powD, powShift_zero]; simp [fallProd]

theorem powCoeffs_eq (p : Expo ℝ) (k : ℕ) (x0 : ℝ) :
    powCoeffs (fun x p : ℝ => x ^ p) p k x0 = taylorCoeffs (powD p) k x0 := rfl

theorem fallProd_nat_zero (n : ℕ) : ∀ i, n < i → fallProd ((n : ℤ) : ℝ) i = 0 := by
  intro i
  induction i with
  | zero => intro h; omega
  | succ i ih =>
    intro h
    rw [fallProd]
    rcases Nat.lt_succ_iff_lt_or_eq.1 h with h | h
    · rw [ih h, zero_mul]
    · subst h; simp

/-- where the derivative formulas hold -/
def powOk (p : Expo ℝ) (x : ℝ) : Prop :=
  match p with
  | .int n => 0 ≤ n ∨ x ≠ 0
  | .frac _ => 0 < x

theorem hasDerivAt_powD {p : Expo ℝ} {x : ℝ} (h : powOk p x) (i : ℕ) :
    HasDerivAt (powD p i) (powD p (i + 1) x) x := by
  match p with
  | .frac q =>
    have := (Real.hasDerivAt_rpow_const (x := x) (p := q - i) (Or.inl (show 0 < x from h).ne')).const_mul
      (fallProd q i)
    refine this.congr_deriv ?_
    simp only [powD, Expo.val, powShift, fallProd]
    push_cast
    rw [show q - i - 1 = q - (i + 1) by ring]
    ring
  | .int n =>
    by_cases hc : 0 ≤ n - i ∨ x ≠ 0
    · have := (hasDerivAt_zpow (n - i) x hc.symm).const_mul (fallProd (n : ℝ) i)
      refine this.congr_deriv ?_
      simp only [powD, Expo.val, powShift, fallProd]
      push_cast
      rw [show n - (i : ℤ) - 1 = n - (i + 1) by ring]
      ring
    · obtain ⟨h1, h2⟩ := not_or.1 hc
      have hn : 0 ≤ n := h.resolve_right h2
      obtain ⟨m, rfl⟩ := Int.eq_ofNat_of_zero_le hn
      have h0 : ∀ j, m < j → powD (.int m) j = fun _ => 0 := fun j hj => by
        funext y
        simp only [powD, Expo.val]
        rw [fallProd_nat_zero m j hj, zero_mul]
      rw [h0 i (by omega), h0 (i + 1) (by omega)]
      exact hasDerivAt_const x 0

theorem powChain {p : Expo ℝ} {s : Set ℝ} (h : ∀ x ∈ s, powOk p x) (k : ℕ) : Chain (powD p) k s :=
  fun i _ x hx => (hasDerivAt_powD (h x hx) i).hasDerivWithinAt

theorem signInt_spec (c : ℝ) : signInt c = (SignType.sign c : ℤ) := by
  unfold signInt
  split_ifs with h1 h2
  · rw [sign_pos h1]; rfl
  · subst h2; simp
  · rw [sign_neg (lt_of_le_of_ne (not_lt.1 h1) h2)]; rfl

theorem sign_zpow_neg {x : ℝ} (hx : x < 0) (m : ℤ) :
    SignType.sign (x ^ m) = if m % 2 = 0 then 1 else -1 := by
  split_ifs with h
  · exact sign_pos ((Int.even_iff.2 h).zpow_pos hx.ne)
  · exact sign_neg ((Int.odd_iff.2 (by omega)).zpow_neg hx)

theorem powD_sign_pos {p : Expo ℝ} {k : ℕ} {x : ℝ} (hx : 0 < x) :
    powKthDerivSign 1 p k = .ok ((SignType.sign (powD p k x) : SignType) : ℤ) := by
  unfold powKthDerivSign
  simp only [if_true]
  rw [signInt_spec, powD, sign_mul]
  have : 0 < powShift (fun x p : ℝ => x ^ p) p k x := by
    cases p with
    | int n => exact zpow_pos hx _
    | frac q => exact Real.rpow_pos_of_pos hx _
  rw [sign_pos this, mul_one]

theorem powD_sign_neg {n : ℤ} {k : ℕ} {x : ℝ} (hx : x < 0) :
    powKthDerivSign (-1) (.int n : Expo ℝ) k = .ok ((SignType.sign (powD (.int n) k x) : SignType) : ℤ) := by
  unfold powKthDerivSign
  rw [if_neg (by norm_num), if_pos rfl]
  simp only [Expo.val]
  rw [signInt_spec, powD, sign_mul]
  simp only [Expo.val, powShift]
  rw [sign_zpow_neg hx]
  split_ifs <;> simp

/-- a nonnegative sign means increasing `k`-th derivative -/
theorem powD_mono_pos {p : Expo ℝ} {k : ℕ} {s : Set ℝ} (hs : Convex ℝ s) (hok : ∀ x ∈ s, powOk p x)
    (hpos : ∀ x ∈ s, 0 ≤ x) {r : ℤ} (hr : powKthDerivSign 1 p (k + 1) = .ok r) :
    (0 ≤ r → MonotoneOn (powD p k) s) ∧ (¬ 0 ≤ r → AntitoneOn (powD p k) s) := by
  have hval : r = signInt (fallProd p.val (k + 1)) := by
    simp only [powKthDerivSign, if_true, Except.ok.injEq] at hr
    exact hr.symm
  have hsh : ∀ x ∈ s, 0 ≤ powShift (fun x p : ℝ => x ^ p) p (k + 1) x := by
    intro x hx
    cases p with
    | int n => exact zpow_nonneg (hpos x hx) _
    | frac q => exact Real.rpow_nonneg (hpos x hx) _
  rw [signInt] at hval
  constructor
  · intro h
    refine monotone_of_hasDerivWithinAt hs (fun x hx => (hasDerivAt_powD (hok x hx) k).hasDerivWithinAt)
      fun x hx => mul_nonneg ?_ (hsh x hx)
    split_ifs at hval with h1 h2
    · exact h1.le
    · exact h2.ge
    · omega
  · intro h
    refine antitone_of_hasDerivWithinAt hs (fun x hx => (hasDerivAt_powD (hok x hx) k).hasDerivWithinAt)
      fun x hx => mul_nonpos_of_nonpos_of_nonneg ?_ (hsh x hx)
    split_ifs at hval with h1 h2
    · omega
    · omega
    · exact not_lt.1 h1

theorem powD_mono_neg {n : ℤ} {k : ℕ} {s : Set ℝ} (hs : Convex ℝ s) (hok : ∀ x ∈ s, powOk (.int n) x)
    (hneg : ∀ x ∈ s, x ≤ 0) {r : ℤ} (hr : powKthDerivSign (-1) (.int n : Expo ℝ) (k + 1) = .ok r) :
    (0 ≤ r → MonotoneOn (powD (.int n) k) s) ∧ (¬ 0 ≤ r → AntitoneOn (powD (.int n) k) s) := by
  have key : ∀ x, x < 0 → r = ((SignType.sign (powD (.int n) (k + 1) x) : SignType) : ℤ) := by
    intro x hx
    rw [powD_sign_neg hx] at hr
    exact (Except.ok.inj hr).symm
  have hd : ∀ x ∈ interior s, deriv (powD (.int n) k) x = powD (.int n) (k + 1) x := fun x hx =>
    (hasDerivAt_powD (hok x (interior_subset hx)) k).deriv
  have hint : ∀ x ∈ interior s, x < 0 := by
    intro x hx
    have : interior s ⊆ Iio 0 := by
      rw [← interior_Iic]; exact interior_mono fun x hx => hneg x hx
    exact this hx
  have hc : ContinuousOn (powD (.int n) k) s := fun x hx =>
    (hasDerivAt_powD (hok x hx) k).continuousAt.continuousWithinAt
  have hdf : DifferentiableOn ℝ (powD (.int n) k) (interior s) := fun x hx =>
    (hasDerivAt_powD (hok x (interior_subset hx)) k).differentiableAt.differentiableWithinAt
  constructor
  · intro h
    refine monotoneOn_of_deriv_nonneg hs hc hdf fun x hx => ?_
    rw [hd x hx]
    have := key x (hint x hx)
    by_contra h'
    rw [sign_neg (not_le.1 h')] at this
    simp at this
    omega
  · intro h
    refine antitoneOn_of_deriv_nonpos hs hc hdf fun x hx => ?_
    rw [hd x hx]
    have := key x (hint x hx)
    by_contra h'
    rw [sign_pos (not_le.1 h')] at this
    simp at this
    omega

/-- the interval of `pow_enclosure` before selecting a case -/
theorem powEnclosure_eq {p : Expo ℝ} {x0 a b : ℝ} {k : ℕ} (hfin : powFinite p k x0 a b)
    (ha : NotCapped x0 k a) (hb : NotCapped x0 k b) {rp : ℤ}
    (hrp : powKthDerivSign 1 p (k + 1) = .ok rp) :
    (∀ q, p = .frac q → powEnclosure (fun x p : ℝ => x ^ p) p x0 a b k =
      .ok ((taylorCoeffs (powD p) k x0).take k,
        if rp ≥ 0 then (rho (powD p) x0 k a, rho (powD p) x0 k b)
        else (rho (powD p) x0 k b, rho (powD p) x0 k a))) ∧
    (∀ n rn, p = .int n → powKthDerivSign (-1) p (k + 1) = .ok rn →
      ∀ ip iN : ℝ × ℝ, ip = (if rp ≥ 0 then (rho (powD p) x0 k a, rho (powD p) x0 k b)
        else (rho (powD p) x0 k b, rho (powD p) x0 k a)) →
        iN = (if rn ≥ 0 then (rho (powD p) x0 k a, rho (powD p) x0 k b)
        else (rho (powD p) x0 k b, rho (powD p) x0 k a)) →
      powEnclosure (fun x p : ℝ => x ^ p) p x0 a b k = .ok ((taylorCoeffs (powD p) k x0).take k,
        if a ≥ 0 then ip else if b ≤ 0 then iN else (min ip.1 iN.1, max ip.2 iN.2))) := by
  have hs := fun inc => sharp_eq (powD p) ha hb inc
  rw [powD_zero, ← powCoeffs_eq] at hs
  constructor
  · rintro q rfl
    unfold powEnclosure
    simp only [powShift_zero, hs, hrp, py_ok_bind]
    rw [if_neg (not_not.2 hfin)]
    rw [py_pure_eq]
    by_cases h : rp ≥ 0
    · simp only [if_pos h]; rfl
    · simp only [if_neg h]; rfl
  · rintro n rn rfl hrn ip iN rfl rfl
    unfold powEnclosure
    simp only [powShift_zero, hs, hrp, py_ok_bind, hrn]
    rw [if_neg (not_not.2 hfin)]
    rw [py_pure_eq]
    by_cases h : rp ≥ 0 <;> by_cases h' : rn ≥ 0 <;> by_cases h1 : a ≥ 0 <;> by_cases h2 : b ≤ 0 <;>
      simp only [h, h', h1, h2, if_true, if_false] <;> rfl

end AB
