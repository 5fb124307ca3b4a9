/-
C34, continued: `pow_enclosure` on all trust regions, with infinities and NaN
(/repo/autobound/primitive_enclosures.py:111-185).
-/
import Verif.Spec.PowFloat
import Verif.Props.Pow

set_option linter.unusedSectionVars false

namespace AB
open PE EF Set

namespace Flt
variable {K : Type} [Field K] [LinearOrder K]
theorem add_fin (x y : K) : (fin x).add (fin y) = fin (x + y) := rfl
theorem mul_fin (x y : K) : (fin x).mul (fin y) = fin (x * y) := rfl
theorem sub_fin (x y : K) : (fin x).sub (fin y) = fin (x - y) := by
  show fin (x + -y) = _
  rw [sub_eq_add_neg]
theorem div_fin (x y : K) : (fin x).div y = fin (x / y) := by
  show fin (x * y⁻¹) = _
  rw [div_eq_mul_inv]
end Flt
open Flt

/-- the coefficients as floats -/
theorem sumF_fin (cs : List ℝ) (z : ℝ) :
    sumF (cs.map fin) z = fin (((Poly.enum cs).map fun ic => ic.2 * z ^ ic.1).sum) := by
  have key : ∀ (l : List (ℕ × ℝ)) (s : ℝ),
      (l.map fun ic => (ic.1, fin ic.2)).foldl (fun s ic => s.add (ic.2.mul (.fin (z ^ ic.1)))) (fin s) =
        fin (s + (l.map fun ic => ic.2 * z ^ ic.1).sum) := by
    intro l
    induction l with
    | nil => intro s; simp
    | cons x l ih =>
      intro s
      simp only [List.map_cons, List.foldl_cons, mul_fin, add_fin, List.sum_cons]
      rw [ih, add_assoc]
  have e : Poly.enum (cs.map fin) = (Poly.enum cs).map fun ic => (ic.1, fin ic.2) := by
    unfold Poly.enum
    rw [List.length_map]
    generalize List.range cs.length = l
    induction l generalizing cs with
    | nil => simp
    | cons n l ih =>
      cases cs with
      | nil => simp
      | cons c cs => simp [ih]
  unfold sumF
  rw [e, key, zero_add]

theorem ratioF_fin {x0 : ℝ} {k : ℕ} {sigma : ℝ → Flt ℝ} {f : ℝ → ℝ} {cs : List ℝ} (hl : cs.length = k + 1) {x : ℝ}
    (hx : sigma x = fin (f x)) {r : ℝ} (hr : taylorRemainderRatio x0 k f cs x = .ok r) :
    ratioF x0 k sigma (cs.map fin) x = fin r := by
  rw [taylorRemainderRatio_field] at hr
  rw [if_neg (by simpa using hl)] at hr
  cases hr
  unfold ratioF
  have e : (cs.map fin).getD k nan = fin (cs.getD k 0) := by
    simp [List.getD_eq_getElem?_getD, List.getElem?_eq_getElem (show k < cs.length by omega)]
  simp only [hx, sumF_fin, sub_fin, mul_fin, div_fin, e, add_fin]

theorem ratioF_inf {x0 : ℝ} {k : ℕ} {sigma : ℝ → Flt ℝ} {cs : List ℝ} (hl : cs.length = k + 1) {x : ℝ}
    (hx : sigma x = pinf) (hd : x ≠ x0) :
    ratioF x0 k sigma (cs.map fin) x = if 0 < (x - x0) ^ k then pinf else ninf := by
  have e : (cs.map fin).getD k nan = fin (cs.getD k 0) := by
    simp [List.getD_eq_getElem?_getD, List.getElem?_eq_getElem (show k < cs.length by omega)]
  have hm : (max (1 / 10 ^ 12) |(x - x0) ^ k|)⁻¹ > 0 := inv_pos.2 (lt_of_lt_of_le (by norm_num) (le_max_left _ _))
  have h0 : (x - x0) ^ k ≠ 0 := pow_ne_zero _ (sub_ne_zero.2 hd)
  unfold ratioF
  simp only [hx, sumF_fin, e]
  generalize (x - x0) ^ k = d at *
  generalize (max (1 / 10 ^ 12) |d|)⁻¹ = m' at *
  have i1 : ∀ s : ℝ, (pinf : Flt ℝ).sub (fin s) = pinf := fun s => rfl
  have s1 : sgn d = if 0 < d then 1 else -1 := by
    unfold sgn
    split_ifs with h1 h2
    · rfl
    · rfl
    · exact absurd (le_antisymm (not_lt.1 h1) (not_lt.1 h2)) h0
  rw [i1, s1]
  split_ifs with h
  · show (fin _).add (((infMul true 1 : Flt ℝ)).mul (fin _)) = _
    have e1 : (infMul true (1 : ℝ)) = pinf := by simp [infMul]
    have e2 : ∀ y : ℝ, 0 < y → (pinf : Flt ℝ).mul (fin y) = pinf := fun y hy => by
      show infMul true y = _
      simp [infMul, hy, hy.ne']
    rw [e1, e2 _ (inv_pos.2 (lt_of_lt_of_le (by norm_num) (le_max_left _ _)))]
    rfl
  · show (fin _).add (((infMul true (-1) : Flt ℝ)).mul (fin _)) = _
    have e1 : (infMul true (-1 : ℝ)) = ninf := by
      have : ¬ ((0 : ℝ) < -1) := by norm_num
      simp [infMul, this]
    have e2 : ∀ y : ℝ, 0 < y → (ninf : Flt ℝ).mul (fin y) = ninf := fun y hy => by
      show infMul false y = _
      simp [infMul, hy, hy.ne']
    rw [e1, e2 _ (inv_pos.2 (lt_of_lt_of_le (by norm_num) (le_max_left _ _)))]
    rfl

/-- the values are finite on the domain -/
theorem powF_fin {p : Expo ℝ} {x : ℝ} (h : x ∈ powDomain p) : powF (fun x p : ℝ => x ^ p) p 0 x = fin (powFun p x) := by
  cases p with
  | int n =>
    have hn : ¬ (x = 0 ∧ n - ((0 : ℕ) : ℤ) < 0) := by
      rintro ⟨h1, h2⟩
      rcases h with h | h
      · simp at h2; omega
      · exact h h1
    simp only [powF, if_neg hn, powFun]
    simp
  | frac q =>
    rcases h with h | ⟨rfl, h⟩
    · simp [powF, h.ne', not_lt.2 h.le, powFun]
    · simp [powF, powFun, not_lt.2 h.le, h.ne', Real.zero_rpow h.ne']

theorem powF_inf {p : Expo ℝ} (h : p.val < 0) : powF (fun x p : ℝ => x ^ p) p 0 0 = pinf := by
  cases p with
  | int n =>
    have : n < 0 := by simpa [Expo.val] using h
    simp [powF, this]
  | frac q =>
    have : q < 0 := h
    simp [powF, this]

/-- the Taylor coefficients are finite -/
theorem powCoeffsF_fin {p : Expo ℝ} {k : ℕ} {x0 : ℝ} (h : StartOk p k x0) :
    powCoeffsF (fun x p : ℝ => x ^ p) p k x0 = (taylorCoeffs (powD p) k x0).map fin := by
  unfold powCoeffsF taylorCoeffs
  rw [List.map_map]
  refine List.map_congr_left fun i hi => ?_
  have hi : i ≤ k := by have := List.mem_range.1 hi; omega
  have e : powF (fun x p : ℝ => x ^ p) p i x0 = fin (powShift (fun x p : ℝ => x ^ p) p i x0) := by
    cases p with
    | int n =>
      have hn : ¬ (x0 = 0 ∧ n - (i : ℤ) < 0) := by
        rintro ⟨h1, h2⟩
        have := h h1
        omega
      simp only [powF, if_neg hn, powShift]
    | frac q =>
      rcases h with ⟨hq, h | ⟨rfl, h⟩⟩
      · simp [powF, powShift, h.ne', not_lt.2 h.le]
      · have hqi : 0 < q - i := by
          have : (i : ℝ) ≤ k := by exact_mod_cast hi
          linarith
        simp only [powF, powShift, lt_irrefl, if_false, if_true, if_neg (not_lt.2 hqi.le), if_neg hqi.ne',
          Real.zero_rpow hqi.ne']
  simp only [e, mul_fin, div_fin, Function.comp]
  rfl

/-- what `pow_enclosure` returns, with the two ratios named -/
theorem powEnclosureF_eq {p : Expo ℝ} {k : ℕ} {x0 a b : ℝ} (h : StartOk p k x0) {A B : Flt ℝ}
    (hA : ratioF x0 k (powF (fun x p : ℝ => x ^ p) p 0) ((taylorCoeffs (powD p) k x0).map fin) a = A)
    (hB : ratioF x0 k (powF (fun x p : ℝ => x ^ p) p 0) ((taylorCoeffs (powD p) k x0).map fin) b = B) {rp : ℤ}
    (hrp : powKthDerivSign 1 p (k + 1) = .ok rp) :
    (∀ q, p = .frac q → powEnclosureF (fun x p : ℝ => x ^ p) p x0 a b k =
      .ok (((taylorCoeffs (powD p) k x0).take k).map fin,
        if a ≥ 0 then sharpF A B (decide (rp ≥ 0)) else (ninf, pinf))) ∧
    (∀ n rn, p = .int n → powKthDerivSign (-1) p (k + 1) = .ok rn →
      powEnclosureF (fun x p : ℝ => x ^ p) p x0 a b k = .ok (((taylorCoeffs (powD p) k x0).take k).map fin,
        if a ≥ 0 then sharpF A B (decide (rp ≥ 0))
        else if b ≤ 0 then sharpF A B (decide (rn ≥ 0))
        else if n < 0 then (ninf, pinf)
        else ((sharpF A B (decide (rp ≥ 0))).1.minimum (sharpF A B (decide (rn ≥ 0))).1,
          (sharpF A B (decide (rp ≥ 0))).2.maximum (sharpF A B (decide (rn ≥ 0))).2))) := by
  constructor
  · rintro q rfl
    unfold powEnclosureF
    simp only [powCoeffsF_fin h, hrp, py_ok_bind, hA, hB, List.map_take]
    rfl
  · rintro n rn rfl hrn
    unfold powEnclosureF
    simp only [powCoeffsF_fin h, hrp, py_ok_bind, hA, hB, hrn, List.map_take]
    rfl

theorem enclosesF_of {D : ℕ → ℝ → ℝ} {k : ℕ} {x0 : ℝ} {L U : Flt ℝ} {S : Set ℝ}
    (h : ∀ x ∈ S, L.Below (rho D x0 k x) ∧ U.Above (rho D x0 k x)) :
    EnclosesF (((taylorCoeffs D k x0).take k).map fin, (L, U)) (D 0) x0 S := by
  refine ⟨_, rfl, fun x hx => ?_⟩
  obtain ⟨r, r1, r2, r3⟩ := has_of_rho (D := D) (x0 := x0) (k := k) (x := x) le_rfl le_rfl
  have : r = rho D x0 k x := le_antisymm r2 r1
  subst this
  exact ⟨_, (h x hx).1, (h x hx).2, r3⟩

/-- from finite enclosures to floats -/
theorem enclosesF_fin {s : SEncl ℝ} {f : ℝ → ℝ} {x0 a b : ℝ} {S : Set ℝ} (h : SEncl.EnclosesFun s f x0 a b) (hS : S ⊆ Icc a b) :
    EnclosesF (s.1.map fin, (fin s.2.1, fin s.2.2)) f x0 S := by
  refine ⟨s.1, rfl, fun x hx => ?_⟩
  obtain ⟨r, r1, r2, r3⟩ := h x (hS hx).1 (hS hx).2
  exact ⟨r, r1, r2, r3⟩

/-- **C34 (the two models agree).** Where all numbers are finite, `pow_enclosure` in floats is the one in numbers. -/
theorem C34_finite {p : Expo ℝ} {k : ℕ} {x0 a b : ℝ} (hx0 : x0 ∈ Icc a b) (hfin : powFinite p k x0 a b)
    (h : StartOk p k x0) :
    powEnclosureF (fun x p : ℝ => x ^ p) p x0 a b k =
      (powEnclosure (fun x p : ℝ => x ^ p) p x0 a b k).map fun s => (s.1.map fin, (fin s.2.1, fin s.2.2)) := by
  have hl := taylorCoeffs_length (powD p) k x0
  have hdom : a ∈ powDomain p ∧ b ∈ powDomain p := by
    cases p with
    | int n =>
      rcases lt_or_ge n 0 with hn | hn
      · rcases hfin.2 hn with h' | h'
        · exact ⟨Or.inr h'.ne', Or.inr (h'.trans_le (hx0.1.trans hx0.2)).ne'⟩
        · exact ⟨Or.inr ((hx0.1.trans hx0.2).trans_lt h').ne, Or.inr h'.ne⟩
      · exact ⟨Or.inl hn, Or.inl hn⟩
    | frac q => exact ⟨hfin.2.1, Or.inl hfin.2.2⟩
  obtain ⟨ra, hra⟩ : ∃ r, taylorRemainderRatio x0 k (powFun p) (taylorCoeffs (powD p) k x0) a = .ok r := by
    rw [taylorRemainderRatio_field]; rw [if_neg (by simpa using hl)]; exact ⟨_, rfl⟩
  obtain ⟨rb, hrb⟩ : ∃ r, taylorRemainderRatio x0 k (powFun p) (taylorCoeffs (powD p) k x0) b = .ok r := by
    rw [taylorRemainderRatio_field]; rw [if_neg (by simpa using hl)]; exact ⟨_, rfl⟩
  obtain ⟨rp, hrp⟩ := (C35_errors 1 p (k + 1)).2.2.1
  obtain ⟨e1, e2⟩ := powEnclosureF_eq h (ratioF_fin hl (powF_fin hdom.1) hra) (ratioF_fin hl (powF_fin hdom.2) hrb) hrp
  have hs : ∀ inc, sharpMonotonic x0 k a b (powFun p) (powCoeffs (fun x p : ℝ => x ^ p) p k x0) inc =
      .ok ((taylorCoeffs (powD p) k x0).take k, if inc then (ra, rb) else (rb, ra)) := by
    intro inc
    unfold sharpMonotonic
    rw [powCoeffs_eq, hra, hrb]
    rfl
  cases p with
  | frac q =>
    rw [e1 q rfl]
    have ha : a ≥ 0 := by rcases hfin.2.1 with h | h; exacts [h.le, h.1.ge]
    unfold powEnclosure
    simp only [powShift_zero, hs, hrp, py_ok_bind]
    rw [if_neg (not_not.2 hfin), py_pure_eq, if_pos ha]
    by_cases h' : rp ≥ 0
    · simp only [if_pos h', decide_eq_true h']; rfl
    · simp only [if_neg h', decide_eq_false h']; rfl
  | int n =>
    obtain ⟨rn, hrn⟩ := (C35_errors 1 (.int n) (k + 1)).2.2.2 n
    rw [e2 n rn rfl hrn]
    unfold powEnclosure
    simp only [powShift_zero, hs, hrp, py_ok_bind, hrn]
    rw [if_neg (not_not.2 hfin), py_pure_eq]
    have hneg : ¬ a ≥ 0 → ¬ b ≤ 0 → ¬ n < 0 := by
      intro h1 h2 h3
      rcases hfin.2 h3 with h' | h'
      · exact h1 h'.le
      · exact h2 h'.le
    by_cases h1 : a ≥ 0
    · by_cases h : rp ≥ 0 <;> by_cases h' : rn ≥ 0 <;> simp only [h, h', h1, if_true, if_false, decide_true, decide_false] <;> rfl
    by_cases h2 : b ≤ 0
    · by_cases h : rp ≥ 0 <;> by_cases h' : rn ≥ 0 <;> simp only [h, h', h1, h2, if_true, if_false, decide_true, decide_false] <;> rfl
    have h3 := hneg h1 h2
    by_cases h : rp ≥ 0 <;> by_cases h' : rn ≥ 0 <;>
      simp only [h, h', h1, h2, h3, if_true, if_false, decide_true, decide_false] <;> rfl

theorem fallProd_sign {v : ℝ} (hv : v < 0) (m : ℕ) : 0 < (-1) ^ m * fallProd v m := by
  induction m with
  | zero => simp [fallProd]
  | succ m ih =>
    have : (0 : ℝ) < -(v - m) := by
      have : (0 : ℝ) ≤ m := by positivity
      linarith
    have := mul_pos ih this
    rw [fallProd, pow_succ]
    linarith

/-- the sign used on the positive side, for a negative exponent -/
theorem sign_negative {p : Expo ℝ} (hv : p.val < 0) {k : ℕ} {rp : ℤ} (hrp : powKthDerivSign 1 p (k + 1) = .ok rp) :
    (rp ≥ 0 ↔ k % 2 = 1) := by
  have hval : rp = signInt (fallProd p.val (k + 1)) := by
    simp only [powKthDerivSign, if_true, Except.ok.injEq] at hrp
    exact hrp.symm
  have := fallProd_sign hv (k + 1)
  rcases Nat.even_or_odd k with he | ho
  · rw [(Even.add_one he).neg_one_pow] at this
    have hneg : fallProd p.val (k + 1) < 0 := by linarith
    rw [signInt, if_neg (not_lt.2 hneg.le), if_neg hneg.ne] at hval
    have := Nat.even_iff.1 he
    subst hval
    constructor <;> intro h <;> omega
  · rw [(Odd.add_one ho).neg_one_pow, one_mul] at this
    rw [signInt, if_pos this] at hval
    have := Nat.odd_iff.1 ho
    subst hval
    constructor <;> intro h <;> omega

/-- the sign used on the negative side, for a negative integer exponent -/
theorem sign_negative' {n : ℤ} (hv : n < 0) {k : ℕ} {rn : ℤ} (hrn : powKthDerivSign (-1) (.int n : Expo ℝ) (k + 1) = .ok rn) :
    (rn ≥ 0 ↔ n % 2 = 0) := by
  have h1 := powD_sign_neg (n := n) (k := k + 1) (x := -1) (by norm_num)
  rw [hrn] at h1
  have h1 := Except.ok.inj h1
  have hv' : (n : ℝ) < 0 := by exact_mod_cast hv
  have hf := fallProd_sign hv' (k + 1)
  have e : powD (.int n) (k + 1) (-1) = ((-1) ^ (k + 1) * fallProd (n : ℝ) (k + 1)) * (-1 : ℝ) ^ n := by
    simp only [powD, Expo.val, powShift]
    rw [zpow_sub₀ (by norm_num : (-1 : ℝ) ≠ 0), zpow_natCast]
    have : ((-1 : ℝ) ^ (k + 1)) * (-1) ^ (k + 1) = 1 := by rw [← mul_pow]; norm_num
    field_simp
    have h2 : ((-1 : ℝ) ^ (k + 1)) ^ 2 = 1 := by rw [← pow_mul, mul_comm, pow_mul]; norm_num
    rw [h2, mul_one]
  rw [e] at h1
  rcases Int.even_or_odd n with he | ho
  · rw [he.neg_one_zpow, mul_one, sign_pos hf] at h1
    have := Int.even_iff.1 he
    subst h1
    constructor <;> intro h <;> first | omega | simp
  · rw [ho.neg_one_zpow, sign_neg (by linarith)] at h1
    have := Int.odd_iff.1 ho
    subst h1
    constructor
    · intro h; simp at h
    · intro h; omega

/-- **C34 (all trust regions).** For every exponent, degree, expansion point at which the Taylor coefficients are finite, and
trust region, `pow_enclosure` returns an enclosure, possibly with an infinite final interval, that contains `x ** p` for
every `x` in the trust region at which it is defined - except on the regions `PowWrong` (and away from the cap). -/
theorem C34_all_regions {p : Expo ℝ} {k : ℕ} {x0 a b : ℝ} (hx0 : x0 ∈ Icc a b) (h : StartOk p k x0)
    (hw : ¬ PowWrong p k a b) (ha : NotCapped x0 k a) (hb : NotCapped x0 k b) :
    ∃ s, powEnclosureF (fun x p : ℝ => x ^ p) p x0 a b k = .ok s ∧ s.1.length = k ∧
      EnclosesF s (powFun p) x0 (Icc a b ∩ powDomain p) := by
  have hl := taylorCoeffs_length (powD p) k x0
  have hlen : (((taylorCoeffs (powD p) k x0).take k).map fin).length = k := by simp [taylorCoeffs]
  obtain ⟨rp, hrp⟩ := (C35_errors 1 p (k + 1)).2.2.1
  have fins : powFinite p k x0 a b → PowRegion p k a b → ∃ s, powEnclosureF (fun x p : ℝ => x ^ p) p x0 a b k = .ok s ∧
      s.1.length = k ∧ EnclosesF s (powFun p) x0 (Icc a b ∩ powDomain p) := by
    intro hfin hreg
    obtain ⟨s, h1, h2, -, h3⟩ := C34_pow hx0 hreg hfin ha hb
    rw [C34_finite hx0 hfin h, h1]
    exact ⟨_, rfl, by simpa using h2, enclosesF_fin h3 inter_subset_left⟩
  -- nothing is said about the values
  have triv : EnclosesF (((taylorCoeffs (powD p) k x0).take k).map fin, (ninf, pinf)) (powFun p) x0
      (Icc a b ∩ powDomain p) := by
    rw [← powD_zero]
    exact enclosesF_of fun x _ => ⟨trivial, trivial⟩
  -- a region that begins at 0, negative exponent
  have zero : a = 0 → p.val < 0 → 0 < x0 → EnclosesF (((taylorCoeffs (powD p) k x0).take k).map fin,
      sharpF (if 0 < (0 - x0) ^ k then pinf else ninf) (fin (rho (powD p) x0 k b)) (decide (rp ≥ 0))) (powFun p) x0
      (Icc a b ∩ powDomain p) := by
    intro a0 hv hx
    subst a0
    have hok : ∀ x ∈ Ioc 0 b, powOk p x := fun x hx => by
      cases p with
      | int n => exact Or.inr hx.1.ne'
      | frac q => exact hx.1
    obtain ⟨m1, m2⟩ := powD_mono_pos (k := k) (convex_Ioc 0 b) hok (fun x hx => hx.1.le) hrp
    have hin : x0 ∈ Ioc 0 b := ⟨hx, hx0.2⟩
    have hbin : b ∈ Ioc 0 b := ⟨hx.trans_le hx0.2, le_rfl⟩
    have hsub : ∀ x ∈ Icc 0 b ∩ powDomain p, x ∈ Ioc 0 b := by
      rintro x ⟨hx1, hx2⟩
      refine ⟨lt_of_le_of_ne hx1.1 fun h0 => ?_, hx1.2⟩
      subst h0
      cases p with
      | int n =>
        have : n < 0 := by simpa [Expo.val] using hv
        rcases hx2 with h | h
        · omega
        · exact h rfl
      | frac q =>
        have : q < 0 := hv
        rcases hx2 with h | h
        · exact lt_irrefl _ h
        · linarith [h.2]
    have hsg := sign_negative hv hrp
    rw [← powD_zero]
    rcases Nat.even_or_odd k with he | ho
    · have hr : ¬ rp ≥ 0 := by
        rw [hsg]; have := Nat.even_iff.1 he; omega
      have hanti := rho_anti (convex_Ioc 0 b) (powChain hok k) (m2 hr) hin
      rw [if_pos (he.pow_pos (by linarith : 0 - x0 ≠ 0)), decide_eq_false hr]
      exact enclosesF_of fun x hx => ⟨hanti (hsub x hx) hbin hx.1.2, trivial⟩
    · have hr : rp ≥ 0 := by
        rw [hsg]; exact Nat.odd_iff.1 ho
      have hmono := rho_mono (convex_Ioc 0 b) (powChain hok k) (m1 hr) hin
      rw [if_neg (not_lt.2 (ho.pow_neg (by linarith : 0 - x0 < 0)).le), decide_eq_true hr]
      exact enclosesF_of fun x hx => ⟨trivial, hmono (hsub x hx) hbin hx.1.2⟩
  have hratb : b ∈ powDomain p → ratioF x0 k (powF (fun x p : ℝ => x ^ p) p 0) ((taylorCoeffs (powD p) k x0).map fin) b =
      fin (rho (powD p) x0 k b) := fun hdom => by
    refine ratioF_fin hl (powF_fin hdom) ?_
    rw [← powD_zero]
    exact ratio_rho (powD p) hb
  have hrata : a ∈ powDomain p → ratioF x0 k (powF (fun x p : ℝ => x ^ p) p 0) ((taylorCoeffs (powD p) k x0).map fin) a =
      fin (rho (powD p) x0 k a) := fun hdom => by
    refine ratioF_fin hl (powF_fin hdom) ?_
    rw [← powD_zero]
    exact ratio_rho (powD p) ha
  have hrat0 : p.val < 0 → (0 : ℝ) ≠ x0 → ratioF x0 k (powF (fun x p : ℝ => x ^ p) p 0) ((taylorCoeffs (powD p) k x0).map fin) 0 =
      if 0 < (0 - x0) ^ k then pinf else ninf := fun hv h0 => ratioF_inf hl (powF_inf hv) h0
  cases p with
  | frac q =>
    rcases lt_or_ge a 0 with han | hap
    · obtain ⟨e1, -⟩ := powEnclosureF_eq h (a := a) (b := b) rfl rfl hrp
      rw [e1 q rfl, if_neg (not_le.2 han)]
      exact ⟨_, rfl, hlen, triv⟩
    · obtain ⟨hq, h' | ⟨rfl, h'⟩⟩ := h
      · have hb0 : 0 < b := h'.trans_le hx0.2
        by_cases hc : 0 < a ∨ (a = 0 ∧ 0 < q)
        · exact fins ⟨h', hc, hb0⟩ hc
        · obtain rfl : a = 0 := le_antisymm (not_lt.1 fun h => hc (Or.inl h)) hap
          have hq0 : q < 0 := lt_of_le_of_ne (not_lt.1 fun h => hc (Or.inr ⟨rfl, h⟩)) hq
          obtain ⟨e1, -⟩ := powEnclosureF_eq (show StartOk (.frac q) k x0 from ⟨hq, Or.inl h'⟩) (hrat0 hq0 h'.ne) (hratb (Or.inl hb0)) hrp
          rw [e1 q rfl, if_pos le_rfl]
          exact ⟨_, rfl, hlen, zero rfl hq0 h'⟩
      · -- about 0
        obtain rfl : a = 0 := le_antisymm hx0.1 hap
        have hq0 : 0 < q := lt_of_le_of_lt (by positivity) h'
        have hdb : b ∈ powDomain (.frac q) := by
          rcases hx0.2.eq_or_lt with h | h
          · exact Or.inr ⟨h.symm, hq0⟩
          · exact Or.inl h
        obtain ⟨e1, -⟩ := powEnclosureF_eq (show StartOk (.frac q) k 0 from ⟨hq, Or.inr ⟨rfl, h'⟩⟩) (hrata (Or.inr ⟨rfl, hq0⟩)) (hratb hdb) hrp
        rw [e1 q rfl, if_pos le_rfl]
        have hcoef : ∀ i ≤ k, powD (.frac q) i 0 = 0 := fun i hi => by
          have : (i : ℝ) ≤ k := by exact_mod_cast hi
          simp only [powD, powShift]
          rw [Real.zero_rpow (by linarith : q - (i : ℝ) ≠ 0), mul_zero]
        have hrho : ∀ x, 0 ≤ x → rho (powD (.frac q)) 0 k x = x ^ (q - k) := by
          intro x hx
          rw [rho]
          split_ifs with h0
          · subst h0
            rw [hcoef k le_rfl, zero_div, Real.zero_rpow (by linarith)]
          · rw [Finset.sum_eq_zero fun i hi => by rw [hcoef i (Finset.mem_range.1 hi).le, zero_div, zero_mul]]
            have hx' : 0 < x := lt_of_le_of_ne hx (Ne.symm h0)
            rw [powD_zero, sub_zero, sub_zero, powFun, Real.rpow_sub hx', Real.rpow_natCast]
        have hsg : rp ≥ 0 := by
          have hval : rp = signInt (fallProd q (k + 1)) := by
            simp only [powKthDerivSign, if_true, Except.ok.injEq] at hrp
            exact hrp.symm
          have hpos : ∀ m, m ≤ k + 1 → 0 < fallProd q m := by
            intro m
            induction m with
            | zero => intro _; simp [fallProd]
            | succ m ih =>
              intro hm
              have : (m : ℝ) ≤ k := by exact_mod_cast (by omega : m ≤ k)
              exact mul_pos (ih (by omega)) (by linarith)
          rw [signInt, if_pos (hpos _ le_rfl)] at hval
          omega
        refine ⟨_, rfl, hlen, ?_⟩
        rw [decide_eq_true hsg, ← powD_zero]
        refine enclosesF_of fun x hx => ⟨?_, ?_⟩
        · show rho (powD (.frac q)) 0 k 0 ≤ rho (powD (.frac q)) 0 k x
          rw [hrho 0 le_rfl, hrho x hx.1.1]
          exact Real.rpow_le_rpow le_rfl hx.1.1 (by linarith)
        · show rho (powD (.frac q)) 0 k x ≤ rho (powD (.frac q)) 0 k b
          rw [hrho x hx.1.1, hrho b hx0.2]
          exact Real.rpow_le_rpow hx.1.1 hx.1.2 (by linarith)
  | int n =>
    obtain ⟨rn, hrn⟩ := (C35_errors 1 (.int n) (k + 1)).2.2.2 n
    rcases lt_or_ge n 0 with hn | hn
    · have hx00 : x0 ≠ 0 := fun h0 => by have := h h0; omega
      have hv : (Expo.int n : Expo ℝ).val < 0 := by simpa [Expo.val] using hn
      by_cases hpos : 0 < a ∨ b < 0
      · refine fins ⟨fun h0 => absurd h0 hx00, fun _ => hpos⟩ ?_
        rcases hpos with h' | h'
        · exact Or.inl h'
        · exact Or.inr (Or.inl h')
      · obtain ⟨h1, h2⟩ := not_or.1 hpos
        rcases (not_lt.1 h1).eq_or_lt with rfl | h1'
        · -- begins at 0
          have hx : 0 < x0 := lt_of_le_of_ne hx0.1 (Ne.symm hx00)
          have hb0 : 0 < b := hx.trans_le hx0.2
          obtain ⟨-, e2⟩ := powEnclosureF_eq h (hrat0 hv hx.ne) (hratb (Or.inr hb0.ne')) hrp
          rw [e2 n rn rfl hrn, if_pos le_rfl]
          exact ⟨_, rfl, hlen, zero rfl hv hx⟩
        · rcases (not_lt.1 h2).eq_or_lt with rfl | h2'
          · -- ends at 0
            have hx : x0 < 0 := lt_of_le_of_ne hx0.2 hx00
            have hev : n % 2 = 0 := by
              by_contra hc
              exact hw (Or.inr ⟨h1', rfl, hn, by omega⟩)
            have hsg : rn ≥ 0 := (sign_negative' hn hrn).2 hev
            obtain ⟨-, e2⟩ := powEnclosureF_eq h (hrata (Or.inr h1'.ne)) (hrat0 hv hx.ne') hrp
            rw [e2 n rn rfl hrn, if_neg (not_le.2 h1'), if_pos le_rfl, decide_eq_true hsg,
              if_pos (pow_pos (by linarith : 0 < 0 - x0) k)]
            refine ⟨_, rfl, hlen, ?_⟩
            have hok : ∀ x ∈ Ico a 0, powOk (.int n) x := fun x hx => Or.inr hx.2.ne
            obtain ⟨m1, -⟩ := powD_mono_neg (k := k) (convex_Ico a 0) hok (fun x hx => hx.2.le) hrn
            have hmono := rho_mono (convex_Ico a 0) (powChain hok k) (m1 hsg) ⟨hx0.1, hx⟩
            rw [← powD_zero]
            refine enclosesF_of fun x hx => ⟨?_, trivial⟩
            have hx' : x ≠ 0 := by
              rcases hx.2 with h | h
              · omega
              · exact h
            exact hmono ⟨le_rfl, h1'⟩ ⟨hx.1.1, lt_of_le_of_ne hx.1.2 hx'⟩ hx.1.1
          · -- straddles 0
            obtain ⟨-, e2⟩ := powEnclosureF_eq h (a := a) (b := b) rfl rfl hrp
            rw [e2 n rn rfl hrn, if_neg (not_le.2 h1'), if_neg (not_le.2 h2'), if_pos hn]
            exact ⟨_, rfl, hlen, triv⟩
    · refine fins ⟨h, fun hn' => absurd hn' (not_lt.2 hn)⟩ (Or.inr (Or.inr ⟨hn, ?_⟩))
      by_contra hc
      push Not at hc
      obtain ⟨c1, c2, c3, c4⟩ := hc
      exact hw (Or.inl ⟨c1, c2, c3, by omega⟩)

/-- **C34 (counterexample, odd negative exponents on regions that end at 0).** For every odd negative integer `n` and every
degree, the final interval of the enclosure of `x ** n` over `[a, 0]` begins at `+inf`: it contains no number. -/
theorem C34_ends_at_zero_counterexample {n : ℤ} (hn : n < 0) (hodd : n % 2 = 1) (k : ℕ) {x0 a : ℝ} (ha : a ≤ x0) (hx : x0 < 0) :
    ∃ s, powEnclosureF (fun x p : ℝ => x ^ p) (.int n) x0 a 0 k = .ok s ∧ s.2.1 = pinf ∧
      ∀ x, ¬ EnclosesF s (powFun (.int n)) x0 {x} := by
  have hl := taylorCoeffs_length (powD (.int n)) k x0
  obtain ⟨rp, hrp⟩ := (C35_errors 1 (.int n) (k + 1)).2.2.1
  obtain ⟨rn, hrn⟩ := (C35_errors 1 (.int n) (k + 1)).2.2.2 n
  have hv : (Expo.int n : Expo ℝ).val < 0 := by simpa [Expo.val] using hn
  have hsg : ¬ rn ≥ 0 := fun h => by
    have := (sign_negative' hn hrn).1 h
    omega
  obtain ⟨-, e2⟩ := powEnclosureF_eq (p := .int n) (k := k) (x0 := x0) (a := a) (b := 0) (fun h0 => absurd h0 hx.ne) rfl
    (ratioF_inf hl (powF_inf hv) hx.ne') hrp
  rw [e2 n rn rfl hrn, if_neg (not_le.2 (ha.trans_lt hx)), if_pos le_rfl, decide_eq_false hsg,
    if_pos (pow_pos (by linarith : 0 < 0 - x0) k)]
  refine ⟨_, rfl, rfl, ?_⟩
  rintro x ⟨cs, -, h⟩
  obtain ⟨r, r1, -⟩ := h x rfl
  exact r1

/-- **C34 (NaN).** About `x0 = 0`, in degrees above the (nonnegative integer) exponent, the last coefficient is NaN. -/
theorem C34_nan {n k : ℕ} (h : n < k) {a b : ℝ} (ha : 0 ≤ a) :
    ∃ s, powEnclosureF (fun x p : ℝ => x ^ p) (.int n) 0 a b k = .ok s ∧ s.2 = (nan, nan) := by
  have hc : (powCoeffsF (fun x p : ℝ => x ^ p) (.int n) k 0).getD (n + 1) nan = nan := by
    unfold powCoeffsF
    rw [List.getD_eq_getElem?_getD, List.getElem?_map, List.getElem?_range (by omega)]
    simp only [Option.map_some, Option.getD_some]
    have e1 : fallProd (Expo.val (Expo.int n : Expo ℝ)) (n + 1) = 0 := fallProd_nat_zero n _ (Nat.lt_succ_self n)
    have e2 : powF (fun x p : ℝ => x ^ p) (.int n) (n + 1) 0 = pinf := by
      simp [powF]
    rw [e1, e2]
    have e3 : (fin (0 : ℝ)).mul pinf = nan := by
      show infMul true 0 = _
      simp [infMul]
    rw [e3]
    rfl
  have hlen : (powCoeffsF (fun x p : ℝ => x ^ p) (.int n) k (0 : ℝ)).length = k + 1 := by simp [powCoeffsF]
  have addnan : ∀ x : Flt ℝ, x.add nan = nan := fun x => by cases x <;> rfl
  have hsum : ∀ z, sumF (powCoeffsF (fun x p : ℝ => x ^ p) (.int n) k 0) z = nan := by
    intro z
    have key : ∀ (l : List (ℕ × Flt ℝ)) (s : Flt ℝ), (s = nan ∨ ∃ i, (i, nan) ∈ l) →
        l.foldl (fun s ic => s.add (ic.2.mul (.fin (z ^ ic.1)))) s = nan := by
      intro l
      induction l with
      | nil =>
        rintro s (h | ⟨i, h⟩)
        · exact h
        · cases h
      | cons x l ih =>
        intro s h
        rw [List.foldl_cons]
        apply ih
        rcases h with rfl | ⟨i, h⟩
        · exact Or.inl rfl
        · rcases List.mem_cons.1 h with rfl | h
          · exact Or.inl (addnan _)
          · exact Or.inr ⟨i, h⟩
    refine key _ _ (Or.inr ⟨n + 1, ?_⟩)
    rw [Poly.mem_enum]
    rw [List.getD_eq_getElem?_getD] at hc
    rw [List.getElem?_eq_getElem (by omega : n + 1 < _)] at hc ⊢
    simpa using hc
  have hr : ∀ x, ratioF 0 k (powF (fun x p : ℝ => x ^ p) (.int n) 0) (powCoeffsF (fun x p : ℝ => x ^ p) (.int n) k 0) x = nan := by
    intro x
    unfold ratioF
    simp only [hsum]
    have : ∀ y : Flt ℝ, y.sub nan = nan := fun y => by cases y <;> rfl
    rw [this]
    exact addnan _
  obtain ⟨rp, hrp⟩ := (C35_errors 1 (.int n) (k + 1)).2.2.1
  obtain ⟨rn, hrn⟩ := (C35_errors 1 (.int n) (k + 1)).2.2.2 n
  unfold powEnclosureF
  simp only [hr, hrp, hrn, py_ok_bind, if_pos ha]
  refine ⟨_, rfl, ?_⟩
  unfold sharpF
  split_ifs <;> rfl

/-- C34 for `1 / x` about 1 over `[-1, 2]` (0 inside) and over `[0, 2]`; the excluded case over `[-2, 0]` -/
example : ∃ s, powEnclosureF (fun x p : ℝ => x ^ p) (.int (-1)) 1 (-1) 2 2 = .ok s ∧ s.1.length = 2 ∧
    EnclosesF s (powFun (.int (-1))) 1 (Icc (-1) 2 ∩ powDomain (.int (-1))) :=
  C34_all_regions (by norm_num) (by intro h; norm_num at h) (by
    rintro (⟨-, -, h, -⟩ | ⟨-, h, -⟩)
    · omega
    · norm_num at h) (Or.inr (by norm_num)) (Or.inr (by norm_num))

example : ∃ s, powEnclosureF (fun x p : ℝ => x ^ p) (.int (-1)) 1 0 2 3 = .ok s ∧ s.1.length = 3 ∧
    EnclosesF s (powFun (.int (-1))) 1 (Icc 0 2 ∩ powDomain (.int (-1))) :=
  C34_all_regions (by norm_num) (by intro h; norm_num at h) (by
    rintro (⟨h, -⟩ | ⟨h, -⟩) <;> norm_num at h) (Or.inr (by norm_num)) (Or.inr (by norm_num))

example : ∃ s, powEnclosureF (fun x p : ℝ => x ^ p) (.int (-1)) (-1) (-2) 0 1 = .ok s ∧ s.2.1 = pinf ∧
    ∀ x, ¬ EnclosesF s (powFun (.int (-1))) (-1) {x} :=
  C34_ends_at_zero_counterexample (by norm_num) (by norm_num) 1 (by norm_num) (by norm_num)

/-- and for `x ** 1.5` about 0 over `[0, 4]` -/
example : ∃ s, powEnclosureF (fun x p : ℝ => x ^ p) (.frac (3 / 2)) 0 0 4 1 = .ok s ∧ s.1.length = 1 ∧
    EnclosesF s (powFun (.frac (3 / 2))) 0 (Icc 0 4 ∩ powDomain (.frac (3 / 2))) :=
  C34_all_regions (by norm_num) ⟨by norm_num, Or.inr ⟨rfl, by norm_num⟩⟩ (fun h => h) (Or.inl rfl) (Or.inr (by norm_num))

/-- **C34 (outside the domain).** Where `x0 ** p` is not a real number (a negative `x0` and an exponent that is no integer), no
number is reported: every coefficient is NaN and the final interval is `(-inf, inf)`. -/
theorem C34_outside {q : ℝ} {k : ℕ} {x0 a b : ℝ} (ha : a ≤ x0) (hx : x0 < 0) :
    ∃ s, powEnclosureF (fun x p : ℝ => x ^ p) (.frac q) x0 a b k = .ok s ∧ s.1.length = k ∧ (∀ c ∈ s.1, c = nan) ∧
      s.2 = (ninf, pinf) := by
  obtain ⟨rp, hrp⟩ := (C35_errors 1 (.frac q) (k + 1)).2.2.1
  have hc : ∀ c ∈ powCoeffsF (fun x p : ℝ => x ^ p) (.frac q) k x0, c = nan := by
    intro c hc
    unfold powCoeffsF at hc
    obtain ⟨i, -, rfl⟩ := List.mem_map.1 hc
    have : powF (fun x p : ℝ => x ^ p) (.frac q) i x0 = nan := by simp [powF, hx]
    rw [this]
    rfl
  unfold powEnclosureF
  simp only [hrp, py_ok_bind]
  rw [if_neg (by linarith)]
  refine ⟨_, rfl, ?_, fun c h => hc c (List.mem_of_mem_take h), rfl⟩
  simp [powCoeffsF]

/-- For instance `sqrt` about `x0 = -1` on `[-4, 4]`, in degree 2. -/
theorem C34_outside_instance : ∃ s, powEnclosureF (fun x p : ℝ => x ^ p) (.frac (1 / 2)) (-1) (-4) 4 2 = .ok s ∧
    s.1.length = 2 ∧ (∀ c ∈ s.1, c = nan) ∧ s.2 = (ninf, pinf) :=
  C34_outside (by norm_num) (by norm_num)

end AB
