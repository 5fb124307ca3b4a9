/-
C11-C14: polynomial arithmetic (/repo/autobound/polynomials.py).
-/
import Verif.Proofs.PolyAlg
import Mathlib.Algebra.Order.Ring.Rat
import Mathlib.Algebra.Field.Rat
import Mathlib.Tactic.Ring

set_option linter.unusedSectionVars false

namespace AB.Poly
variable {V : Type} [CommSemiring V]

/-- Specification: the value at `z` of the polynomial with coefficient sequence `a`,
`a[0] + a[1]*z + a[2]*z**2 + ...` (Horner form). -/
def polyAt : List V → V → V
  | [], _ => 0
  | c :: a, z => c + z * polyAt a z

/-- Exact addition, as the callable passed to the polynomial functions. -/
def ringAdd (x y : V) : Py V := .ok (x + y)
/-- Exact multiplication of coefficients, as the callable `term_product_coefficient`. -/
def ringMul (x y : V) (_ _ : ℕ) : Py V := .ok (x * y)
/-- Exact power of a coefficient, as the callable `term_power_coefficient`. -/
def ringPow (x : V) (_ p : ℕ) : Py V := .ok (x ^ p)
/-- Exact scaling by an integer, as the callable `scalar_multiply`. -/
def ringSmul (n : ℕ) (x : V) : Py V := .ok (n * x)

theorem polyAt_eq (a : List V) (z : V) :
    polyAt a z = ∑ i ∈ Finset.range a.length, a.getD i 0 * z ^ i := by
  induction a with
  | nil => rfl
  | cons c a ih =>
    rw [polyAt, ih, List.length_cons, Finset.sum_range_succ', Finset.mul_sum]
    simp only [List.getD_cons_zero, List.getD_cons_succ, pow_zero, mul_one]
    rw [add_comm]
    congr 1
    apply Finset.sum_congr rfl
    intro i _
    ring

/-- the graded structure of a commutative ring evaluated at `z` -/
def ringG (z : V) : Graded V V where
  mul _ _ u v := u * v
  pow _ p u := u ^ p
  one := 1
  val i := { toFun := fun u => u * z ^ i, map_zero' := by simp, map_add' := fun x y => by ring }
  val_mul i j u v := by show u * v * z ^ (i + j) = u * z ^ i * (v * z ^ j); ring
  val_pow i p u := by show u ^ p * z ^ (i * p) = (u * z ^ i) ^ p; rw [mul_pow, pow_mul]
  val_one := by show (1 : V) * z ^ 0 = 1; simp
  mul_zero i j u := by simp
  zero_mul i j u := by simp
  zero_pow i p hp := by simp [hp]

theorem ring_laws (z : V) : Laws (ringG z) (fun _ c u => c = u) (fun _ c u => c = u) (fun _ c u => c = u)
    (fun _ c u => c = u)
    ringAdd (0 : V) ringMul where
  hzero _ := rfl
  hsub h := h
  hadd := by rintro i x y r u v rfl rfl h; cases h; rfl
  htpc := by rintro i j x y r u v rfl rfl h; cases h; rfl

theorem ring_powLaws (z : V) : PowLaws (ringG z) (fun _ c u => c = u) (fun _ c u => c = u)
    (fun _ c u => c = u) (1 : V) ringPow ringSmul where
  hone := rfl
  htpow := by rintro i p x r u rfl h; cases h; rfl
  hsmul := by rintro i n x r u rfl h; cases h; simp

theorem ring_val (z : V) (out : List V) (u : ℕ → V) (h : ∀ i c, out[i]? = some c → c = u i) :
    (∑ i ∈ Finset.range out.length, (ringG z).val i (u i)) = polyAt out z := by
  rw [polyAt_eq]
  apply Finset.sum_congr rfl
  intro i hi
  have hi' := Finset.mem_range.1 hi
  have := h i out[i] (List.getElem?_eq_getElem hi')
  rw [← this, List.getD_eq_getElem?_getD, List.getElem?_eq_getElem hi']
  rfl

theorem getD_rel (a : List V) : ∀ i c, a[i]? = some c → c = a.getD i 0 := by
  intro i c h
  rw [List.getD_eq_getElem?_getD, h]; rfl

theorem ring_bilinear_total (l : List ((ℕ × V) × (ℕ × V))) (o : List V)
    (hl : ∀ t ∈ l, t.1.1 + t.2.1 < o.length) :
    ∃ out, l.foldlM (bilinearStep ringAdd ringMul) o = .ok out := by
  induction l generalizing o with
  | nil => exact ⟨o, rfl⟩
  | cons t l ih =>
    have ht := hl t (by simp)
    have hs : bilinearStep ringAdd ringMul o t =
        .ok (o.set (t.1.1 + t.2.1) (o[t.1.1 + t.2.1] + t.1.2 * t.2.2)) := by
      unfold bilinearStep
      simp only [ringMul, py_ok_bind, List.getElem?_eq_getElem ht, ringAdd]
      rfl
    obtain ⟨out, ho⟩ := ih (o.set (t.1.1 + t.2.1) (o[t.1.1 + t.2.1] + t.1.2 * t.2.2))
      (by intro t' ht'; rw [List.length_set]; exact hl t' (by simp [ht']))
    exact ⟨out, by rw [List.foldlM_cons, hs, py_ok_bind]; exact ho⟩

/-- **C11.** `arbitrary_bilinear(a, b)` over a commutative ring returns `len(a)+len(b)-1` coefficients
of the product polynomial. -/
theorem C11_arbitrary_bilinear (a b : List V) (ha : a ≠ []) (hb : b ≠ []) :
    ∃ out, arbitraryBilinear a b ringAdd 0 ringMul = .ok out ∧
      out.length = a.length + b.length - 1 ∧ ∀ z, polyAt out z = polyAt a z * polyAt b z := by
  obtain ⟨out, h⟩ : ∃ out, arbitraryBilinear a b ringAdd 0 ringMul = .ok out := by
    apply ring_bilinear_total
    intro t ht
    rw [List.mem_flatMap] at ht
    obtain ⟨x, hx, ht⟩ := ht
    rw [List.mem_map] at ht
    obtain ⟨y, hy, rfl⟩ := ht
    have h1 := (List.getElem?_eq_some_iff.1 (mem_enum.1 hx)).1
    have h2 := (List.getElem?_eq_some_iff.1 (mem_enum.1 hy)).1
    simp only [List.length_replicate]
    omega
  refine ⟨out, h, (arbitraryBilinear_rel (ring_laws 0) ha hb (getD_rel a) (getD_rel b) h).1, ?_⟩
  intro z
  obtain ⟨-, u, hu, -, e⟩ := arbitraryBilinear_rel (ring_laws z) ha hb (getD_rel a) (getD_rel b) h
  rw [ring_val z out u hu, ring_val z a _ (getD_rel a), ring_val z b _ (getD_rel b)] at e
  exact e

example : ([1, 2] : List ℚ) ≠ [] ∧ ([3, 0, 5] : List ℚ) ≠ [] ∧
    arbitraryBilinear [1, 2] [(3 : ℚ), 0, 5] ringAdd 0 ringMul = .ok [3, 6, 5, 10] := by
  refine ⟨by simp, by simp, ?_⟩
  decide +kernel

theorem ring_partition_total (l : List ((ℕ × V) × ℕ)) (st : V × ℕ) :
    ∃ st', l.foldlM (productStep ringMul ringPow) st = .ok st' ∧
      st'.2 = st.2 + (l.map fun t => t.1.1 * t.2).sum := by
  induction l generalizing st with
  | nil => exact ⟨st, rfl, by simp⟩
  | cons t l ih =>
    obtain ⟨st', h1, h2⟩ := ih (st.1 * t.1.2 ^ t.2, st.2 + t.1.1 * t.2)
    refine ⟨st', ?_, ?_⟩
    · rw [List.foldlM_cons]
      exact h1
    · rw [h2, List.map_cons, List.sum_cons]; ring

theorem ring_coeff_total {a : List V} {i m : ℕ} (ps : List (List ℕ))
    (hps : ∀ p ∈ ps, p.length = a.length ∧ p.sum = m ∧ wsum p = i) (ha : a ≠ []) (c : V) :
    ∃ r, ps.foldlM (coeffStep ringAdd 1 ringMul ringPow ringSmul a i m) c = .ok r := by
  induction ps generalizing c with
  | nil => exact ⟨c, rfl⟩
  | cons p ps ih =>
    obtain ⟨h1, h2, h3⟩ := hps p (by simp)
    obtain ⟨st, hst, e⟩ := ring_partition_total ((enum a).zip p) (1, 0)
    have e' : st.2 = i := by
      rw [e, zero_add, ← h3]
      unfold wsum
      rw [← enum_zip_map a p h1, List.map_map]
      rfl
    have hp : p ≠ [] := by
      rintro rfl
      exact ha (List.length_eq_zero_iff.1 h1.symm)
    have hs : coeffStep ringAdd 1 ringMul ringPow ringSmul a i m c p =
        .ok (c + mcoef p * st.1) := by
      unfold coeffStep partitionProduct
      have h3' : (((List.range p.length).zip p).map fun t => t.1 * t.2).sum = i := h3
      rw [if_neg (by rw [h2]; simp), if_neg (by rw [h3']; simp), hst, py_ok_bind,
        if_neg (by rw [e']; simp), multinomial_eq hp]
      rfl
    obtain ⟨r, hr⟩ := ih (fun p hp => hps p (by simp [hp])) (c + mcoef p * st.1)
    exact ⟨r, by rw [List.foldlM_cons, hs, py_ok_bind]; exact hr⟩

theorem mapM_total {α β : Type} {f : α → Py β} (l : List α) (h : ∀ x ∈ l, ∃ r, f x = .ok r) :
    ∃ rs, l.mapM f = .ok rs := by
  induction l with
  | nil => exact ⟨[], rfl⟩
  | cons x l ih =>
    obtain ⟨r, hr⟩ := h x (by simp)
    obtain ⟨rs, hrs⟩ := ih fun x hx => h x (by simp [hx])
    exact ⟨r :: rs, by rw [List.mapM_cons, hr, py_ok_bind, hrs, py_ok_bind]; rfl⟩

/-- **C12.** `integer_power(a, k)` over a commutative ring returns `(len(a)-1)*k + 1` coefficients of
`P_a ** k`; in particular none of its assertions can fail. -/
theorem C12_integer_power (a : List V) (ha : a ≠ []) (k : ℕ) :
    ∃ out, integerPower ringAdd 1 ringMul ringPow ringSmul 0 a (k : ℤ) = .ok out ∧
      out.length = (a.length - 1) * k + 1 ∧ ∀ z, polyAt out z = polyAt a z ^ k := by
  have hl : 0 < a.length := List.length_pos_iff.2 ha
  obtain ⟨out, h⟩ : ∃ out, integerPower ringAdd 1 ringMul ringPow ringSmul 0 a (k : ℤ) = .ok out := by
    unfold integerPower
    rw [if_neg (by omega)]
    by_cases hk : (k : ℤ) = 0
    · rw [if_pos hk]; exact ⟨_, rfl⟩
    · rw [if_neg hk]
      apply mapM_total
      intro i _
      unfold getCoeff iterPartitions
      rw [if_neg (by omega), if_neg (by omega), if_neg (by omega), py_ok_bind]
      simp only [Int.toNat_natCast]
      apply ring_coeff_total _ _ ha
      intro p hp
      exact (mem_iterPartitionsNat (by omega) _ _ _).1 hp
  refine ⟨out, h, ?_, fun z => ?_⟩
  · rw [(integerPower_rel (ring_laws 0) (ring_powLaws 0) ha (getD_rel a) h).1]; ring
  · obtain ⟨-, u, hu, -, e, -⟩ := integerPower_rel (ring_laws z) (ring_powLaws z) ha (getD_rel a) h
    rw [ring_val z out u hu, ring_val z a _ (getD_rel a)] at e
    exact e

/-- **C12 (errors).** -/
theorem C12_negative (a : List V) (k : ℤ) (hk : k < 0) :
    integerPower ringAdd 1 ringMul ringPow ringSmul 0 a k = .error .valueError := by
  unfold integerPower; rw [if_pos hk]

/-- **C12 (no coefficients).** A positive power of the polynomial without coefficients has no coefficients. -/
theorem C12_empty (k : ℕ) : integerPower ringAdd 1 ringMul ringPow ringSmul 0 ([] : List V) ((k : ℤ) + 1) = .ok [] := by
  unfold integerPower
  rw [if_neg (by omega), if_neg (by omega)]
  have : (1 + (((([] : List V).length : ℕ) : ℤ) - 1) * ((k : ℤ) + 1)).toNat = 0 := by
    simp only [List.length_nil, Nat.cast_zero]; omega
  rw [this]; rfl

example : ([1, 2, 3] : List ℚ) ≠ [] ∧
    integerPower ringAdd 1 ringMul ringPow ringSmul 0 [(1 : ℚ), 2, 3] 2 = .ok [1, 4, 10, 12, 9] := by
  refine ⟨by simp, ?_⟩
  decide +kernel

/-- Specification: `sum_j j * p[j]`. -/
def weightedSum (p : List ℕ) : ℕ := ∑ j ∈ Finset.range p.length, j * p.getD j 0

theorem wsum_eq (p : List ℕ) : wsum p = weightedSum p := by
  induction p using List.reverseRecOn with
  | nil => rfl
  | append_singleton p z ih =>
    rw [wsum_append_singleton, ih]
    unfold weightedSum
    rw [List.length_append, List.length_singleton, Finset.sum_range_succ]
    congr 1
    · apply Finset.sum_congr rfl
      intro j hj
      rw [List.getD_eq_getElem?_getD, List.getD_eq_getElem?_getD,
        List.getElem?_append_left (Finset.mem_range.1 hj)]
    · rw [List.getD_eq_getElem?_getD, List.getElem?_append_right le_rfl]; simp

/-- **C13.** `_iter_partitions(n, m, k)` yields exactly the length-`k` tuples with sum `m` and weighted
sum `n`, each once. -/
theorem C13_iter_partitions (n m k : ℕ) (hk : 1 ≤ k) :
    ∃ l, iterPartitions n m k = .ok l ∧ l.Nodup ∧
      ∀ p, p ∈ l ↔ p.length = k ∧ p.sum = m ∧ weightedSum p = n := by
  refine ⟨iterPartitionsNat n m k, ?_, nodup_iterPartitionsNat n m k, fun p => ?_⟩
  · unfold iterPartitions
    rw [if_neg (by omega), if_neg (by omega), if_neg (by omega)]
    simp
  · rw [← wsum_eq]; exact mem_iterPartitionsNat (by omega) n m p

/-- **C13 (errors).** -/
theorem C13_errors (n m k : ℤ) (h : n < 0 ∨ m < 0 ∨ k ≤ 0) :
    iterPartitions n m k = .error .valueError := by
  unfold iterPartitions
  split_ifs <;> first | rfl | omega

example : iterPartitions 2 2 3 = .ok [[0, 2, 0], [1, 0, 1]] := by decide +kernel

/-- **C14.** -/
theorem C14_multinomial (ks : List ℕ) (h : ks ≠ []) :
    ∃ c, multinomialCoefficient ks = .ok c ∧ c * (ks.map Nat.factorial).prod = ks.sum.factorial :=
  multinomial_ok h

/-- **C14 (errors).** -/
theorem C14_empty : multinomialCoefficient [] = .error .valueError := rfl

example : multinomialCoefficient [2, 1, 1] = .ok 12 := by decide +kernel

end AB.Poly
