/-
C45: the coefficients below the highest degree are the Taylor coefficients of `f` at `x0`.
-/
import Verif.Spec.TaylorCoef
import Verif.Props.TaylorMain2
import Verif.Props.RealLib
import Mathlib.Analysis.Calculus.Taylor

set_option linter.unusedSectionVars false

namespace AB
open Set Filter Topology

/-- a polynomial of degree `< d` that is `O(t^d)` on the right of 0 is zero -/
theorem poly_zero_of_bound {d : ℕ} {r : ℕ → ℝ} {C ε : ℝ} (hε : 0 < ε)
    (h : ∀ t ∈ Ioo 0 ε, |∑ i ∈ Finset.range d, r i * t ^ i| ≤ C * t ^ d) : ∀ i < d, r i = 0 := by
  induction d generalizing r with
  | zero => intro i hi; omega
  | succ d ih =>
    have hmem : Ioo 0 ε ∈ 𝓝[>] (0 : ℝ) := Ioo_mem_nhdsGT hε
    have h0 : r 0 = 0 := by
      have l1 : Tendsto (fun t : ℝ => |∑ i ∈ Finset.range (d + 1), r i * t ^ i|) (𝓝[>] 0) (𝓝 |r 0|) := by
        have c : Continuous fun t : ℝ => |∑ i ∈ Finset.range (d + 1), r i * t ^ i| := by fun_prop
        have := (c.tendsto 0).mono_left (nhdsWithin_le_nhds (s := Ioi 0))
        have e : ∑ i ∈ Finset.range (d + 1), r i * (0 : ℝ) ^ i = r 0 := by
          rw [Finset.sum_range_succ']; simp
        rwa [e] at this
      have l2 : Tendsto (fun t : ℝ => C * t ^ (d + 1)) (𝓝[>] 0) (𝓝 0) := by
        have c : Continuous fun t : ℝ => C * t ^ (d + 1) := by fun_prop
        have := (c.tendsto 0).mono_left (nhdsWithin_le_nhds (s := Ioi 0))
        simpa using this
      have := le_of_tendsto_of_tendsto l1 l2 (by filter_upwards [hmem] with t ht using h t ht)
      exact abs_nonpos_iff.1 this
    have hs : ∀ i < d, r (i + 1) = 0 := by
      refine ih (r := fun i => r (i + 1)) fun t ht => ?_
      have := h t ht
      rw [Finset.sum_range_succ', h0] at this
      have e : (∑ k ∈ Finset.range d, r (k + 1) * t ^ (k + 1)) + 0 * t ^ 0 =
          t * ∑ k ∈ Finset.range d, r (k + 1) * t ^ k := by
        rw [Finset.mul_sum, zero_mul, add_zero]
        exact Finset.sum_congr rfl fun k _ => by ring
      rw [e, abs_mul, abs_of_pos ht.1, pow_succ] at this
      have h2 : t * |∑ k ∈ Finset.range d, r (k + 1) * t ^ k| ≤ t * (C * t ^ d) := by linarith
      exact le_of_mul_le_mul_left h2 ht.1
    intro i hi
    cases i with
    | zero => exact h0
    | succ i => exact hs i (by omega)

/-- two expansions up to `O(t^d)` have the same coefficients -/
theorem expansion_unique {d : ℕ} {a b : ℕ → ℝ} {g : ℝ → ℝ} {C C' ε : ℝ} (hε : 0 < ε)
    (h : ∀ t ∈ Ioo 0 ε, |g t - ∑ i ∈ Finset.range d, a i * t ^ i| ≤ C * t ^ d)
    (h' : ∀ t ∈ Ioo 0 ε, |g t - ∑ i ∈ Finset.range d, b i * t ^ i| ≤ C' * t ^ d) : ∀ i < d, a i = b i := by
  intro i hi
  have := poly_zero_of_bound (r := fun i => a i - b i) (C := C + C') hε (fun t ht => by
    have e : ∑ i ∈ Finset.range d, (a i - b i) * t ^ i =
        (g t - ∑ i ∈ Finset.range d, b i * t ^ i) - (g t - ∑ i ∈ Finset.range d, a i * t ^ i) := by
      rw [← sub_eq_zero]
      simp only [sub_mul, Finset.sum_sub_distrib]
      ring
    rw [e]
    refine (abs_sub _ _).trans ?_
    have h1 := h t ht
    have h2 := h' t ht
    nlinarith) i hi
  linarith

section
variable {K : Type} [Field K] [LinearOrder K] [IsStrictOrderedRing K]

theorem zp_scale {xs : List ℕ} {z v : List ℕ → K} {t : K} (h : ∀ c, ValidIdx xs c → z c = t * v c) {i : ℕ}
    {J : List ℕ} (hJ : ValidIdx (IA.repS i xs) J) : zp xs.length z i J = t ^ i * zp xs.length v i J := by
  have hc := chunks_valid hJ
  unfold zp
  have : ∀ l : List (List ℕ), (∀ c ∈ l, ValidIdx xs c) → (l.map z).prod = t ^ l.length * (l.map v).prod := by
    intro l hl
    induction l with
    | nil => simp
    | cons c l ih =>
      rw [List.map_cons, List.map_cons, List.prod_cons, List.prod_cons, ih fun c hc => hl c (by simp [hc]),
        h c (hl c (by simp)), List.length_cons, pow_succ]
      ring
  rw [this _ hc, chunks_length]

theorem pair_scale {xs : List ℕ} {z v : List ℕ → K} {t : K} (h : ∀ c, ValidIdx xs c → z c = t * v c) (i : ℕ)
    (w : List ℕ → K) : pair xs z i w = t ^ i * pair xs v i w := by
  unfold pair
  rw [← List.sum_map_mul_left]
  congr 1
  apply List.map_congr_left
  intro J hJ
  rw [zp_scale h (mem_idx.1 hJ)]
  ring

theorem list_sum_abs_le {α : Type} (l : List α) (f g : α → K) (h : ∀ a ∈ l, |f a| ≤ g a) :
    |(l.map f).sum| ≤ (l.map g).sum := by
  induction l with
  | nil => simp
  | cons a l ih =>
    simp only [List.map_cons, List.sum_cons]
    refine (abs_add_le _ _).trans (add_le_add (h a (by simp)) (ih fun b hb => h b (by simp [hb])))

theorem coefForm_eq (E : Encl K) (I : List ℕ) (v : ND K) (i : ℕ) :
    coefForm E I v i = pair v.shape v.get i (fun J => coefAt E i (I ++ J)) := by
  unfold coefForm pair zp monomialAt
  simp only [groups_eq]
  rfl

/-- a value of the enclosure along `t ↦ t v`, split into the arrays below degree `d` and a remainder -/
theorem inEnc_expand {xs : List ℕ} {E : Encl K} {d : ℕ} (harr : ArrBelow d E) (hlen : E.length ≤ d + 1)
    (v : ND K) (hv : v.shape = xs) (I : List ℕ) :
    ∃ C : K, ∀ (t : K) (z : List ℕ → K) (y : K), 0 ≤ t → (∀ c, ValidIdx xs c → z c = t * v.get c) →
      InEnc xs E z I y →
      |y - ∑ i ∈ Finset.range d, coefForm E I v i * t ^ i| ≤ C * t ^ d := by
  refine ⟨E[d]?.elim 0 fun c => ((idx (IA.repS d xs)).map fun J =>
    (|c.lo.bget (I ++ J)| + |c.hi.bget (I ++ J)|) * |zp xs.length v.get d J|).sum, ?_⟩
  rintro t z y ht hz ⟨w, hw, rfl⟩
  rw [← selVal_extend hw z hlen]
  unfold selVal
  rw [Finset.sum_range_succ]
  have e1 : ∑ i ∈ Finset.range d, pair xs z i (w i) = ∑ i ∈ Finset.range d, coefForm E I v i * t ^ i := by
    apply Finset.sum_congr rfl
    intro i hi
    have hi := Finset.mem_range.1 hi
    rw [pair_scale hz, coefForm_eq, hv, mul_comm]
    congr 1
    apply pair_congr
    intro J hJ
    unfold coefAt
    cases hE : E[i]? with
    | none => simp only [(hw i).2 hE J]
    | some c =>
      have := harr i c hE hi
      cases c with
      | ivl l u => exact absurd this id
      | arr a => exact Coef.mem_arr.1 ((hw i).1 _ hE J hJ)
  rw [e1, add_sub_cancel_left, pair_scale hz, abs_mul, abs_of_nonneg (pow_nonneg ht d), mul_comm]
  refine mul_le_mul_of_nonneg_right ?_ (pow_nonneg ht d)
  cases hc' : E[d]? with
  | none =>
    simp only [Option.elim_none]
    rw [pair_congr (w' := fun _ => 0) fun J _ => (hw d).2 hc' J]
    exact (abs_eq_zero.2 (pair_zero _ _ _)).le
  | some c =>
    simp only [Option.elim_some]
    unfold pair
    refine list_sum_abs_le _ _ _ fun J hJ => ?_
    rw [abs_mul]
    refine mul_le_mul_of_nonneg_right ?_ (abs_nonneg _)
    obtain ⟨h1, h2⟩ := (hw d).1 c hc' J (mem_idx.1 hJ)
    rw [abs_le]
    constructor
    · have := neg_abs_le (c.lo.bget (I ++ J))
      have := abs_nonneg (c.hi.bget (I ++ J))
      linarith
    · have := le_abs_self (c.hi.bget (I ++ J))
      have := abs_nonneg (c.lo.bget (I ++ J))
      linarith
end

namespace JB

/-- **C45 (any direction).** Let `max_degree = d`, and let `g(t)` be entry `I` of `f(x0 + t v)` for
`0 ≤ t ≤ ε`, where `x0 + t v` stays in the trust region.  If `g` is `d` times continuously differentiable,
then the coefficients of degree `i < d` of the bounds satisfy `<c_i, v^i>[I] = g^(i)(0) / i!`. -/
theorem C45_directional {lib : Lib ℝ} {sem : Sem ℝ} (hlib : LibSound lib sem) (harr : LibArr lib)
    {jaxpr : Jaxpr ℝ} {consts : List (ND ℝ)} {d : ℕ} {propagate : Bool} {x0 lo hi : ND ℝ} {bnd : Bounds ℝ}
    (hlh : lo.shape = hi.shape) (h0 : (Coef.ivl lo hi).Contains x0)
    (hb : taylorBounds lib jaxpr consts d propagate x0 lo hi = .ok bnd)
    (hok : TaylorBoundsOk lib jaxpr consts d propagate x0 lo hi)
    {v : ND ℝ} (hv : v.shape = x0.shape) {ε : ℝ} (hε : 0 < ε)
    (hreg : ∀ t ∈ Icc 0 ε, (Coef.ivl lo hi).Contains ⟨x0.shape, fun J => x0.get J + t * v.get J⟩)
    {I : List ℕ} {g : ℝ → ℝ}
    (hg : ∀ t ∈ Icc 0 ε, ∃ vals y, evalEnv sem jaxpr consts ⟨x0.shape, fun J => x0.get J + t * v.get J⟩ =
      .ok vals ∧ NonEmptyVals vals ∧
      evalJaxpr sem jaxpr consts ⟨x0.shape, fun J => x0.get J + t * v.get J⟩ = .ok y ∧
      ValidIdx y.shape I ∧ y.get I = g t)
    (hsm : ContDiffOn ℝ d g (Icc 0 ε)) :
    ∀ i < d, coefForm bnd.coefficients I v i = iteratedDerivWithin i g (Icc 0 ε) 0 / i.factorial := by
  have harr' := coefficients_arr harr hb
  rw [Int.toNat_natCast] at harr'
  have hlen : bnd.coefficients.length ≤ d + 1 := by
    obtain ⟨vals, y, hev, hne, -⟩ := hg 0 ⟨le_rfl, hε.le⟩
    obtain ⟨_, _, -, -, -, -, -, -, h, -⟩ := taylorBounds_sound hlib hlh h0 (hreg 0 ⟨le_rfl, hε.le⟩) hb hok hev hne
    rwa [Int.toNat_natCast] at h
  obtain ⟨C, hC⟩ := inEnc_expand harr' hlen v hv I
  have hbound : ∀ t ∈ Ioo 0 ε,
      |g t - ∑ i ∈ Finset.range d, coefForm bnd.coefficients I v i * t ^ i| ≤ C * t ^ d := by
    intro t ht
    have ht' : t ∈ Icc 0 ε := ⟨ht.1.le, ht.2.le⟩
    obtain ⟨vals, y, hev, hne, hy, hI, hgt⟩ := hg t ht'
    obtain ⟨z, y', hz, hy', -, -, -, -, -, hzs, hs⟩ := taylorBounds_sound hlib hlh h0 (hreg t ht') hb hok hev hne
    rw [hy] at hy'; cases hy'
    obtain ⟨-, hin⟩ := (encloses_iff hs.wf).1 hs.encl
    rw [← hgt]
    rw [ND.map2_same (a := ⟨x0.shape, fun J => x0.get J + t * v.get J⟩) (b := x0) (fun a b : ℝ => a - b)
      rfl] at hz
    cases hz
    refine hC t _ _ ht.1.le ?_ (hin I hI)
    intro c hc
    show ND.bget _ c - ND.bget _ c = _
    have e := ND.bget_valid (⟨x0.shape, fun J => x0.get J + t * v.get J⟩ : ND ℝ) hc
    rw [e, ND.bget_valid x0 hc]
    ring
  cases d with
  | zero => intro i hi; omega
  | succ n =>
    obtain ⟨C', hC'⟩ := exists_taylor_mean_remainder_bound hε.le (by exact_mod_cast hsm)
    refine expansion_unique hε hbound (C' := C') fun t ht => ?_
    have := hC' t ⟨ht.1.le, ht.2.le⟩
    rw [taylor_within_apply, Real.norm_eq_abs] at this
    simp only [sub_zero, smul_eq_mul] at this
    have e : ∑ k ∈ Finset.range (n + 1), ((k.factorial : ℝ)⁻¹ * t ^ k) * iteratedDerivWithin k g (Icc 0 ε) 0 =
        ∑ k ∈ Finset.range (n + 1), iteratedDerivWithin k g (Icc 0 ε) 0 / k.factorial * t ^ k :=
      Finset.sum_congr rfl fun k _ => by ring
    rwa [e] at this

/-- **C45 (any direction, `f` smooth around `x0`).** -/
theorem C45_taylor_polynomial {lib : Lib ℝ} {sem : Sem ℝ} (hlib : LibSound lib sem) (harr : LibArr lib)
    {jaxpr : Jaxpr ℝ} {consts : List (ND ℝ)} {d : ℕ} {propagate : Bool} {x0 lo hi : ND ℝ} {bnd : Bounds ℝ}
    (hlh : lo.shape = hi.shape) (h0 : (Coef.ivl lo hi).Contains x0)
    (hb : taylorBounds lib jaxpr consts d propagate x0 lo hi = .ok bnd)
    (hok : TaylorBoundsOk lib jaxpr consts d propagate x0 lo hi)
    {v : ND ℝ} (hv : v.shape = x0.shape) {ε : ℝ} (hε : 0 < ε)
    (hreg : ∀ t ∈ Icc 0 ε, (Coef.ivl lo hi).Contains ⟨x0.shape, fun J => x0.get J + t * v.get J⟩)
    {I : List ℕ} {g : ℝ → ℝ}
    (hg : ∀ t ∈ Icc 0 ε, ∃ vals y, evalEnv sem jaxpr consts ⟨x0.shape, fun J => x0.get J + t * v.get J⟩ =
      .ok vals ∧ NonEmptyVals vals ∧
      evalJaxpr sem jaxpr consts ⟨x0.shape, fun J => x0.get J + t * v.get J⟩ = .ok y ∧
      ValidIdx y.shape I ∧ y.get I = g t)
    (hsm : ContDiffAt ℝ d g 0) :
    ∀ i < d, coefForm bnd.coefficients I v i = iteratedDeriv i g 0 / i.factorial := by
  intro i hi
  obtain ⟨u, hu, hcd⟩ := hsm.contDiffOn le_rfl (by simp)
  obtain ⟨δ, hδ, hball⟩ := Metric.mem_nhds_iff.1 hu
  set η := min ε (δ / 2) with hη
  have hη0 : 0 < η := lt_min hε (by linarith)
  have hsub : Icc 0 η ⊆ Icc 0 ε := Icc_subset_Icc_right (min_le_left _ _)
  have hsub' : Icc 0 η ⊆ u := by
    intro t ht
    apply hball
    rw [Metric.mem_ball, Real.dist_eq, sub_zero, abs_of_nonneg ht.1]
    have := min_le_right ε (δ / 2)
    have := ht.2
    linarith
  rw [C45_directional hlib harr hlh h0 hb hok hv hη0 (fun t ht => hreg t (hsub ht)) (fun t ht => hg t (hsub ht))
    (hcd.mono hsub') i hi]
  rw [iteratedDerivWithin_eq_iteratedDeriv (uniqueDiffOn_Icc hη0)
    (hsm.of_le (by exact_mod_cast hi.le)) ⟨le_rfl, hη0.le⟩]

/-- **C45 (scalar `x`).** Let `x` be a scalar, `max_degree = d`, and let `F(s)` be entry `I` of `f(s)` for
`s` in the trust region `[a, b]`, where `a < b` and `a ≤ x0 ≤ b`.  If `F` is `d` times continuously
differentiable near `x0`, then the coefficient of degree `i < d` of the bounds is `F^(i)(x0) / i!`. -/
theorem C45_scalar {lib : Lib ℝ} {sem : Sem ℝ} (hlib : LibSound lib sem) (harr : LibArr lib)
    {jaxpr : Jaxpr ℝ} {consts : List (ND ℝ)} {d : ℕ} {propagate : Bool} {x0 a b : ℝ} {bnd : Bounds ℝ}
    (hab : a < b) (h0 : x0 ∈ Icc a b)
    (hb : taylorBounds lib jaxpr consts d propagate (ND.scalar x0) (ND.scalar a) (ND.scalar b) = .ok bnd)
    (hok : TaylorBoundsOk lib jaxpr consts d propagate (ND.scalar x0) (ND.scalar a) (ND.scalar b))
    {I : List ℕ} {F : ℝ → ℝ}
    (hF : ∀ s ∈ Icc a b, ∃ vals y, evalEnv sem jaxpr consts (ND.scalar s) = .ok vals ∧ NonEmptyVals vals ∧
      evalJaxpr sem jaxpr consts (ND.scalar s) = .ok y ∧ ValidIdx y.shape I ∧ y.get I = F s)
    (hsm : ContDiffAt ℝ d F x0) :
    ∀ i < d, coefAt bnd.coefficients i I = iteratedDeriv i F x0 / i.factorial := by
  intro i hi
  -- a direction that stays in the region
  obtain ⟨σ, ε, hσ, hε, hin⟩ : ∃ σ ε : ℝ, (σ = 1 ∨ σ = -1) ∧ 0 < ε ∧ ∀ t ∈ Icc 0 ε, x0 + t * σ ∈ Icc a b := by
    rcases lt_or_ge x0 b with h | h
    · refine ⟨1, b - x0, Or.inl rfl, by linarith, fun t ht => ⟨?_, ?_⟩⟩
      · have := ht.1; have := h0.1; linarith
      · have := ht.2; linarith
    · refine ⟨-1, b - a, Or.inr rfl, by linarith, fun t ht => ⟨?_, ?_⟩⟩
      · have := ht.2; linarith
      · have := ht.1; have := h0.2; linarith
  have hsc : ∀ t : ℝ, (⟨(ND.scalar x0).shape, fun J => (ND.scalar x0).get J + t * (ND.scalar σ).get J⟩ : ND ℝ) =
      ND.scalar (x0 + t * σ) := fun t => rfl
  have hcont : ∀ s ∈ Icc a b, (Coef.ivl (ND.scalar a) (ND.scalar b)).Contains (ND.scalar s) :=
    fun s hs => ⟨rfl, fun J _ => hs⟩
  have hg : ContDiffAt ℝ d (fun t => F (x0 + t * σ)) 0 := by
    have h1 : ContDiffAt ℝ d (fun t : ℝ => x0 + t * σ) 0 := by fun_prop
    have h2 : ContDiffAt ℝ d F (x0 + 0 * σ) := by simpa using hsm
    exact h2.comp 0 h1
  have key := C45_taylor_polynomial hlib harr (v := ND.scalar σ) (x0 := ND.scalar x0) (lo := ND.scalar a)
    (hi := ND.scalar b) rfl (hcont x0 h0) hb hok rfl hε
    (fun t ht => by rw [hsc]; exact hcont _ (hin t ht)) (I := I) (g := fun t => F (x0 + t * σ))
    (fun t ht => by
      rw [hsc]
      exact hF _ (hin t ht)) hg i hi
  have hform : coefForm bnd.coefficients I (ND.scalar σ) i = coefAt bnd.coefficients i I * σ ^ i := by
    rw [coefForm_eq, show (ND.scalar σ).shape = ([] : List ℕ) from rfl,
      pair_scale (z := (ND.scalar σ).get) (v := fun _ => (1 : ℝ)) (t := σ) (fun c _ => (mul_one σ).symm)]
    have : IA.repS i ([] : List ℕ) = [] := by
      unfold IA.repS; induction i <;> simp_all
    unfold pair zp
    rw [this]
    simp [idx, mul_comm]
  have hder : iteratedDeriv i (fun t => F (x0 + t * σ)) 0 = σ ^ i * iteratedDeriv i F x0 := by
    rcases hσ with rfl | rfl
    · simp only [mul_one, one_pow, one_mul]
      rw [iteratedDeriv_comp_const_add]
      simp
    · have e2 : (fun t => F (x0 + t * (-1))) = fun t => (fun u => F (x0 + u)) (-t) := by
        funext t; simp
      have h3 := iteratedDeriv_comp_neg i (fun u => F (x0 + u)) 0
      rw [e2, h3, iteratedDeriv_comp_const_add]
      simp
  rw [hform, hder] at key
  have hσ0 : σ ^ i ≠ 0 := pow_ne_zero _ (by rcases hσ with rfl | rfl <;> norm_num)
  rw [mul_comm, mul_div_assoc] at key
  exact mul_left_cancel₀ hσ0 key

/-- **C45 (built-in tables).** The same for the code's own tables, if all calls of enclosure-generating
functions are inside the regions of C33/C34. -/
theorem C45_builtin {jaxpr : Jaxpr ℝ} {consts : List (ND ℝ)} {d : ℕ} {propagate : Bool} {x0 a b : ℝ}
    {bnd : Bounds ℝ} (hab : a < b) (h0 : x0 ∈ Icc a b)
    (hb : taylorBounds safeLib jaxpr consts d propagate (ND.scalar x0) (ND.scalar a) (ND.scalar b) = .ok bnd)
    (hok : TaylorBoundsOk realLib jaxpr consts d propagate (ND.scalar x0) (ND.scalar a) (ND.scalar b))
    {I : List ℕ} {F : ℝ → ℝ}
    (hF : ∀ s ∈ Icc a b, ∃ vals y, evalEnv realSem jaxpr consts (ND.scalar s) = .ok vals ∧ NonEmptyVals vals ∧
      evalJaxpr realSem jaxpr consts (ND.scalar s) = .ok y ∧ ValidIdx y.shape I ∧ y.get I = F s)
    (hsm : ContDiffAt ℝ d F x0) :
    ∀ i < d, coefAt bnd.coefficients i I = iteratedDeriv i F x0 / i.factorial :=
  C45_scalar safeLib_sound safeLib_arr hab h0 hb (taylorBoundsOk_of_le safeLib_le hok) hF hsm

/-- C45 for `x * exp(x)` about 0: the degree-1 coefficient is the derivative at 0. -/
example : ∃ bnd : Bounds ℝ, taylorBounds realLib exX [] 2 true (ND.scalar 0) (ND.scalar (-1)) (ND.scalar 1) =
    .ok bnd ∧ coefAt bnd.coefficients 1 [] = deriv (fun x => x * Real.exp x) 0 := by
  obtain ⟨bnd, hb⟩ := exX_safe
  refine ⟨bnd, okLe_taylorBounds safeLib_le _ _ _ _ _ _ _ _ hb, ?_⟩
  have := C45_builtin (d := 2) (I := []) (F := fun x => x * Real.exp x) (by norm_num) (by constructor <;> norm_num) hb
    exX_ok (fun s _ => ⟨_, _, rfl, exX_nonEmpty s rfl, rfl, .nil, rfl⟩) (by fun_prop) 1 (by norm_num)
  rw [this]
  simp

end JB
end AB
