/-
The element-wise enclosures are Lipschitz in the width of the trust region wherever the function is smooth.
-/
import Verif.Spec.SmoothLib
import Verif.Spec.Converge
import Verif.Proofs.IsoLib
import Mathlib.Topology.Algebra.MetricSpace.Lipschitz
import Mathlib.Analysis.Calculus.ContDiff.RCLike
import Mathlib.Analysis.SpecialFunctions.ExpDeriv
import Mathlib.Analysis.SpecialFunctions.Log.Deriv

set_option linter.unusedSectionVars false

namespace AB
open PE EF Set

/-- scalar enclosures: the width of the final interval is at most a constant times the width of the region -/
def ScalarLipschitz {K : Type} [Field K] [LinearOrder K] (g : K → K → K → ℕ → Py (SEncl K)) (ok : K → K → K → ℕ → Prop) :
    Prop :=
  ∀ x0 a b d, a ≤ x0 → x0 ≤ b → ok x0 a b d → ∃ C : K, 0 ≤ C ∧ ∀ x0' a' b' s', a ≤ a' → a' ≤ x0' → x0' ≤ b' → b' ≤ b →
    (d ≠ 0 → x0' = x0) → ok x0' a' b' d → g x0' a' b' d = .ok s' → s'.2.2 - s'.2.1 ≤ C * (b' - a')

section
variable {K : Type} [Field K] [LinearOrder K] [IsStrictOrderedRing K]

theorem lipschitz_lift {tc : ℕ → K → Py (List K)} {g : K → K → K → ℕ → Py (SEncl K)} {ok : K → K → K → ℕ → Prop}
    (hs : ScalarLipschitz g ok) : LipschitzGen (guardGen ok (liftGen tc g)) := by
  intro x0 lo hi d e R hR hw h0 h
  obtain ⟨ok1, h⟩ := guardGen_ok h
  have ok1 := ok1 R hR
  simp only at ok1
  have key : ∀ l : List (List ℕ), (∀ I ∈ l, ValidIdx R I) → ∃ C : K, 0 ≤ C ∧ ∀ I ∈ l, ∀ x0' a' b' s', lo.bget I ≤ a' →
      a' ≤ x0' → x0' ≤ b' → b' ≤ hi.bget I → (d ≠ 0 → x0' = x0.bget I) → ok x0' a' b' d → g x0' a' b' d = .ok s' →
      s'.2.2 - s'.2.1 ≤ C * (b' - a') := by
    intro l
    induction l with
    | nil => exact fun _ => ⟨0, le_rfl, fun I hI => absurd hI List.not_mem_nil⟩
    | cons J l ih =>
      intro hl
      obtain ⟨C, c0, hC⟩ := ih fun I hI => hl I (List.mem_cons_of_mem _ hI)
      have hJ := hl J (by simp)
      obtain ⟨D, d0, hD⟩ := hs _ _ _ d (h0 J hJ).1 (h0 J hJ).2 (ok1 J hJ)
      refine ⟨max C D, le_max_of_le_left c0, fun I hI x0' a' b' s' g1 g2 g3 g4 g5 g6 g7 => ?_⟩
      have hba : 0 ≤ b' - a' := by linarith
      rcases List.mem_cons.1 hI with rfl | hI
      · exact (hD x0' a' b' s' g1 g2 g3 g4 g5 g6 g7).trans (mul_le_mul_of_nonneg_right (le_max_right _ _) hba)
      · exact (hC I hI x0' a' b' s' g1 g2 g3 g4 g5 g6 g7).trans (mul_le_mul_of_nonneg_right (le_max_left _ _) hba)
  obtain ⟨C, c0, hC⟩ := key (idx R) fun I hI => mem_idx.1 hI
  refine ⟨C, c0, fun x0' lo' hi' e' w w0 hn hx h0' hd hwd h' m c hc L hL => ?_⟩
  obtain ⟨ok2, h'⟩ := guardGen_ok h'
  have sh : lo'.shape = lo.shape := hn.shape
  have hR' : bshape x0'.shape lo'.shape = some R := by rw [hx, sh]; exact hR
  have ok2 := ok2 R hR'
  simp only at ok2
  obtain ⟨g', rfl⟩ := lift_inv hR' h'
  have hm := List.mem_of_getElem? hc
  rcases List.mem_append.1 hm with hm | hm
  · obtain ⟨i, -, rfl⟩ := List.mem_map.1 hm
    simp only [TEA.toInterval, sub_self]
    exact mul_nonneg c0 w0
  · obtain rfl := List.mem_singleton.1 hm
    have hL : ValidIdx R L := hL
    obtain ⟨s', hs'⟩ := g' L hL
    simp only [TEA.toInterval]
    rw [ND.bget_valid _ hL, ND.bget_valid _ hL]
    simp only [hs', finOf]
    have hle := hn.entries (bshape_le hR).2 hL
    refine (hC L (mem_idx.2 hL) _ _ _ s' hle.1 (h0' L hL).1 (h0' L hL).2 hle.2.2 (fun hd' => by rw [hd hd'])
      (ok2 L hL) hs').trans (mul_le_mul_of_nonneg_left (hwd L hL) c0)

end

/-- a continuously differentiable function is Lipschitz on a bounded interval -/
theorem lip_of_contDiffAt {f : ℝ → ℝ} {a b : ℝ} (h : ∀ x ∈ Icc a b, ContDiffAt ℝ 1 f x) :
    ∃ C : ℝ, 0 ≤ C ∧ ∀ x ∈ Icc a b, ∀ y ∈ Icc a b, f x - f y ≤ C * |x - y| := by
  have hl : LocallyLipschitzOn (Icc a b) f := by
    intro x hx
    obtain ⟨K, t, ht, hK⟩ := (h x hx).exists_lipschitzOnWith
    exact ⟨K, t, mem_nhdsWithin_of_mem_nhds ht, hK⟩
  obtain ⟨K, hK⟩ := hl.exists_lipschitzOnWith_of_compact isCompact_Icc
  refine ⟨K, K.2, fun x hx y hy => ?_⟩
  have := hK.dist_le_mul x hx y hy
  rw [Real.dist_eq, Real.dist_eq] at this
  exact (le_abs_self _).trans this

theorem contDiff_sigmoid : ContDiff ℝ 1 sigmoid := by
  have : sigmoid = fun x : ℝ => (1 + Real.exp (-x))⁻¹ := by funext x; simp [sigmoid_eq]
  rw [this]
  refine ContDiff.inv (by fun_prop) fun x => ?_
  positivity

theorem contDiff_sigD (k : ℕ) : ContDiff ℝ 1 (sigD k) := by
  have hs := contDiff_sigmoid
  have hn : ContDiff ℝ 1 fun x => sigmoid (-x) := hs.comp contDiff_neg
  match k with
  | 0 | 1 | 2 | 3 | 4 | k + 5 => unfold sigD; fun_prop

theorem contDiffAt_derivFun {n : FName} {k : ℕ} {x : ℝ} (hn : n ≠ .abs) (hx : x ∈ smoothDomain n) :
    ContDiffAt ℝ 1 (derivFun n k) x := by
  match n, k with
  | .abs, _ => exact absurd rfl hn
  | .exp, k => exact Real.contDiff_exp.contDiffAt
  | .log, 0 => exact Real.contDiffAt_log.2 (show 0 < x from hx).ne'
  | .log, k + 1 =>
    have hx : x ≠ 0 := (show 0 < x from hx).ne'
    have : ContDiffAt ℝ 1 (fun x : ℝ => (x ^ (k + 1))⁻¹) x := ContDiffAt.inv (by fun_prop) (pow_ne_zero _ hx)
    have h2 := this.const_smul ((if (k + 1) % 2 = 0 then (-1 : ℝ) else 1) * (k.factorial : ℝ))
    convert h2 using 1
    funext y
    simp only [derivFun, smul_eq_mul]
    rw [zpow_neg]
    norm_cast
  | .sigmoid, k => exact (contDiff_sigD k).contDiffAt
  | .softplus, 0 =>
    have : derivFun .softplus 0 = fun x : ℝ => Real.log (1 + Real.exp x) := by
      rw [derivFun_zero]; rfl
    rw [this]
    refine ContDiffAt.log (by fun_prop) ?_
    positivity
  | .softplus, k + 1 => exact (contDiff_sigD k).contDiffAt
  | .swish, k =>
    have h1 := contDiff_sigD k
    have h2 := contDiff_sigD (k - 1)
    show ContDiffAt ℝ 1 (swishD k) x
    unfold swishD
    fun_prop
  | .other _, _ => exact contDiffAt_const

theorem capRho_width {D : ℕ → ℝ → ℝ} {k : ℕ} {a b x0 C : ℝ} (hch : Chain D k (Icc a b)) (hC0 : 0 ≤ C)
    (hx0 : x0 ∈ Icc a b) (hC : ∀ x ∈ Icc a b, ∀ y ∈ Icc a b, D k x - D k y ≤ C * |x - y|) {x y : ℝ} (hx : x ∈ Icc a b)
    (hy : y ∈ Icc a b) : capRho D x0 k x - capRho D x0 k y ≤ C * (b - a) := by
  have hV : ∀ x ∈ Icc a b, ∀ y ∈ Icc a b, D k x - D k y ≤ C * (b - a) := fun x hx y hy =>
    (hC x hx y hy).trans (mul_le_mul_of_nonneg_left (abs_le.2 ⟨by linarith [hx.1, hy.2], by linarith [hx.2, hy.1]⟩) hC0)
  have hr := rho_var hch hx0 hV
  have h0 : 0 ≤ C * (b - a) := mul_nonneg hC0 (by linarith [hx0.1, hx0.2])
  have hf : C * (b - a) / k.factorial ≤ C * (b - a) :=
    div_le_self h0 (by exact_mod_cast Nat.factorial_pos k)
  -- both values lie between the smallest and the largest of three ratios
  have t0 := capTheta_nonneg x0 k x
  have t1 := capTheta_le x0 k x
  have u0 := capTheta_nonneg x0 k y
  have u1 := capTheta_le x0 k y
  set m := min (rho D x0 k x0) (rho D x0 k y) with hm
  have r1 := hr x hx x0 hx0
  have r2 := hr x0 hx0 y hy
  have r3 := hr x hx y hy
  have r4 := hr x0 hx0 x hx
  have b1 : m ≤ capRho D x0 k y := by
    unfold capRho
    have m1 : m ≤ rho D x0 k x0 := min_le_left _ _
    have m2 : m ≤ rho D x0 k y := min_le_right _ _
    nlinarith
  set M := max (rho D x0 k x0) (rho D x0 k x) with hM
  have b2 : capRho D x0 k x ≤ M := by
    unfold capRho
    have m1 : rho D x0 k x0 ≤ M := le_max_left _ _
    have m2 : rho D x0 k x ≤ M := le_max_right _ _
    nlinarith
  have b3 : M - m ≤ C * (b - a) / k.factorial := by
    have hz : 0 ≤ C * (b - a) / k.factorial := by positivity
    rcases max_choice (rho D x0 k x0) (rho D x0 k x) with e | e <;>
      rcases min_choice (rho D x0 k x0) (rho D x0 k y) with e2 | e2 <;> rw [hM, hm, e, e2] <;> linarith
  linarith

theorem width_elementwise {n : FName} {k : ℕ} (hk : supportedOrder n k) {a b x0 C : ℝ} (hx0 : x0 ∈ Icc a b)
    (hch : Chain (derivFun n) k (Icc a b)) (hC0 : 0 ≤ C)
    (hC : ∀ x ∈ Icc a b, ∀ y ∈ Icc a b, derivFun n k x - derivFun n k y ≤ C * |x - y|) {s : SEncl ℝ}
    (h : getElementwiseTaylorEnclosure ⟨n, 0⟩ x0 a b k = .ok s) : s.2.2 - s.2.1 ≤ C * (b - a) := by
  have hab : a ≤ b := hx0.1.trans hx0.2
  have ia : a ∈ Icc a b := ⟨le_rfl, hab⟩
  have ib : b ∈ Icc a b := ⟨hab, le_rfl⟩
  have hw := @capRho_width (derivFun n) k a b x0 C hch hC0 hx0 hC
  cases hd : getFunctionData ⟨n, k⟩ with
  | error e =>
    unfold getElementwiseTaylorEnclosure at h
    simp only [FunctionId.derivativeId, zero_add, hd, py_bind_ok] at h
    obtain ⟨_, _, _, hh, _⟩ := h
    cases hh
  | ok d =>
    rw [elementwise_cap hk hd (getRange_ok hk hd a b)] at h
    split_ifs at h with h1 h2 h3 h4 h5
    · cases h; exact hw ib ia
    · cases h; exact hw ia ib
    · obtain ⟨rfl, -⟩ := h3
      unfold sharpQuadratic at h
      rw [ratio_cap, ratio_cap, ratio_cap] at h
      cases h
      have ic : clip (-x0) a b ∈ Icc a b := by
        unfold clip
        exact ⟨le_min (le_max_right _ _) hab, min_le_right _ _⟩
      show capRho _ _ _ _ - min (capRho _ _ _ _) (capRho _ _ _ _) ≤ _
      rcases min_choice (capRho (derivFun n) x0 2 a) (capRho (derivFun n) x0 2 b) with e | e <;> rw [e]
      · exact hw ic ia
      · exact hw ic ib
    · cases h; exact hw ia ib
    · cases h; exact hw ib ia
    · cases h
      obtain ⟨y, hy, ey⟩ := minimumValue_attained (derivFun n k) hab d.localMinima
      obtain ⟨z, hz, ez⟩ := maximumValue_attained (derivFun n k) hab d.localMaxima
      simp only
      rw [ey, ez, ← sub_div]
      have h1 : derivFun n k z - derivFun n k y ≤ C * (b - a) := (hC z hz y hy).trans (mul_le_mul_of_nonneg_left
        (abs_le.2 ⟨by linarith [hz.1, hy.2], by linarith [hz.2, hy.1]⟩) hC0)
      refine (div_le_div_of_nonneg_right h1 (by positivity)).trans
        (div_le_self (mul_nonneg hC0 (by linarith)) (by exact_mod_cast Nat.factorial_pos k))

theorem scalarLipschitz_builtin (n : FName) :
    ScalarLipschitz (fun x0 a b d => getElementwiseTaylorEnclosure ⟨n, 0⟩ x0 a b d) (BuiltinSmooth n) := by
  intro x0 a b k h1 h2 ⟨ok, habs⟩
  have hk : supportedOrder n k := by
    cases n with
    | exp => trivial
    | log => trivial
    | abs => exact ok
    | sigmoid =>
      rcases ok with h | h
      · exact h.trans (by norm_num)
      · exact truthful_supported h
    | softplus =>
      rcases ok with h | h | h
      · exact h.trans (by norm_num)
      · subst h; simp [supportedOrder]
      · exact truthful_supported h
    | swish => exact truthful_supported ok
    | other _ => exact absurd ok id
  obtain ⟨C, c0, hC⟩ : ∃ C : ℝ, 0 ≤ C ∧ ∀ x ∈ Icc a b, ∀ y ∈ Icc a b, derivFun n k x - derivFun n k y ≤ C * |x - y| := by
    by_cases hn : n = .abs
    · subst hn
      have : k = 0 ∨ k = 1 := by have : k ≤ 1 := hk; omega
      rcases this with rfl | rfl
      · refine ⟨1, zero_le_one, fun x _ y _ => ?_⟩
        rw [one_mul]
        exact abs_sub_abs_le_abs_sub x y
      · refine ⟨0, le_rfl, fun x hx y hy => ?_⟩
        rw [zero_mul]
        simp only [derivFun, sgn]
        rcases habs rfl with h | h | h
        · cases h
        · rw [if_pos (h.trans_le hx.1), if_pos (h.trans_le hy.1)]; simp
        · have g1 := hx.2.trans_lt h
          have g2 := hy.2.trans_lt h
          rw [if_neg g1.not_gt, if_neg g2.not_gt, if_pos g1, if_pos g2]; simp
    · refine lip_of_contDiffAt fun x hx => contDiffAt_derivFun hn ?_
      cases n with
      | log => exact (show 0 < a from ok).trans_le hx.1
      | abs => exact absurd rfl hn
      | _ => exact mem_univ _
  refine ⟨C, c0, fun x0' a' b' s' g1 g2 g3 g4 _ _ e => ?_⟩
  have hsub : Icc a' b' ⊆ Icc a b := Icc_subset_Icc g1 g4
  refine width_elementwise hk ⟨g2, g3⟩ ?_ c0 (fun x hx y hy => hC x (hsub hx) y (hsub hy)) e
  by_cases hk0 : k = 0
  · subst hk0
    exact fun i hi => by omega
  · intro i hi x hx
    refine (hasDerivAt_derivFun (supportedOrder_mono hk hi) ?_).hasDerivWithinAt
    cases n with
    | log => exact (show 0 < a from ok).trans_le (hsub hx).1
    | abs =>
      rcases habs rfl with h | h | h
      · exact absurd h hk0
      · exact (h.trans_le (hsub hx).1).ne'
      · exact ((hsub hx).2.trans_lt h).ne
    | _ => exact mem_univ _

theorem scalarLipschitz_pow (p : Expo ℝ) :
    ScalarLipschitz (fun x0 a b d => powEnclosure (fun x p : ℝ => x ^ p) p x0 a b d) (PowSmooth p) := by
  intro x0 a b k h1 h2 ⟨ok, hf⟩
  have hok : ∀ x ∈ Icc a b, powOk p x := by
    intro x hx
    cases p with
    | frac q => exact (hf q rfl).trans_le hx.1
    | int n =>
      rcases ok.1 with h | h | h
      · exact Or.inr (h.trans_le hx.1).ne'
      · exact Or.inr (hx.2.trans_lt h).ne
      · exact Or.inl h.1
  obtain ⟨C, c0, hC⟩ : ∃ C : ℝ, 0 ≤ C ∧ ∀ x ∈ Icc a b, ∀ y ∈ Icc a b, powD p k x - powD p k y ≤ C * |x - y| := by
    have hcont : ContinuousOn (fun x => |powD p (k + 1) x|) (Icc a b) := fun x hx =>
      ((hasDerivAt_powD (hok x hx) (k + 1)).continuousAt.abs).continuousWithinAt
    obtain ⟨z, hz, hmax⟩ := isCompact_Icc.exists_isMaxOn ⟨x0, h1, h2⟩ hcont
    refine ⟨|powD p (k + 1) z|, abs_nonneg _, fun x hx y hy => ?_⟩
    have := (convex_Icc a b).norm_image_sub_le_of_norm_hasDerivWithin_le
      (f := powD p k) (f' := powD p (k + 1)) (C := |powD p (k + 1) z|)
      (fun x hx => (hasDerivAt_powD (hok x hx) k).hasDerivWithinAt) (fun x hx => hmax hx) hy hx
    exact (le_abs_self _).trans this
  refine ⟨C, c0, fun x0' a' b' s' g1 g2 g3 g4 _ ok' e => ?_⟩
  have hsub : Icc a' b' ⊆ Icc a b := Icc_subset_Icc g1 g4
  have hx0 : x0' ∈ Icc a' b' := ⟨g2, g3⟩
  have hab : a' ≤ b' := g2.trans g3
  obtain ⟨i, -, r⟩ := pow_mono hx0 ok'.1.1 ok'.1.2
  simp only at e
  rw [r] at e
  cases e
  have hch : Chain (powD p) k (Icc a' b') := powChain (fun x hx => hok x (hsub hx)) k
  have hw := @capRho_width (powD p) k a' b' x0' C hch c0 hx0 fun x hx y hy => hC x (hsub hx) y (hsub hy)
  have ia : a' ∈ Icc a' b' := ⟨le_rfl, hab⟩
  have ib : b' ∈ Icc a' b' := ⟨hab, le_rfl⟩
  cases i
  · exact hw ia ib
  · exact hw ib ia

theorem isotone_weaken {g : ℝ → ℝ → ℝ → ℕ → Py (SEncl ℝ)} {ok ok' : ℝ → ℝ → ℝ → ℕ → Prop} (h : ScalarIsotone g ok)
    (hw : ∀ x a b k, ok' x a b k → ok x a b k) : ScalarIsotone g ok' :=
  fun _ _ _ _ _ _ _ _ _ a1 a2 a3 a4 a5 a6 a7 a8 a9 => h _ _ _ _ _ _ _ _ _ a1 a2 a3 a4 a5 a6 a7 (hw _ _ _ _ a8)
    (hw _ _ _ _ a9)

namespace JB

theorem smoothLib_gen {P : TEA.Generator ℝ → Prop}
    (h1 : ∀ n, P (guardGen (BuiltinSmooth n) (elementwiseGen ⟨n, 0⟩)))
    (h2 : ∀ p, P (guardGen (PowSmooth p) (powGen (fun x p : ℝ => x ^ p) p))) :
    ∀ n g, smoothLib.gen n = some g → P g := by
  intro n g h
  simp only [smoothLib] at h
  cases hn : builtinName n with
  | some b =>
    simp only [hn, Option.some.injEq] at h
    subst h
    exact h1 b
  | none =>
    simp only [hn] at h
    cases hq : rootExponent n with
    | none => rw [hq] at h; cases h
    | some q =>
      rw [hq] at h
      cases h
      exact h2 (.frac q)

theorem smoothLib_isotone : LibIsotone smoothLib where
  gen := smoothLib_gen (fun n => isotone_lift (isotone_weaken (scalarIsotone_builtin n) fun _ _ _ _ h => h.1))
    fun p => isotone_lift (isotone_weaken (scalarIsotone_pow p) fun _ _ _ _ h => h.1)
  pow p := isotone_lift (isotone_weaken (scalarIsotone_pow p) fun _ _ _ _ h => h.1)

theorem smoothLib_lipschitz : LibLipschitz smoothLib where
  gen := smoothLib_gen (fun n => lipschitz_lift (scalarLipschitz_builtin n)) fun p => lipschitz_lift (scalarLipschitz_pow p)
  pow p := lipschitz_lift (scalarLipschitz_pow p)

theorem smoothLib_le : LibLe smoothLib realLib where
  sem := rfl
  expo := rfl
  gen n := by
    cases hn : builtinName n with
    | some b =>
      exact Or.inr ⟨_, _, by simp only [smoothLib, hn]; rfl, by simp only [realLib, realGen, hn], genLe_guard⟩
    | none =>
      cases hq : rootExponent n with
      | none => exact Or.inl ⟨by simp only [smoothLib, hn, hq]; rfl, by simp only [realLib, realGen, hn, hq]; rfl⟩
      | some q =>
        exact Or.inr ⟨_, _, by simp only [smoothLib, hn, hq]; rfl, by simp only [realLib, realGen, hn, hq]; rfl, genLe_guard⟩
  pow p := genLe_guard

theorem smoothLib_arr : LibArr smoothLib where
  gen := smoothLib_gen (fun _ => arrGen_guard (arrGen_lift _ _)) fun _ => arrGen_guard (arrGen_lift _ _)
  pow _ := arrGen_guard (arrGen_lift _ _)

end JB
end AB
