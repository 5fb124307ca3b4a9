/-
C67, C68: safe learning rates and the SafeRate optimizer (/repo/autobound/notebooks/safe_learning_rates.ipynb).
-/
import Verif.Proofs.Notebooks
import Verif.Props.Descent

set_option linter.unusedSectionVars false

namespace AB
namespace NB
variable {K : Type} [Field K] [LinearOrder K] [IsStrictOrderedRing K]
open JB

/-- **C67.** For all `c1`, `c2` and `a ≤ b`, `minimize_1d_quadratic(c1, c2, (a, b))` is a point of `[a, b]` at which
`c1*x + c2*x**2` is smallest over `[a, b]`. -/
theorem C67_minimize_1d_quadratic (c1 c2 : K) {a b : K} (hab : a ≤ b) :
    a ≤ minimize1dQuadratic c1 c2 a b ∧ minimize1dQuadratic c1 c2 a b ≤ b ∧
    ∀ x, a ≤ x → x ≤ b → c1 * minimize1dQuadratic c1 c2 a b + c2 * minimize1dQuadratic c1 c2 a b ^ 2 ≤
      c1 * x + c2 * x ^ 2 := by
  unfold minimize1dQuadratic
  dsimp only
  rcases lt_trichotomy c2 0 with h2 | h2 | h2
  · rw [if_neg h2.ne, if_neg (not_lt.2 h2.le)]
    have key : ∀ x, a ≤ x → x ≤ b → min (c1 * a + c2 * a ^ 2) (c1 * b + c2 * b ^ 2) ≤ c1 * x + c2 * x ^ 2 := by
      intro x h3 h4
      by_contra hc
      rw [not_le, lt_min_iff] at hc
      -- `x` strictly between, and the chord through `a`, `b` is below
      have e1 : 0 < (x - a) * (-(c1 + c2 * (x + a))) := by nlinarith [hc.1]
      have e2 : 0 < (b - x) * (c1 + c2 * (b + x)) := by nlinarith [hc.2]
      have p1 : 0 < -(c1 + c2 * (x + a)) := by
        by_contra hn
        nlinarith [mul_nonneg (sub_nonneg.2 h3) (neg_nonneg.2 (not_lt.1 hn))]
      have p2 : 0 < c1 + c2 * (b + x) := by
        by_contra hn
        nlinarith [mul_nonneg (sub_nonneg.2 h4) (neg_nonneg.2 (not_lt.1 hn))]
      nlinarith [mul_nonneg (neg_nonneg.2 h2.le) (sub_nonneg.2 hab)]
    split_ifs with hq
    · refine ⟨le_rfl, hab, fun x h3 h4 => ?_⟩
      have := key x h3 h4
      rwa [min_eq_left hq.le] at this
    · refine ⟨hab, le_rfl, fun x h3 h4 => ?_⟩
      have := key x h3 h4
      rwa [min_eq_right (not_lt.1 hq)] at this
  · subst h2
    rw [if_pos rfl]
    rcases lt_trichotomy c1 0 with h1 | h1 | h1
    · rw [if_neg h1.ne, if_neg (not_lt.2 h1.le), if_pos h1]
      simp only [zero_mul, one_mul, zero_add, add_zero]
      exact ⟨hab, le_rfl, fun x _ h4 => by nlinarith⟩
    · subst h1
      rw [if_pos rfl, if_neg (lt_irrefl _)]
      simp only [zero_mul, one_mul, add_zero]
      exact ⟨le_min hab (le_max_left _ _), min_le_left _ _, fun x _ _ => le_rfl⟩
    · rw [if_neg h1.ne', if_pos h1, if_neg (not_lt.2 h1.le)]
      simp only [zero_mul, one_mul, zero_add, add_zero]
      exact ⟨le_rfl, hab, fun x h3 _ => by nlinarith⟩
  · rw [if_neg h2.ne', if_pos h2]
    refine ⟨le_min hab (le_max_left _ _), min_le_left _ _, fun x h3 h4 => ?_⟩
    have hv : c1 = -(2 * c2 * (-c1 / (2 * c2))) := by field_simp
    generalize -c1 / (2 * c2) = v at hv
    subst hv
    have sq : ∀ t : K, -(2 * c2 * v) * t + c2 * t ^ 2 = c2 * (t - v) ^ 2 - c2 * v ^ 2 := fun t => by ring
    rw [sq, sq]
    have : (min b (max a v) - v) ^ 2 ≤ (x - v) ^ 2 := by
      rcases le_total a v with hav | hav
      · rw [max_eq_right hav]
        rcases le_total b v with hbv | hbv
        · rw [min_eq_left hbv]; nlinarith
        · rw [min_eq_right hbv]; nlinarith [sq_nonneg (x - v)]
      · rw [max_eq_left hav, min_eq_right hab]; nlinarith
    nlinarith

/-! ### safe_learning_rate -/

/-- The traced program of `next_loss` computes `eta ↦ loss(x + eta * update_dir)` on `[0, max_learning_rate]`. -/
def Traces {X : Type} [AddCommGroup X] [Module K X] (sem : Sem K) (loss : TracedLoss K X) (F : X → K) (x v : X) (m : K) :
    Prop :=
  Computes sem (loss.jaxpr x v) (loss.consts x v) (fun eta => F (x + eta • v)) 0 m

variable {X : Type} [AddCommGroup X] [Module K X] {lib : Lib K} {sem : Sem K} {loss : TracedLoss K X} {F : X → K}

/-- what `safe_learning_rate` computes -/
theorem safe_inv {x v : X} {m eta : K} (h : safeLearningRate lib loss x v m = .ok eta) :
    ∃ bnd c0 c1 c2, boundLoss lib loss x v m = .ok bnd ∧ bnd.coefficients[0]? = some c0 ∧
      bnd.coefficients[1]? = some (.arr c1) ∧ 2 < bnd.coefficients.length ∧
      bnd.coefficients.getLast? = some c2 ∧ c1.shape = [] ∧ (TEA.toInterval c2).2.shape = [] ∧
      eta = minimize1dQuadratic (c1.get []) (hi0 c2) 0 m := by
  unfold safeLearningRate at h
  rw [py_bind_ok] at h
  obtain ⟨bnd, hb, h⟩ := h
  by_cases hlen : bnd.coefficients.length < 3
  · rw [if_pos hlen] at h; cases h
  rw [if_neg hlen] at h
  rw [py_bind_ok] at h
  obtain ⟨fi, hfi, h⟩ := h
  unfold Bounds.finalInterval at hfi
  cases hl : bnd.coefficients.getLast? with
  | none => rw [hl] at hfi; cases hfi
  | some c2 =>
    rw [hl] at hfi
    cases hfi
    split at h
    · rename_i c1 hc1
      by_cases hs : c1.shape = [] ∧ (TEA.toInterval c2).2.shape = []
      · dsimp only at h
        rw [if_pos hs] at h
        cases h
        exact ⟨bnd, _, c1, c2, hb, List.getElem?_eq_getElem (by omega), hc1, by omega, hl, hs.1, hs.2, rfl⟩
      · dsimp only at h
        rw [if_neg hs] at h; cases h
    · cases h

/-- `upper(eta)` is the quadratic that `safe_learning_rate` minimizes -/
theorem safe_upper (hlib : LibSound lib sem) (harr : LibArr lib) {x v : X} {m : K}
    (hF : Traces sem loss F x v m) {bnd : Bounds K} (hb : boundLoss lib loss x v m = .ok bnd)
    {c0 c2 : Coef K} {c1 : ND K} (h0 : bnd.coefficients[0]? = some c0) (h1 : bnd.coefficients[1]? = some (.arr c1))
    (hlen : 2 < bnd.coefficients.length) (h2 : bnd.coefficients.getLast? = some c2) {eta : K} (he : 0 ≤ eta)
    (hem : eta ≤ m) :
    F (x + eta • v) ≤ hi0 c0 + (c1.get [] * eta + hi0 c2 * eta ^ 2) ∧ F x = hi0 c0 ∧
      ∃ u, bnd.upper (ND.scalar eta) = .ok u ∧ u.get [] = hi0 c0 + (c1.get [] * eta + hi0 c2 * eta ^ 2) := by
  have hlen3 : bnd.coefficients.length = 3 := by
    obtain ⟨_, _, -, -, -, -, -, -, hl, -⟩ := computes_sound (x0 := 0) (x := 0) hlib hF ⟨le_rfl, he.trans hem⟩
      ⟨le_rfl, he.trans hem⟩ hb
    have : (2 : ℤ).toNat = 2 := rfl
    omega
  have hE : bnd.coefficients = [c0, .arr c1, c2] := by
    match hc : bnd.coefficients, hlen3 with
    | [x, y, z], _ =>
      rw [hc] at h0 h1 h2
      cases h0; cases h1; cases h2; rfl
  have poly : ∀ t, evalAt (bnd.coefficients.map hi0) t = hi0 c0 + (c1.get [] * t + hi0 c2 * t ^ 2) := by
    intro t
    rw [hE]
    simp only [evalAt, List.map_cons, List.map_nil, List.length_cons, List.length_nil, Finset.sum_range_succ,
      Finset.sum_range_zero, List.getD_cons_zero, List.getD_cons_succ]
    simp only [pow_zero, mul_one, pow_one, zero_add]
    rw [show hi0 (.arr c1) = c1.get [] from rfl]
    ring
  have at_ : ∀ t, 0 ≤ t → t ≤ m → F (x + t • v) ≤ evalAt (bnd.coefficients.map hi0) t ∧
      ∃ u, bnd.upper (ND.scalar t) = .ok u ∧ u.get [] = evalAt (bnd.coefficients.map hi0) t := by
    intro t ht htm
    obtain ⟨z, y, hz, hzv, hy, hyv, hbx, hmap, hl, hs⟩ := computes_sound (x0 := 0) (x := t) hlib hF
      ⟨le_rfl, ht.trans htm⟩ ⟨ht, htm⟩ hb
    obtain ⟨r, hr, -, -, e2, -, k2⟩ := scalar_poly_bounds hs hz hy
      (fun i c _ => Or.inr (by rw [hzv, sub_zero]; exact pow_nonneg ht i))
    rw [hzv, sub_zero] at e2 k2
    rw [hyv] at k2
    refine ⟨k2, (TEA.toInterval r).2, ?_, e2.symm⟩
    simp only [Bounds.upper, Bounds.call, hbx, hmap, py_ok_bind, hr]
    rfl
  have hF0 : F x = hi0 c0 := by
    obtain ⟨z, y, hz, hzv, hy, hyv, hbx, hmap, hl, hs⟩ := computes_sound (x0 := 0) (x := 0) hlib hF
      ⟨le_rfl, he.trans hem⟩ ⟨le_rfl, he.trans hem⟩ hb
    obtain ⟨r, hr, -, -, -, k1, k2⟩ := scalar_poly_bounds hs hz hy
      (fun i c _ => Or.inr (by rw [hzv, sub_zero]; exact pow_nonneg le_rfl i))
    rw [hzv, sub_zero, hyv] at k1 k2
    have e0 : x + (0 : K) • v = x := by rw [zero_smul, add_zero]
    simp only [e0] at k1 k2
    have ha := coefficients_arr harr hb 0 c0 h0 (by decide)
    have el : lo0 c0 = hi0 c0 := by
      cases c0 with
      | arr a => rfl
      | ivl l u => exact absurd ha id
    rw [poly] at k2
    have k1' : lo0 c0 ≤ F x := by
      refine le_trans (le_of_eq ?_) k1
      rw [hE]
      simp only [evalAt, List.map_cons, List.map_nil, List.length_cons, List.length_nil, Finset.sum_range_succ,
        Finset.sum_range_zero, List.getD_cons_zero, List.getD_cons_succ]
      simp
    rw [el] at k1'
    exact le_antisymm (by simpa using k2) k1'
  obtain ⟨k, u, hu, hu'⟩ := at_ eta he hem
  rw [poly] at k hu'
  exact ⟨k, hF0, u, hu, hu'⟩

/-- **C68 (safe learning rate).** If `safe_learning_rate(loss, x, update_dir, max_learning_rate)` returns `eta`, then
`0 ≤ eta ≤ max_learning_rate`, the quadratic upper bound on the loss is smallest at `eta` over `[0, max_learning_rate]`,
and `loss(x + eta*update_dir) ≤ loss(x)`: the step does not increase the loss, whatever the loss and the direction. -/
theorem C68_safe_learning_rate (hlib : LibSound lib sem) (harr : LibArr lib) {x v : X} {m eta : K} (hm : 0 ≤ m)
    (hF : Traces sem loss F x v m) (h : safeLearningRate lib loss x v m = .ok eta) :
    0 ≤ eta ∧ eta ≤ m ∧ F (x + eta • v) ≤ F x ∧
    ∃ bnd u, boundLoss lib loss x v m = .ok bnd ∧ bnd.upper (ND.scalar eta) = .ok u ∧ F (x + eta • v) ≤ u.get [] ∧
      ∀ t, 0 ≤ t → t ≤ m → ∃ ut, bnd.upper (ND.scalar t) = .ok ut ∧ u.get [] ≤ ut.get [] := by
  obtain ⟨bnd, c0, c1, c2, hb, h0, h1, hlen, h2, -, -, rfl⟩ := safe_inv h
  obtain ⟨q1, q2, q3⟩ := C67_minimize_1d_quadratic (c1.get []) (hi0 c2) hm
  obtain ⟨k1, k2, u, hu, hu'⟩ := safe_upper hlib harr hF hb h0 h1 hlen h2 q1 q2
  have hz := q3 0 le_rfl hm
  refine ⟨q1, q2, ?_, bnd, u, hb, hu, by rw [hu']; exact k1, fun t ht htm => ?_⟩
  · rw [k2]
    refine k1.trans ?_
    have : c1.get [] * 0 + hi0 c2 * 0 ^ 2 = 0 := by ring
    linarith
  · obtain ⟨-, -, ut, hut, hut'⟩ := safe_upper hlib harr hF hb h0 h1 hlen h2 ht htm
    exact ⟨ut, hut, by rw [hu', hut']; linarith [q3 t ht htm]⟩

/-- **C68 (quadratic losses).** If the loss is, along the direction, certified to be a polynomial of degree at most 2,
then the safe learning rate is a best one: no learning rate in `[0, max_learning_rate]` gives a smaller loss. -/
theorem C68_quadratic (hlib : LibSound lib sem) (harr : LibArr lib) {x v : X} {m eta : K} (hm : 0 ≤ m)
    (hF : Traces sem loss F x v m) {deg : ℤ → ℕ} (hpoly : PolyProgram deg 2 (loss.jaxpr x v))
    (h : safeLearningRate lib loss x v m = .ok eta) :
    ∀ t, 0 ≤ t → t ≤ m → F (x + eta • v) ≤ F (x + t • v) := by
  obtain ⟨q1, q2, -, bnd, u, hb, hu, hFu, hmin⟩ := C68_safe_learning_rate hlib harr hm hF h
  intro t ht htm
  obtain ⟨ut, hut, hle⟩ := hmin t ht htm
  obtain ⟨v0, y0, ev0, n0, -, -, -⟩ := hF.eval 0 le_rfl hm
  obtain ⟨vt, yt, evt, nt, hyt, hys, hyv⟩ := hF.eval t ht htm
  obtain ⟨l', u', hl', hu', s1, s2⟩ := C63_polynomial_exact hlib (maxDegree := 2) hpoly (lo := ND.scalar 0)
    (hi := ND.scalar m) (x0 := ND.scalar 0) (x := ND.scalar t) rfl ⟨rfl, fun _ _ => ⟨le_rfl, hm⟩⟩ rfl hb
    (hF.fits 0 le_rfl hm) ev0 n0 evt nt hyt
  rw [hut] at hu'
  cases hu'
  have := s2.2 [] (by rw [s2.1, hys]; exact .nil)
  rw [← hyv, ← this]
  exact hFu.trans hle

/-! ### The SafeRate optimizer -/

/-- **C68 (maximum learning rate).** The next maximum learning rate is half or twice the current one: half exactly if
the safe learning rate is less than half of it. -/
theorem C68_next_max_eta (eta m : K) : nextMaxEta (some eta) m = if eta < m / 2 then m / 2 else m * 2 := by
  unfold nextMaxEta
  simp

/-- **C68 (NaN).** The comment "If safe_eta is NaN, we cut the learning rate in half" is wrong about the code: the test
`safe_eta > safe_eta` is false for NaN, so the maximum learning rate is doubled. -/
theorem C68_nan_doubles (m : K) : nextMaxEta none m = m * 2 := rfl

/-- The traced programs compute the loss, for every state and every maximum learning rate. -/
def TracesAll (sem : Sem K) (loss : TracedLoss K X) (F : X → K) (dir : X → X) : Prop :=
  ∀ x m, 0 < m → Traces sem loss F x (dir x) m

theorem next_pos (eta : Option K) {m : K} (hm : 0 < m) : 0 < nextMaxEta eta m := by
  unfold nextMaxEta
  dsimp only
  split_ifs
  · linarith
  · linarith

/-- **C68 (one step of the optimizer).** -/
theorem C68_update (hlib : LibSound lib sem) (harr : LibArr lib) {dir : X → X} (hF : TracesAll sem loss F dir)
    {s s' : State K X} (hm : 0 < s.maxEta) (h : updateState lib loss dir s = .ok s') :
    F s'.x ≤ F s.x ∧ 0 ≤ s'.eta ∧ s'.eta ≤ s.maxEta ∧ s'.x = s.x + s'.eta • dir s.x ∧ 0 < s'.maxEta ∧
      (s'.maxEta = s.maxEta / 2 ∨ s'.maxEta = s.maxEta * 2) := by
  simp only [updateState, py_bind_ok, py_pure] at h
  obtain ⟨eta, he, rfl⟩ := h
  obtain ⟨h1, h2, h3, -⟩ := C68_safe_learning_rate hlib harr hm.le (hF s.x s.maxEta hm) he
  refine ⟨h3, h1, h2, rfl, next_pos (some eta) hm, ?_⟩
  show nextMaxEta (some eta) s.maxEta = s.maxEta / 2 ∨ nextMaxEta (some eta) s.maxEta = s.maxEta * 2
  rw [C68_next_max_eta]
  split_ifs
  · exact Or.inl rfl
  · exact Or.inr rfl

/-- **C68 (the optimizer).** However many steps the optimizer takes from any starting point with a positive initial
maximum learning rate: the loss never increases from one step to a later one, and the maximum learning rate stays
positive and is the initial one times a power of two. -/
theorem C68_optimizer (hlib : LibSound lib sem) (harr : LibArr lib) {dir : X → X} (hF : TracesAll sem loss F dir)
    {x0 : X} {m0 : K} (hm : 0 < m0) : ∀ (k n : ℕ) {s s' : State K X},
    runOptimizer lib loss dir k (initState x0 m0) = .ok s → runOptimizer lib loss dir (k + n) (initState x0 m0) = .ok s' →
    F s'.x ≤ F s.x ∧ 0 < s.maxEta ∧ ∃ j : ℤ, s.maxEta = m0 * 2 ^ j := by
  have pos : ∀ (k : ℕ) {s : State K X}, runOptimizer lib loss dir k (initState x0 m0) = .ok s →
      0 < s.maxEta ∧ ∃ j : ℤ, s.maxEta = m0 * 2 ^ j := by
    intro k
    induction k with
    | zero => intro s h; cases h; exact ⟨hm, 0, by simp [initState]⟩
    | succ k ih =>
      intro s h
      simp only [runOptimizer, py_bind_ok] at h
      obtain ⟨t, ht, h⟩ := h
      obtain ⟨p, j, hj⟩ := ih ht
      obtain ⟨-, -, -, -, p', hd⟩ := C68_update hlib harr hF p h
      refine ⟨p', ?_⟩
      rcases hd with hd | hd
      · exact ⟨j - 1, by rw [hd, hj, zpow_sub₀ two_ne_zero, zpow_one]; ring⟩
      · exact ⟨j + 1, by rw [hd, hj, zpow_add₀ two_ne_zero, zpow_one]; ring⟩
  intro k n
  induction n with
  | zero => intro s s' h h'; rw [Nat.add_zero, h] at h'; cases h'; exact ⟨le_rfl, pos k h⟩
  | succ n ih =>
    intro s s' h h'
    rw [← Nat.add_assoc] at h'
    simp only [runOptimizer, py_bind_ok] at h'
    obtain ⟨t, ht, h'⟩ := h'
    obtain ⟨q, p⟩ := ih h ht
    exact ⟨(C68_update hlib harr hF (pos _ ht).1 h').1.trans q, p⟩

end NB
end AB
