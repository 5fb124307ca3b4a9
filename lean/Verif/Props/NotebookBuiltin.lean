/-
C87: the programs of the notebooks (/repo/autobound/notebooks) with the code's own tables.
-/
import Verif.Props.Fat
import Verif.Props.NotebookEx
import Verif.Props.SafeTotal
import Verif.Props.Gap
import Verif.Props.Descent
import Verif.Props.Integral

set_option linter.unusedSectionVars false

namespace AB
namespace NB
open JB MeasureTheory

section Le
variable {K : Type} [Field K] [LinearOrder K] {lib lib' : Lib K} {jaxpr : Jaxpr K} {consts : List (ND K)}

/-- more defined tables: the notebooks' functions return the same where they returned before -/
theorem okLe_v0 (h : ∀ (jaxpr : Jaxpr K) (consts : List (ND K)) (d : ℤ) (p : Bool) (x0 lo hi : ND K),
      OkLe (taylorBounds lib jaxpr consts d p x0 lo hi) (taylorBounds lib' jaxpr consts d p x0 lo hi)) (a b : K) (degree : ℤ) :
    OkLe (integralBoundV0 lib jaxpr consts a b degree) (integralBoundV0 lib' jaxpr consts a b degree) := by
  unfold integralBoundV0
  split
  · exact OkLe.refl _
  · exact (h _ _ _ _ _ _ _).bind fun _ => OkLe.refl _

theorem okLe_v1 (h : ∀ (jaxpr : Jaxpr K) (consts : List (ND K)) (d : ℤ) (p : Bool) (x0 lo hi : ND K),
      OkLe (taylorBounds lib jaxpr consts d p x0 lo hi) (taylorBounds lib' jaxpr consts d p x0 lo hi)) (a b : K) (degree : ℤ)
    (n : ℕ) :
    OkLe (integralBoundV1 lib jaxpr consts a b degree n) (integralBoundV1 lib' jaxpr consts a b degree n) := by
  unfold integralBoundV1
  split
  · exact OkLe.refl _
  · exact OkLe.foldlM (fun acc i _ => (okLe_v0 h _ _ _).bind fun _ => OkLe.refl _) _

variable {X : Type}

theorem okLe_safeLearningRate (h : ∀ (jaxpr : Jaxpr K) (consts : List (ND K)) (d : ℤ) (p : Bool) (x0 lo hi : ND K),
      OkLe (taylorBounds lib jaxpr consts d p x0 lo hi) (taylorBounds lib' jaxpr consts d p x0 lo hi)) (loss : TracedLoss K X)
    (x v : X) (m : K) : OkLe (safeLearningRate lib loss x v m) (safeLearningRate lib' loss x v m) :=
  (h _ _ _ _ _ _ _).bind fun _ => OkLe.refl _

theorem okLe_runOptimizer [AddCommGroup X] [Module K X]
    (h : ∀ (jaxpr : Jaxpr K) (consts : List (ND K)) (d : ℤ) (p : Bool) (x0 lo hi : ND K),
      OkLe (taylorBounds lib jaxpr consts d p x0 lo hi) (taylorBounds lib' jaxpr consts d p x0 lo hi)) (loss : TracedLoss K X)
    (dir : X → X) : ∀ (n : ℕ) (s : State K X), OkLe (runOptimizer lib loss dir n s) (runOptimizer lib' loss dir n s)
  | 0, _ => OkLe.refl _
  | n + 1, s => (okLe_runOptimizer h loss dir n s).bind fun _ => (okLe_safeLearningRate h _ _ _ _).bind fun _ => OkLe.refl _

end Le

theorem real_le (jaxpr : Jaxpr ℝ) (consts : List (ND ℝ)) (d : ℤ) (p : Bool) (x0 lo hi : ND ℝ) :
    OkLe (taylorBounds safeLib jaxpr consts d p x0 lo hi) (taylorBounds realLib jaxpr consts d p x0 lo hi) :=
  okLe_taylorBounds safeLib_le _ _ _ _ _ _ _

variable {jaxpr : Jaxpr ℝ} {consts : List (ND ℝ)} {f : ℝ → ℝ} {a b : ℝ} {degree : ℤ}

/-! ### bounding_integrals.ipynb -/

/-- **C87 (integrals, whatever the program).** If the run with the guarded tables returns `(l, u)`, so does the notebook's
function with the code's own tables, and `l ≤ ∫ f ≤ u`. -/
theorem C87_integral_guarded (hab : a ≤ b) (hf : Computes realSem jaxpr consts f a b)
    (hint : IntervalIntegrable f volume a b) {n : ℕ} {l u : ℝ}
    (h : integralBoundV1 safeLib jaxpr consts a b degree n = .ok (l, u)) :
    integralBoundV1 realLib jaxpr consts a b degree n = .ok (l, u) ∧ l ≤ ∫ x in a..b, f x ∧ ∫ x in a..b, f x ≤ u :=
  ⟨okLe_v1 real_le _ _ _ _ _ h, C66_v1 safeLib_sound safeLib_arr hab hf hint h⟩

/-- one region, with conditions on the values of `f` only -/
theorem v0_ok (hab : a ≤ b) (hd : 0 ≤ degree) (heven : degree % 2 = 0) (hf : Computes realSem jaxpr consts f a b)
    (hwf : WellFormedProgram jaxpr consts)
    (hret : ProgramReturns tableLib realSem jaxpr consts degree false (ND.scalar ((a + b) / 2)))
    {η : ℝ} (hη : 0 ≤ η) (hηd : 1 / 10 ^ 12 ≤ η ^ degree.toNat)
    (hfat : FatArgs realSem jaxpr consts degree (ND.scalar ((a + b) / 2)) (ND.scalar a) (ND.scalar b) η) :
    ∃ l u, integralBoundV0 safeLib jaxpr consts a b degree = .ok (l, u) := by
  have h0 : a ≤ (a + b) / 2 ∧ (a + b) / 2 ≤ b := ⟨by linarith, by linarith⟩
  have hlh : (ND.scalar a).shape = (ND.scalar b).shape := rfl
  have hmem : (Coef.ivl (ND.scalar a) (ND.scalar b)).Contains (ND.scalar ((a + b) / 2)) := ⟨rfl, fun _ _ => h0⟩
  have hfit := hf.fits _ h0.1 h0.2
  obtain ⟨vals, y0, hev, hne, hy, -, -⟩ := hf.eval _ h0.1 h0.2
  have hok := taylorBoundsOk_of_fits_at hd (propagate := false) (tableLib_at_ref _) hlh hmem hfit hev hne
  have hr := taylorBoundsReturns_of_at tableLib_arr tableLib_full hd (tableLib_at_ref _) hlh hmem hfit hret hev hne
  obtain ⟨bnd, hb⟩ := returns_at tableLib_arr hd (tableLib_at_ref _) hlh (by simp [ND.scalar]) hmem hmem hwf
    (fun h => by cases h) hok hr hev hne hy
  have hs : taylorBounds safeLib jaxpr consts degree false (ND.scalar ((a + b) / 2)) (ND.scalar a) (ND.scalar b) = .ok bnd := by
    unfold taylorBounds at hb ⊢
    rw [py_bind_ok] at hb ⊢
    obtain ⟨env, he, hb⟩ := hb
    exact ⟨env, safe_of_fat hlh hmem hfit hη hηd hfat hev hne jaxpr.eqns [] (List.append_nil _).symm env he, hb⟩
  exact (C66_returns safeLib_sound hab hf).2 heven ⟨bnd, hs⟩

/-- **C87 (integrals, existence).** Let `degree` be even, the Jaxpr well formed and made of primitives with always defined
tables (`ProgramReturns`), and let `1e-12 ≤ η ^ degree`.  If in every grid cell the arguments of the element-wise
functions, the denominators and the bases of powers take values at distance at least `η` from those at the middle of the
cell, on both sides, then `integral_bound_v1(f, a, b, degree, n)` returns, with the code's own tables, a lower and an upper
bound on the integral, for every number `n > 0` of cells (`n = 1` is `integral_bound_v0`). -/
theorem C87_integral (hab : a ≤ b) (hd : 0 ≤ degree) (heven : degree % 2 = 0)
    (hf : Computes realSem jaxpr consts f a b) (hint : IntervalIntegrable f volume a b)
    (hwf : WellFormedProgram jaxpr consts) {n : ℕ} (hn : n ≠ 0) {η : ℝ} (hη : 0 ≤ η) (hηd : 1 / 10 ^ 12 ≤ η ^ degree.toNat)
    (hcell : ∀ i < n, ∀ s t m : ℝ, s = a + (b - a) / n * i → t = s + (b - a) / n → m = (s + t) / 2 →
      ProgramReturns tableLib realSem jaxpr consts degree false (ND.scalar m) ∧
      FatArgs realSem jaxpr consts degree (ND.scalar m) (ND.scalar s) (ND.scalar t) η) :
    ∃ l u, integralBoundV1 realLib jaxpr consts a b degree n = .ok (l, u) ∧
      l ≤ ∫ x in a..b, f x ∧ ∫ x in a..b, f x ≤ u := by
  have step : ∀ i < n, ∃ l u, integralBoundV0 safeLib jaxpr consts (a + (b - a) / n * i) (a + (b - a) / n * i + (b - a) / n)
      degree = .ok (l, u) := by
    intro i hi
    obtain ⟨c1, c2, c3⟩ := cell hn hab hi
    obtain ⟨h1, h2⟩ := hcell i hi _ _ _ rfl rfl rfl
    exact v0_ok c2 hd heven (hf.sub c1 c3) hwf h1 hη hηd h2
  have run : ∀ k ≤ n, ∃ r, (List.range k).foldlM (v1Step safeLib jaxpr consts a ((b - a) / n) degree) (0, 0) = .ok r := by
    intro k
    induction k with
    | zero => exact fun _ => ⟨_, rfl⟩
    | succ k ih =>
      intro hk
      obtain ⟨r, hr⟩ := ih (by omega)
      obtain ⟨l, u, hlu⟩ := step k (by omega)
      refine ⟨(r.1 + l, r.2 + u), ?_⟩
      rw [List.range_succ, List.foldlM_append, hr, py_ok_bind, List.foldlM_cons]
      simp only [v1Step, hlu, py_ok_bind, List.foldlM_nil]
      rfl
  obtain ⟨r, hr⟩ := run n le_rfl
  have h : integralBoundV1 safeLib jaxpr consts a b degree n = .ok (r.1, r.2) := by
    unfold integralBoundV1
    rw [if_neg hn]
    exact hr
  exact ⟨r.1, r.2, C87_integral_guarded hab hf hint h⟩

theorem exQuick_computes (α β γ a b : ℝ) :
    Computes realSem (exQuick α β γ) [] (fun x => α * Real.exp (β * x) - γ * x ^ 2) a b where
  eval := fun x _ _ => by
    obtain ⟨vals, h1, h2, y, h3, h4, h5⟩ := exQuick_eval α β γ x
    exact ⟨vals, y, h1, h2, h3, h4, h5⟩
  fits := fun x _ _ => exQuick_fits α β γ x

/-- **C87 (a transcendental integrand).** `f(x) = α exp(β x) - γ x²` with `β > 0`, over `[a, b]`, every even degree and every
number `n` of cells that are not too narrow: the notebook's function returns bounds on `∫ f`, which is
`α (exp(β b) - exp(β a)) / β - γ (b³ - a³) / 3`. -/
theorem C87_quickstart (α β γ a b η : ℝ) (hβ : 0 < β) (hab : a ≤ b) (hd : 0 ≤ degree) (heven : degree % 2 = 0) {n : ℕ}
    (hn : n ≠ 0) (hη : 0 ≤ η) (hηd : 1 / 10 ^ 12 ≤ η ^ degree.toNat) (hw : η ≤ β * ((b - a) / n / 2)) :
    ∃ l u, integralBoundV1 realLib (exQuick α β γ) [] a b degree n = .ok (l, u) ∧
      l ≤ α * ((Real.exp (β * b) - Real.exp (β * a)) / β) - γ * ((b ^ 3 - a ^ 3) / 3) ∧
      α * ((Real.exp (β * b) - Real.exp (β * a)) / β) - γ * ((b ^ 3 - a ^ 3) / 3) ≤ u := by
  have hc : Continuous fun x => α * Real.exp (β * x) - γ * x ^ 2 := by fun_prop
  have e : ∫ x in a..b, (α * Real.exp (β * x) - γ * x ^ 2) =
      α * ((Real.exp (β * b) - Real.exp (β * a)) / β) - γ * ((b ^ 3 - a ^ 3) / 3) := by
    rw [intervalIntegral.integral_sub ((by fun_prop : Continuous fun x => α * Real.exp (β * x)).intervalIntegrable a b)
      ((by fun_prop : Continuous fun x : ℝ => γ * x ^ 2).intervalIntegrable a b),
      intervalIntegral.integral_const_mul, intervalIntegral.integral_const_mul, integral_pow,
      intervalIntegral.integral_comp_mul_left (fun x => Real.exp x) hβ.ne', integral_exp, smul_eq_mul]
    norm_num
    left
    ring
  have hn' : (0 : ℝ) < n := by exact_mod_cast Nat.pos_of_ne_zero hn
  have hw0 : 0 ≤ (b - a) / n := div_nonneg (by linarith) hn'.le
  obtain ⟨l, u, h, h1, h2⟩ := C87_integral (jaxpr := exQuick α β γ) (consts := []) hab hd heven (exQuick_computes α β γ a b)
    (hc.intervalIntegrable a b) (exQuick_wf α β γ) hn hη hηd (fun i _ s t m _ ht hm => by
      refine ⟨exQuick_returns α β γ m degree false, exQuick_fat α β γ m s t η (by linarith) (by linarith) ?_ ?_ degree⟩
      · rw [hm, ht]; convert hw using 2; ring
      · rw [hm, ht]; convert hw using 2; ring)
  rw [e] at h1 h2
  exact ⟨l, u, h, h1, h2⟩

/-- `∫₀¹ (1.5 exp(3 x) - 25 x²) dx`, degree 2, 16 grid cells -/
example : ∃ l u, integralBoundV1 realLib (exQuick 1.5 3 25) [] 0 1 2 16 = .ok (l, u) ∧
    l ≤ 1.5 * ((Real.exp (3 * 1) - Real.exp (3 * 0)) / 3) - 25 * ((1 ^ 3 - 0 ^ 3) / 3) ∧
    1.5 * ((Real.exp (3 * 1) - Real.exp (3 * 0)) / 3) - 25 * ((1 ^ 3 - 0 ^ 3) / 3) ≤ u :=
  C87_quickstart 1.5 3 25 0 1 (1 / 100) (by norm_num) (by norm_num) (by norm_num) (by norm_num) (by norm_num) (by norm_num)
    (by show (1 : ℝ) / 10 ^ 12 ≤ (1 / 100) ^ 2; norm_num) (by norm_num)

/-! ### safe_learning_rates.ipynb -/

variable {X : Type} [AddCommGroup X] [Module ℝ X] {loss : TracedLoss ℝ X} {F : X → ℝ}

/-- **C87 (safe learning rate).** If the run with the guarded tables returns `eta`, so does `safe_learning_rate` with the
code's own tables, and the step of size `eta` does not increase the loss. -/
theorem C87_safe_learning_rate {x v : X} {m eta : ℝ} (hm : 0 ≤ m) (hF : Traces realSem loss F x v m)
    (h : safeLearningRate safeLib loss x v m = .ok eta) :
    safeLearningRate realLib loss x v m = .ok eta ∧ 0 ≤ eta ∧ eta ≤ m ∧ F (x + eta • v) ≤ F x := by
  obtain ⟨h1, h2, h3, -⟩ := C68_safe_learning_rate safeLib_sound safeLib_arr hm hF h
  exact ⟨okLe_safeLearningRate real_le _ _ _ _ _ h, h1, h2, h3⟩

/-- **C87 (the optimizer).** Any number of steps of the optimizer with the code's own tables, all of whose calls are guarded:
the loss never increases. -/
theorem C87_optimizer {dir : X → X} (hF : TracesAll realSem loss F dir) {x0 : X} {m0 : ℝ} (hm : 0 < m0) (k n : ℕ)
    {s s' : State ℝ X} (h : runOptimizer safeLib loss dir (k + n) (initState x0 m0) = .ok s')
    (hk : runOptimizer realLib loss dir k (initState x0 m0) = .ok s) :
    runOptimizer realLib loss dir (k + n) (initState x0 m0) = .ok s' ∧ F s'.x ≤ F s.x := by
  have pre : ∀ (n : ℕ) {s' : State ℝ X}, runOptimizer safeLib loss dir (k + n) (initState x0 m0) = .ok s' →
      ∃ t, runOptimizer safeLib loss dir k (initState x0 m0) = .ok t := by
    intro n
    induction n with
    | zero => exact fun h => ⟨_, h⟩
    | succ n ih =>
      intro s' h
      rw [← Nat.add_assoc] at h
      simp only [runOptimizer, py_bind_ok] at h
      obtain ⟨t, ht, -⟩ := h
      exact ih ht
  obtain ⟨t, ht⟩ := pre n h
  have := okLe_runOptimizer real_le loss dir k _ _ ht
  rw [hk] at this
  cases this
  exact ⟨okLe_runOptimizer real_le loss dir _ _ _ h, (C68_optimizer safeLib_sound safeLib_arr hF hm k n ht h).1⟩

/-- **C87 (safe learning rate, existence).** Let the traced program be well formed, made of primitives with always defined
tables, and certified to have three coefficients.  If the arguments of the element-wise functions, the denominators and the
bases of powers take, for learning rates in `[0, max_learning_rate]`, values at distance at least `η ≥ 1e-6` from those at
the current point, on both sides, then `safe_learning_rate` returns, with the code's own tables, a learning rate in
`[0, max_learning_rate]` that does not increase the loss. -/
theorem C87_safe_total {x v : X} {m : ℝ} (hm : 0 ≤ m) (hF : Traces realSem loss F x v m)
    (hwf : WellFormedProgram (loss.jaxpr x v) (loss.consts x v))
    (hret : ProgramReturns tableLib realSem (loss.jaxpr x v) (loss.consts x v) 2 false (ND.scalar 0))
    {len : ℤ → ℕ} (hcert : TermsProgram 2 len (loss.jaxpr x v)) {o : ℤ} (hout : (loss.jaxpr x v).outvars = [.var o])
    (ho : 3 ≤ len o) {η : ℝ} (hη : 1 / 10 ^ 6 ≤ η)
    (hfat : FatArgs realSem (loss.jaxpr x v) (loss.consts x v) 2 (ND.scalar 0) (ND.scalar 0) (ND.scalar m) η) :
    ∃ eta, safeLearningRate realLib loss x v m = .ok eta ∧ 0 ≤ eta ∧ eta ≤ m ∧ F (x + eta • v) ≤ F x := by
  have hη0 : 0 ≤ η := le_trans (by norm_num) hη
  have hηd : 1 / 10 ^ 12 ≤ η ^ (2 : ℤ).toNat := by
    have : (1 / 10 ^ 6 : ℝ) ^ 2 ≤ η ^ 2 := pow_le_pow_left₀ (by norm_num) hη 2
    refine le_trans (by norm_num) this
  have hlh : (ND.scalar (0 : ℝ)).shape = (ND.scalar m).shape := rfl
  have hmem : (Coef.ivl (ND.scalar 0) (ND.scalar m)).Contains (ND.scalar (0 : ℝ)) := ⟨rfl, fun _ _ => ⟨le_rfl, hm⟩⟩
  have hfit := hF.fits 0 le_rfl hm
  obtain ⟨vals, y0, hev, hne, hy, -, -⟩ := hF.eval 0 le_rfl hm
  have hd : (0 : ℤ) ≤ 2 := by norm_num
  have hok := taylorBoundsOk_of_fits_at hd (propagate := false) (tableLib_at_ref _) hlh hmem hfit hev hne
  have hr := taylorBoundsReturns_of_at tableLib_arr tableLib_full hd (tableLib_at_ref _) hlh hmem hfit hret hev hne
  obtain ⟨bnd, hb⟩ := returns_at tableLib_arr hd (tableLib_at_ref _) hlh (by simp [ND.scalar]) hmem hmem hwf
    (fun h => by cases h) hok hr hev hne hy
  have hs : boundLoss safeLib loss x v m = .ok bnd := by
    unfold boundLoss
    unfold taylorBounds at hb ⊢
    rw [py_bind_ok] at hb ⊢
    obtain ⟨env, he, hb⟩ := hb
    exact ⟨env, safe_of_fat hlh hmem hfit hη0 hηd hfat hev hne (loss.jaxpr x v).eqns [] (List.append_nil _).symm env he, hb⟩
  obtain ⟨eta, h⟩ := C68_returns safeLib_sound safeLib_arr safeLib_full hm hF hcert hout ho hs
  exact ⟨eta, C87_safe_learning_rate hm hF h⟩

/-! ### An instance: fitting `exp(w²)` to a number by least squares -/

/-- Tracing `eta ↦ (exp((w + eta*v)**2) - y)**2`. -/
def fitLoss (y : ℝ) : TracedLoss ℝ ℝ where
  jaxpr w v := ⟨[], [0], [.var 6], [
    ⟨.mul, [.lit (ND.scalar v), .var 0], [1]⟩,
    ⟨.add, [.lit (ND.scalar w), .var 1], [2]⟩,
    ⟨.integerPow 2, [.var 2], [3]⟩,
    ⟨.elementwise "exp", [.var 3], [4]⟩,
    ⟨.sub, [.var 4, .lit (ND.scalar y)], [5]⟩,
    ⟨.integerPow 2, [.var 5], [6]⟩]⟩
  consts _ _ := []

theorem fitLoss_eval (y w v t : ℝ) : ∃ vals, evalEnv realSem ((fitLoss y).jaxpr w v) [] (ND.scalar t) = .ok vals ∧
    NonEmptyVals vals ∧ ∃ r, evalJaxpr realSem ((fitLoss y).jaxpr w v) [] (ND.scalar t) = .ok r ∧ r.shape = [] ∧
      r.get [] = (Real.exp ((w + t • v) ^ 2) - y) ^ 2 := by
  refine ⟨_, rfl, ?_, _, rfl, rfl, ?_⟩
  · intro va hva
    have : va.2.shape = [] := by
      rcases List.mem_cons.1 hva with e | hva
      · exact congrArg (fun v => v.2.shape) e
      rcases List.mem_cons.1 hva with e | hva
      · exact congrArg (fun v => v.2.shape) e
      rcases List.mem_cons.1 hva with e | hva
      · exact congrArg (fun v => v.2.shape) e
      rcases List.mem_cons.1 hva with e | hva
      · exact congrArg (fun v => v.2.shape) e
      rcases List.mem_cons.1 hva with e | hva
      · exact congrArg (fun v => v.2.shape) e
      rcases List.mem_cons.1 hva with e | hva
      · exact congrArg (fun v => v.2.shape) e
      · exact congrArg (fun v => v.2.shape) (List.mem_singleton.1 hva)
    rw [this]
    exact ⟨[], .nil⟩
  · show (Real.exp ((w + v * t) ^ (2 : ℤ)) - y) ^ (2 : ℤ) = _
    rw [smul_eq_mul, mul_comm v t]
    norm_cast

theorem fitLoss_traces (y w v m : ℝ) : Traces realSem (fitLoss y) (fun w => (Real.exp (w ^ 2) - y) ^ 2) w v m where
  eval := fun t _ _ => by
    obtain ⟨vals, h1, h2, r, h3, h4, h5⟩ := fitLoss_eval y w v t
    exact ⟨vals, r, h1, h2, h3, h4, h5⟩
  fits := fun t _ _ => by
    refine ⟨fun v _ h => absurd h List.not_mem_nil, _, countsFit_trivial _, ?_⟩
    refine ⟨fun _ a o ha ho => ?_, fun v1 h1 => ?_⟩
    · cases ha; cases ho; trivial
    cases h1
    refine ⟨fun _ a o ha ho => ?_, fun v1 h1 => ?_⟩
    · cases ha; cases ho; exact ⟨Or.inr (Or.inl rfl), Or.inr (Or.inl rfl)⟩
    cases h1
    refine ⟨fun _ a o ha ho => ?_, fun v1 h1 => ?_⟩
    · cases ha; cases ho; trivial
    cases h1
    refine ⟨fun _ a o ha ho => ?_, fun v1 h1 => ?_⟩
    · cases ha; cases ho; trivial
    cases h1
    refine ⟨fun _ a o ha ho => ?_, fun v1 h1 => ?_⟩
    · cases ha; cases ho; exact ⟨Or.inr (Or.inl rfl), Or.inr (Or.inl rfl)⟩
    cases h1
    refine ⟨fun _ a o ha ho => ?_, fun v1 h1 => trivial⟩
    cases ha; cases ho; trivial

theorem fitLoss_wf (y w v : ℝ) : WellFormedProgram ((fitLoss y).jaxpr w v) [] where
  input := rfl
  output := rfl
  consts := rfl
  once := by show ([0] ++ [] ++ [1, 2, 3, 4, 5, 6] : List ℤ).Nodup; decide
  lits := by
    intro eqn he v hv
    simp only [fitLoss, List.mem_cons, List.not_mem_nil, or_false] at he
    rcases he with rfl | rfl | rfl | rfl | rfl | rfl <;> simp at hv <;> exact ⟨[], by rw [hv]; exact .nil⟩

theorem fitLoss_returns (y w v : ℝ) :
    ProgramReturns tableLib realSem ((fitLoss y).jaxpr w v) [] 2 false (ND.scalar 0) := by
  refine ⟨fun u ha => ?_, fun v1 h1 => ?_⟩
  · rw [if_neg (by simp [fitLoss, Atom.constIn])]
    cases ha
    trivial
  cases h1
  refine ⟨fun u ha => ?_, fun v1 h1 => ?_⟩
  · rw [if_neg (by simp [fitLoss, Atom.constIn, constAfter])]
    cases ha
    trivial
  cases h1
  refine ⟨fun u ha => ?_, fun v1 h1 => ?_⟩
  · rw [if_neg (by simp [fitLoss, Atom.constIn, constAfter])]
    cases ha
    exact ⟨by norm_num, fun _ => Or.inl rfl, fun h => absurd h (by norm_num)⟩
  cases h1
  refine ⟨fun u ha => ?_, fun v1 h1 => ?_⟩
  · rw [if_neg (by simp [fitLoss, Atom.constIn, constAfter])]
    cases ha
    exact ⟨Or.inl rfl, alwaysRight_usable (Or.inl rfl)⟩
  cases h1
  refine ⟨fun u ha => ?_, fun v1 h1 => ?_⟩
  · rw [if_neg (by simp [fitLoss, Atom.constIn, constAfter])]
    cases ha
    trivial
  cases h1
  refine ⟨fun u ha => ?_, fun v1 h1 => trivial⟩
  rw [if_neg (by simp [fitLoss, Atom.constIn, constAfter])]
  cases ha
  exact ⟨by norm_num, fun _ => Or.inl rfl, fun h => absurd h (by norm_num)⟩

/-- the number of coefficients of the variables -/
def fitLen (w : ℤ) : ℕ := if w = 6 then 3 else if w = 0 ∨ w = 1 ∨ w = 2 ∨ w = 3 ∨ w = 4 ∨ w = 5 then 2 else 1

theorem fitLoss_terms (y w v : ℝ) : TermsProgram 2 fitLen ((fitLoss y).jaxpr w v) := by
  refine ⟨fun v hv => ?_, fun v hv => absurd hv List.not_mem_nil, fun eqn he => Or.inr ?_⟩
  · rw [List.mem_singleton.1 hv]; decide
  · simp only [fitLoss, List.mem_cons, List.not_mem_nil, or_false] at he
    rcases he with rfl | rfl | rfl | rfl | rfl | rfl <;>
      simp [TermsOp, Atom.terms, fitLen]

theorem fitLoss_fat (y w v m η : ℝ) {t1 t2 : ℝ} (h1 : 0 ≤ t1 ∧ t1 ≤ m) (h2 : 0 ≤ t2 ∧ t2 ≤ m)
    (e1 : (w + v * t1) ^ 2 ≤ w ^ 2 - η) (e2 : w ^ 2 + η ≤ (w + v * t2) ^ 2) :
    FatArgs realSem ((fitLoss y).jaxpr w v) [] 2 (ND.scalar 0) (ND.scalar 0) (ND.scalar m) η := by
  have main : ∀ t, ∃ a, ValueAfter realSem ((fitLoss y).jaxpr w v) [] [⟨.mul, [.lit (ND.scalar v), .var 0], [1]⟩,
      ⟨.add, [.lit (ND.scalar w), .var 1], [2]⟩, ⟨.integerPow 2, [.var 2], [3]⟩] (ND.scalar t)
      (.var 3) a ∧ a.shape = [] ∧ a.get [] = (w + v * t) ^ 2 := by
    intro t
    refine ⟨_, ⟨_, rfl, ?_, rfl⟩, rfl, ?_⟩
    · intro va hva
      have : va.2.shape = [] := by
        rcases List.mem_cons.1 hva with e | hva
        · exact congrArg (fun v => v.2.shape) e
        rcases List.mem_cons.1 hva with e | hva
        · exact congrArg (fun v => v.2.shape) e
        rcases List.mem_cons.1 hva with e | hva
        · exact congrArg (fun v => v.2.shape) e
        · exact congrArg (fun v => v.2.shape) (List.mem_singleton.1 hva)
      rw [this]
      exact ⟨[], .nil⟩
    · show (w + v * t) ^ (2 : ℤ) = _
      norm_cast
  intro pre eqn post t a0 he hc hcs hv I hI
  have : pre = [⟨.mul, [.lit (ND.scalar v), .var 0], [1]⟩, ⟨.add, [.lit (ND.scalar w), .var 1], [2]⟩,
      ⟨.integerPow 2, [.var 2], [3]⟩] ∧ eqn = ⟨.elementwise "exp", [.var 3], [4]⟩ := by
    simp only [fitLoss] at he
    rcases pre with _ | ⟨e0, _ | ⟨e1, _ | ⟨e2, _ | ⟨e3, _ | ⟨e4, _ | ⟨e5, _ | ⟨e6, pre⟩⟩⟩⟩⟩⟩⟩
    · simp only [List.nil_append, List.cons.injEq] at he; obtain ⟨rfl, -⟩ := he; cases hc
    · simp only [List.cons_append, List.nil_append, List.cons.injEq] at he; obtain ⟨-, rfl, -⟩ := he; cases hc
    · simp only [List.cons_append, List.nil_append, List.cons.injEq] at he; obtain ⟨-, -, rfl, -⟩ := he
      simp [curvedArg] at hc
    · simp only [List.cons_append, List.nil_append, List.cons.injEq] at he; obtain ⟨rfl, rfl, rfl, rfl, -⟩ := he
      exact ⟨rfl, rfl⟩
    · simp only [List.cons_append, List.nil_append, List.cons.injEq] at he; obtain ⟨-, -, -, -, rfl, -⟩ := he; cases hc
    · simp only [List.cons_append, List.nil_append, List.cons.injEq] at he; obtain ⟨-, -, -, -, -, rfl, -⟩ := he
      simp [curvedArg] at hc
    · simp at he
    · simp at he
  obtain ⟨rfl, rfl⟩ := this
  cases hc
  obtain ⟨v0, k0, s0, g0⟩ := main 0
  have e0 : a0 = v0 := by
    obtain ⟨w, u1, -, u2⟩ := hv
    obtain ⟨w', u1', -, u2'⟩ := k0
    rw [u1] at u1'
    cases u1'
    rw [u2] at u2'
    cases u2'; rfl
  subst e0
  rw [s0] at hI
  have hI' : I = [] := List.length_eq_zero_iff.1 hI.length.symm
  subst hI'
  obtain ⟨v1, k1, -, g1⟩ := main t1
  obtain ⟨v2, k2, -, g2⟩ := main t2
  rw [mul_zero, add_zero] at g0
  refine ⟨⟨ND.scalar t1, v1, ⟨rfl, fun I _ => h1⟩, k1, ?_⟩, ⟨ND.scalar t2, v2, ⟨rfl, fun I _ => h2⟩, k2, ?_⟩, fun h => ?_⟩
  · rw [g0, g1]; linarith
  · rw [g0, g2]; linarith
  · exact absurd h (by simp [IsSoftplus, builtinName])

/-- **C87 (an instance).** One step of the fit of `exp(w²)` to `y`, from `w = 1` in direction `-1` with maximum learning rate
3: a learning rate is returned, and the squared error does not grow. -/
theorem C87_fit_instance (y : ℝ) : ∃ eta, safeLearningRate realLib (fitLoss y) (1 : ℝ) (-1) 3 = .ok eta ∧ 0 ≤ eta ∧ eta ≤ 3 ∧
    (Real.exp ((1 + eta • (-1)) ^ 2) - y) ^ 2 ≤ (Real.exp (1 ^ 2) - y) ^ 2 :=
  C87_safe_total (by norm_num) (fitLoss_traces y 1 (-1) 3) (fitLoss_wf y 1 (-1)) (fitLoss_returns y 1 (-1)) (fitLoss_terms y 1 (-1)) rfl
    (by decide) (η := 1) (by norm_num)
    (fitLoss_fat y 1 (-1) 3 1 (t1 := 1) (t2 := 3) (by norm_num) (by norm_num) (by norm_num) (by norm_num))

end NB
end AB
