/-
C86: conversions of the element type (`convert_element_type`) that change numbers: to an integer type, or to a shorter
floating point type.  At `max_degree = 0` they are handled soundly, together with everything else that C84 covers; here
in exact arithmetic and for the code's own tables.  At higher degrees they are not.
-/
import Verif.Props.Float0
import Verif.Proofs.Float04
import Verif.Props.Degree0
import Verif.Props.PolyEx

set_option linter.unusedSectionVars false

namespace AB
open PE EF Set

/-- Exact arithmetic is a rounded arithmetic. -/
theorem C86_exact_arithmetic {K : Type} [Field K] [LinearOrder K] [IsStrictOrderedRing K] : RoundedArith K where
  add_le h1 h2 := add_le_add h1 h2
  sub_le h1 h2 := sub_le_sub h1 h2
  neg_le h := neg_le_neg h
  mul_le_right h h0 := mul_le_mul_of_nonneg_right h h0
  mul_ge_right h h0 := mul_le_mul_of_nonpos_right h h0
  mul_le_left h h0 := mul_le_mul_of_nonneg_left h h0
  mul_ge_left h h0 := mul_le_mul_of_nonpos_left h h0
  pow_odd {a b k} hk ho h := by
    lift k to ℕ using hk.le
    rw [zpow_natCast, zpow_natCast]
    exact (Odd.strictMono_pow (by exact_mod_cast ho)).monotone h
  pow_even {a b k} hk _ h0 h := by
    lift k to ℕ using hk.le
    rw [zpow_natCast, zpow_natCast]
    exact pow_le_pow_left₀ h0 h k
  pow_even_neg {a b k} hk he h0 h := by
    lift k to ℕ using hk.le
    have he : Even k := by exact_mod_cast he
    rw [zpow_natCast, zpow_natCast, ← he.neg_pow b, ← he.neg_pow a]
    exact pow_le_pow_left₀ (neg_nonneg.2 h0) (neg_le_neg h) k
  zero_pow hk := zero_zpow _ hk.ne'
  pow_zero a := zpow_zero a
  zero_mul := zero_mul
  one_mul := one_mul
  one_sub_zero := sub_zero 1
  one_sub_one := sub_self 1

namespace JB

theorem timesSelf_pow {K : Type} [Field K] (x : K) : ∀ n : ℕ, timesSelf x n = x ^ n
  | 0 => (pow_zero x).symm
  | 1 => (pow_one x).symm
  | n + 2 => by
    show timesSelf x (n + 1) * x = _
    rw [timesSelf_pow x (n + 1), pow_succ, pow_succ x (n + 1), pow_succ]

theorem opExact_field {K : Type} [Field K] [LinearOrder K] (p : Prim K) (args : List (ND K)) : OpExact p args := by
  cases p with
  | div => exact fun a b => by rw [zpow_neg_one, div_eq_mul_inv]
  | integerPow y =>
    by_cases h : y ≤ 2
    · exact Or.inl h
    · refine Or.inr (Or.inr fun x => ?_)
      rw [timesSelf_pow, ← zpow_natCast, Int.toNat_of_nonneg (by omega)]
  | _ => trivial

theorem eqnsExact_field {K : Type} [Field K] [LinearOrder K] (sem : Sem K) :
    ∀ (eqns : List (Eqn K)) (vals : Vals K), EqnsExact sem vals eqns
  | [], _ => trivial
  | _ :: eqns, _ => ⟨fun args _ => opExact_field _ args, fun env' _ => eqnsExact_field sem eqns env'⟩

/-- The primitives covered in exact arithmetic: convolutions with nonnegative weights, `dot_general` with any dimension
numbers, monotone conversions and jitted functions, and all others. -/
def Sound0 {K : Type} [Field K] [LinearOrder K] : Prim K → Prop
  | .dotGeneral _ _ _ _ => True
  | .conv op => NonnegBilinear op
  | p => Safe0 p

section
variable {K : Type} [Field K] [LinearOrder K] [IsStrictOrderedRing K]

theorem sound0_step {lib : Lib K} {sem : Sem K} {p : Prim K} (h : Sound0 p) :
    Safe0 p ∨ ∀ T : TEA K, T.maxDegree = 0 → StepHolds lib sem T p := by
  cases p with
  | dotGeneral => exact Or.inr fun T hd => stepHolds_dot C86_exact_arithmetic C83_exact hd _ _ _ _
  | conv op => exact Or.inr fun T hd => stepHolds_conv C86_exact_arithmetic C83_exact hd h
  | _ => exact Or.inl h

/-- **C86.** `taylor_bounds` with `max_degree = 0` on programs that may convert to other element types: if every
conversion and every jitted function is order preserving (and convolutions have nonnegative weights, as
`convGeneral` has), then for every `x` in the trust region `f(x)` lies, entry by entry, between the returned bounds,
evaluated anywhere (`x'`).  No conditions on shapes, and `dot_general` may have batch dimensions (which it may not at
higher degrees, `C49_batch_counterexample`). -/
theorem C86_degree0_sound {lib : Lib K} {sem : Sem K} (hlib : LibHolds0 lib sem)
    {jaxpr : Jaxpr K} {consts : List (ND K)} {propagate : Bool} {x0 lo hi x x' y l u : ND K} {b : Bounds K}
    (hs : lo.shape = hi.shape) (hxr : (Coef.ivl lo hi).Contains x) (hsafe : ∀ eqn ∈ jaxpr.eqns, Sound0 eqn.prim)
    (h : taylorBounds lib jaxpr consts 0 propagate x0 lo hi = .ok b)
    (hy : evalJaxpr sem jaxpr consts x = .ok y)
    (hl : b.lower x' = .ok l) (hu : b.upper x' = .ok u) :
    l.shape = y.shape ∧ u.shape = y.shape ∧ ∀ I, ValidIdx y.shape I → l.get I ≤ y.get I ∧ y.get I ≤ u.get I :=
  bounds_of_holds C86_exact_arithmetic C83_exact (holds_bounds C86_exact_arithmetic C83_exact hlib hs hxr
    (eqnsExact_field _ _ _) (fun e he => sound0_step (hsafe e he)) h hy) hl hu

end

/-- A guarded generator that is right at single numbers is right at degree 0. -/
theorem genHolds0_guard {f : ℝ → ℝ} {tc : ℕ → ℝ → Py (List ℝ)} {g : ℝ → ℝ → ℝ → ℕ → Py (SEncl ℝ)}
    {ok : ℝ → ℝ → ℝ → ℕ → Prop} (hs : ScalarSound f tc g ok) : GenHolds0 (guardGen ok (liftGen tc g)) f := by
  intro x0 lo hi e hsh hx0 he
  obtain ⟨hok, he⟩ := guardGen_ok he
  have hx0s : x0.shape = lo.shape := hx0.1
  unfold PE.liftGen at he
  simp only [hx0s, bshape_self] at he
  simp only [py_bind_ok, py_pure] at he
  obtain ⟨ys, hys, rfl⟩ := he
  refine ⟨_, rfl, Coef.sameShape_iff.2 rfl, fun y hy => ⟨hy.1, fun I hI => ?_⟩⟩
  have hI' : ValidIdx lo.shape I := hI
  have hIh : ValidIdx hi.shape I := hsh ▸ hI'
  have hIx : ValidIdx x0.shape I := hx0s.symm ▸ hI'
  have hk := hok lo.shape (by rw [hx0s]; exact bshape_self _) I hI'
  simp only [ND.bget_valid _ hIx, ND.bget_valid _ hI', ND.bget_valid _ hIh] at hk
  obtain ⟨n, hn⟩ := List.mem_iff_getElem?.1 (mem_idx.2 hI')
  obtain ⟨r, hr⟩ : ∃ r, g (x0.get I) (lo.get I) (hi.get I) 0 = .ok r := by
    have hf := Poly.mapM_ok hys
    obtain ⟨r, -, hr⟩ := (Poly.forall₂_getElem? hf n).2 _ hn
    rw [ND.bget_valid _ hIx, ND.bget_valid _ hI', ND.bget_valid _ hIh] at hr
    exact ⟨r, hr⟩
  have hx := hx0.2 I hI'
  have hyI := hy.2 I hI'
  obtain ⟨q1, -, q2, -⟩ := hs _ _ _ _ _ hx.1 hx.2 hk hr
  obtain ⟨w, w1, w2, w3⟩ := q2 (y.get I) hyI.1 hyI.2
  have hw : f (y.get I) = w := by rw [w3, q1]; simp
  show (PE.finOf (g (x0.bget I) (lo.bget I) (hi.bget I) 0)).1 ≤ f (y.get I) ∧
    f (y.get I) ≤ (PE.finOf (g (x0.bget I) (lo.bget I) (hi.bget I) 0)).2
  rw [ND.bget_valid _ hIx, ND.bget_valid _ hI', ND.bget_valid _ hIh, hr, hw]
  exact ⟨w1, w2⟩

theorem builtin_scalarSound (n : FName) : ScalarSound (mathFun n) (fun d x => getTaylorPolynomialCoefficients ⟨n, 0⟩ d x)
    (fun x0 a b d => getElementwiseTaylorEnclosure ⟨n, 0⟩ x0 a b d) (BuiltinRegion n) := by
  intro x0 a b d s h1 h2 hok hg
  obtain ⟨s', e, q1, q2, q3⟩ := builtin_of_region ⟨h1, h2⟩ hok
  simp only [e] at hg
  cases hg
  obtain ⟨l, hl, hs⟩ := elementwise_fst e
  exact ⟨q1, q2, q3, l, hl, fun i hi => by rw [hs, getD_take hi]⟩

theorem pow_scalarSound (p : Expo ℝ) : ScalarSound (powFun p) (fun d x => .ok (powCoeffs (fun x p : ℝ => x ^ p) p d x))
    (fun x0 a b d => powEnclosure (fun x p : ℝ => x ^ p) p x0 a b d) (PowOk p) := by
  intro x0 a b d s h1 h2 ⟨k1, k2, k3, k4⟩ hg
  obtain ⟨s', e, q1, q2, q3⟩ := C34_pow ⟨h1, h2⟩ k1 k2 k3 k4
  simp only [e] at hg
  cases hg
  exact ⟨q1, q2, q3, _, rfl, fun i hi => by rw [pow_fst e, getD_take hi]⟩

/-- The code's own tables are right at degree 0, on the regions of C33 and C34. -/
theorem safeLib_holds0 : LibHolds0 safeLib realSem where
  fn := safeLib_sound.fn
  semPow := safeLib_sound.pow
  gen name g f hg hf := by
    simp only [safeLib] at hg
    cases hn : builtinName name with
    | some n =>
      simp only [hn, Option.some.injEq] at hg
      subst hg
      rw [realSem_builtin hn] at hf
      cases hf
      exact genHolds0_guard (builtin_scalarSound n)
    | none =>
      simp only [hn, Option.map_eq_some_iff] at hg
      obtain ⟨q, hq, rfl⟩ := hg
      unfold rootExponent at hq
      split at hq <;> cases hq
      · cases hf
        exact genHolds0_guard cbrt_scalarSound
      · cases hf
        have := genHolds0_guard (pow_scalarSound (.frac (-1 / 2)))
        rwa [show powFun (.frac (-1 / 2)) = fun x => 1 / √x from funext fun x => (rsqrt_eq x).symm] at this
      · cases hf
        have := genHolds0_guard (pow_scalarSound (.frac (1 / 2)))
        rwa [show powFun (.frac (1 / 2)) = Real.sqrt from funext fun x => (Real.sqrt_eq_rpow x).symm] at this
  recip y _ := genHolds0_guard (pow_scalarSound (.int y))
  pow c _ := by
    show GenHolds0 (safeLib.powGen (safeLib.expo c)) fun x => x ^ c
    cases he : safeLib.expo c with
    | int n =>
      have := genHolds0_guard (pow_scalarSound (.int n))
      rwa [show powFun (.int n) = fun x => x ^ c from funext fun x => (safeLib_sound.expoInt c n he x).symm] at this
    | frac q =>
      have hq : q = c := by
        have h : realExpo c = .frac q := he
        unfold realExpo at h
        split_ifs at h
        cases h; rfl
      subst hq
      exact genHolds0_guard (pow_scalarSound (.frac q))
  pow_zero c hc x := (safeLib_sound.expoInt c 0 hc x).trans (zpow_zero x)

/-- **C86 (built-in tables).** `taylor_bounds` with `max_degree = 0` and the code's own tables, on programs that may
convert to other element types: no conditions on shapes.  A run in which every table is asked about a region on which it
is right (C33, C34) is the actual run, and for every `x` in the trust region `f(x)` lies between the returned bounds. -/
theorem C86_builtin {jaxpr : Jaxpr ℝ} {consts : List (ND ℝ)} {propagate : Bool} {x0 lo hi : ND ℝ} {b : Bounds ℝ}
    (hs : lo.shape = hi.shape) (hsafe : ∀ eqn ∈ jaxpr.eqns, Sound0 eqn.prim)
    (h : taylorBounds safeLib jaxpr consts 0 propagate x0 lo hi = .ok b) :
    taylorBounds realLib jaxpr consts 0 propagate x0 lo hi = .ok b ∧
    ∀ x x' y l u, (Coef.ivl lo hi).Contains x → evalJaxpr realSem jaxpr consts x = .ok y →
      b.lower x' = .ok l → b.upper x' = .ok u →
      l.shape = y.shape ∧ u.shape = y.shape ∧ ∀ I, ValidIdx y.shape I → l.get I ≤ y.get I ∧ y.get I ≤ u.get I :=
  ⟨okLe_taylorBounds safeLib_le _ _ _ _ _ _ _ _ h, fun _ _ _ _ _ hx hy hl hu =>
    C86_degree0_sound safeLib_holds0 hs hx hsafe h hy hl hu⟩

/-! ### conversion to an integer type -/

/-- `x.astype(int)`, as a number of the original type: truncation towards 0. -/
def trunc (t : ℚ) : ℚ := if 0 ≤ t then (⌊t⌋ : ℤ) else (⌈t⌉ : ℤ)

theorem trunc_mono {s t : ℚ} (h : s ≤ t) : trunc s ≤ trunc t := by
  unfold trunc
  split_ifs with h1 h2 h2
  · exact_mod_cast Int.floor_mono h
  · exact absurd (h1.trans h) h2
  · have a : (⌈s⌉ : ℤ) ≤ 0 := Int.ceil_le.2 (by push_cast; exact (not_le.1 h1).le)
    have b : (0 : ℤ) ≤ ⌊t⌋ := Int.floor_nonneg.2 h2
    exact_mod_cast a.trans b
  · exact_mod_cast Int.ceil_mono h

/-- `f(x) = x.astype(int) * x` -/
def exTrunc : Jaxpr ℚ := ⟨[], [0], [.var 2], [⟨.convertElementType trunc, [.var 0], [1]⟩, ⟨.mul, [.var 1, .var 0], [2]⟩]⟩

theorem exTrunc_safe : ∀ eqn ∈ exTrunc.eqns, Sound0 eqn.prim := by
  intro eqn h
  simp only [exTrunc, List.mem_cons, List.not_mem_nil, or_false] at h
  rcases h with rfl | rfl
  · exact fun s t h => trunc_mono h
  · trivial

/-- **C86 (counterexample).** With `max_degree ≥ 1` the conversion is applied to every coefficient as if it were linear: for
`f(x) = x.astype(int)` about `1/2` on `[0, 1]` both bounds at `x = 1` are `1/2`, but `f(1) = 1`. -/
theorem C86_integer_counterexample : UnsoundAt
    ⟨[], [0], [.var 1], [⟨.convertElementType trunc, [.var 0], [1]⟩]⟩
    [] 2 (ND.scalar (1/2)) (ND.scalar 0) (ND.scalar 1) (ND.scalar 1) :=
  unsound_of_check (I := []) rfl (contains_scalar (by norm_num) (by norm_num))
    (contains_scalar (by norm_num) (by norm_num)) (by decide +kernel)

theorem polyLib_holds0 : LibHolds0 (polyLib : Lib ℚ) polySem where
  fn n f h := by cases h
  semPow := rfl
  gen n g f h := by cases h
  recip y _ := fun _ _ _ _ _ _ h => by cases h
  pow c h := absurd (h 0 rfl) (lt_irrefl 0)
  pow_zero c h x := rfl

/-- **C86 (instance).** With `max_degree = 0`, `f(x) = x.astype(int) * x` about `3/2` on `[1/2, 5/2]`: the bounds are 0 and 5,
everywhere, and they hold. -/
theorem C86_instance : ∃ b, taylorBounds polyLib exTrunc [] 0 true (ND.scalar (3/2)) (ND.scalar (1/2)) (ND.scalar (5/2)) = .ok b ∧
    (∃ l u, b.lower (ND.scalar 2) = .ok l ∧ b.upper (ND.scalar 2) = .ok u ∧ l.get [] = 0 ∧ u.get [] = 5) ∧
    ∀ x : ℚ, 1/2 ≤ x → x ≤ 5/2 → 0 ≤ trunc x * x ∧ trunc x * x ≤ 5 := by
  have key : ∃ b l u, taylorBounds polyLib exTrunc [] 0 true (ND.scalar (3/2)) (ND.scalar (1/2)) (ND.scalar (5/2)) = .ok b ∧
      b.lower (ND.scalar 2) = .ok l ∧ b.upper (ND.scalar 2) = .ok u ∧ l.get [] = 0 ∧ u.get [] = 5 :=
    ⟨_, _, _, rfl, rfl, rfl, by decide +kernel, by decide +kernel⟩
  obtain ⟨b, l, u, hb, hl, hu, l0, u5⟩ := key
  refine ⟨b, hb, ⟨l, u, hl, hu, l0, u5⟩, fun x h1 h2 => ?_⟩
  have hc : (Coef.ivl (ND.scalar (1/2 : ℚ)) (ND.scalar (5/2))).Contains (ND.scalar x) := contains_scalar h1 h2
  obtain ⟨y, hy, hys, hyv⟩ : ∃ y, evalJaxpr polySem exTrunc [] (ND.scalar x) = .ok y ∧ y.shape = [] ∧
      y.get [] = trunc x * x := ⟨_, rfl, rfl, rfl⟩
  have hsh : (ND.scalar (1/2 : ℚ)).shape = (ND.scalar (5/2)).shape := rfl
  have := (C86_degree0_sound polyLib_holds0 hsh hc exTrunc_safe hb hy hl hu).2.2 [] (by rw [hys]; exact .nil)
  rwa [hyv, l0, u5] at this

/-- `f(x)_b = (A x)_b * w_b` with a batched `dot_general`: the program of `C49_batch_counterexample` -/
def exBatch : Jaxpr ℚ := ⟨[1, 2], [0], [.var 4], [⟨.dotGeneral [1] [0] [] [], [.var 1, .var 0], [3]⟩,
  ⟨.dotGeneral [] [] [0] [0], [.var 3, .var 2], [4]⟩]⟩

/-- **C86 (instance with contractions).** The program of `C49_batch_counterexample`, for which the bounds of degree 2 are
wrong: with `max_degree = 0` they are right, for every `x` in the trust region. -/
theorem C86_batch_instance : ∃ b,
    taylorBounds polyLib exBatch [ND.mk' [2, 2] [0, 1, 0, 0], ND.mk' [2] [1, 1]] 0 true exX0 exLo' exHi' = .ok b ∧
    ∃ l u, b.lower exX0 = .ok l ∧ b.upper exX0 = .ok u ∧
    ∀ x, (Coef.ivl exLo' exHi').Contains x → ∃ y, evalJaxpr polySem exBatch [ND.mk' [2, 2] [0, 1, 0, 0], ND.mk' [2] [1, 1]] x = .ok y ∧
      l.shape = y.shape ∧ u.shape = y.shape ∧ ∀ I, ValidIdx y.shape I → l.get I ≤ y.get I ∧ y.get I ≤ u.get I := by
  have key : ∃ b l u, taylorBounds polyLib exBatch [ND.mk' [2, 2] [0, 1, 0, 0], ND.mk' [2] [1, 1]] 0 true exX0 exLo' exHi' = .ok b ∧
      b.lower exX0 = .ok l ∧ b.upper exX0 = .ok u := ⟨_, _, _, rfl, rfl, rfl⟩
  obtain ⟨b, l, u, hb, hl, hu⟩ := key
  refine ⟨b, hb, l, u, hl, hu, fun x hx => ?_⟩
  have hsh : exLo'.shape = exHi'.shape := rfl
  obtain ⟨y, hy⟩ : ∃ y, evalJaxpr polySem exBatch [ND.mk' [2, 2] [0, 1, 0, 0], ND.mk' [2] [1, 1]] x = .ok y := by
    obtain ⟨S, f⟩ := x
    have hS : S = [2] := hx.1
    subst hS
    exact ⟨_, rfl⟩
  refine ⟨y, hy, C86_degree0_sound polyLib_holds0 hsh hx (fun eqn h => ?_) hb hy hl hu⟩
  simp only [exBatch, List.mem_cons, List.not_mem_nil, or_false] at h
  rcases h with rfl | rfl <;> trivial

end JB
end AB
