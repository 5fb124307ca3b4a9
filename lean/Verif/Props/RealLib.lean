/-
C42-C44 with the code's own tables of element-wise enclosures, over the real numbers.
-/
import Verif.Spec.RealLib
import Verif.Proofs.LibLe
import Verif.Props.Lift
import Verif.Props.PassThru
import Verif.Props.TaylorMain2

set_option linter.unusedSectionVars false

namespace AB
open PE EF Set

theorem arrGen_lift {K : Type} [Field K] [LinearOrder K] (tc : ℕ → K → Py (List K))
    (g : K → K → K → ℕ → Py (SEncl K)) : ArrGen (liftGen tc g) := by
  intro x0 tr d e h
  unfold liftGen at h
  cases hR : bshape x0.shape tr.1.shape with
  | none => simp only [hR] at h; cases h
  | some R =>
    simp only [hR, py_bind_ok, py_pure] at h
    obtain ⟨_, -, rfl⟩ := h
    intro i c hc hi
    rw [List.getElem?_append_left (by simpa using hi), List.getElem?_map, List.getElem?_range hi] at hc
    cases hc
    trivial

theorem arrGen_guard {K : Type} [Field K] [LinearOrder K] [IsStrictOrderedRing K] {ok : K → K → K → ℕ → Prop}
    {gen : TEA.Generator K} (h : ArrGen gen) : ArrGen (guardGen ok gen) :=
  fun x0 tr d e he => h x0 tr d e (guardGen_ok he).2

namespace JB

theorem cbrt_of_nonneg {x : ℝ} (hx : 0 ≤ x) : cbrt x = x ^ ((1 / 3 : ℝ)) := by
  unfold cbrt
  rcases hx.eq_or_lt with rfl | h
  · simp
  · rw [sign_pos h, abs_of_pos h]; simp

theorem rsqrt_eq (x : ℝ) : 1 / √x = x ^ ((-1 / 2 : ℝ)) := by
  rcases lt_trichotomy x 0 with h | rfl | h
  · rw [Real.sqrt_eq_zero_of_nonpos h.le, Real.rpow_def_of_neg h]
    have : Real.cos (-1 / 2 * Real.pi) = 0 := by
      rw [show -1 / 2 * Real.pi = -(Real.pi / 2) by ring, Real.cos_neg, Real.cos_pi_div_two]
    rw [this]; simp
  · rw [Real.sqrt_zero, Real.zero_rpow (by norm_num)]; simp
  · rw [show (-1 / 2 : ℝ) = -(1 / 2) by norm_num, Real.rpow_neg h.le, ← Real.sqrt_eq_rpow, one_div]

theorem cbrt_scalarSound : ScalarSound cbrt
    (fun d x => .ok (powCoeffs (fun x p : ℝ => x ^ p) (.frac (1 / 3)) d x))
    (fun x0 a b d => powEnclosure (fun x p : ℝ => x ^ p) (.frac (1 / 3)) x0 a b d) (PowOk (.frac (1 / 3))) := by
  intro x0 a b d s h1 h2 ⟨k1, k2, k3, k4⟩ hg
  obtain ⟨s', e, q1, q2, q3⟩ := C34_pow ⟨h1, h2⟩ k1 k2 k3 k4
  simp only [e] at hg
  cases hg
  refine ⟨q1, q2, fun x hx hx' => ?_, _, rfl, fun i hi => by rw [pow_fst e, getD_take hi]⟩
  have h0 : 0 ≤ a := by
    rcases k1 with h | h
    · exact h.le
    · exact h.1.ge
  have := q3 x hx hx'
  rwa [show powFun (.frac (1 / 3)) x = cbrt x from (cbrt_of_nonneg (h0.trans hx)).symm] at this

theorem realSem_builtin {s : String} {n : FName} (h : builtinName s = some n) :
    realSem.fn s = some (mathFun n) := by
  unfold builtinName at h
  split at h <;> cases h <;> rfl

theorem realSem_root {s : String} {q : ℝ} (h : rootExponent s = some q) :
    ∃ f, realSem.fn s = some f ∧
      SoundGenerator f (fun _ => True) (guardGen (PowOk (.frac q)) (powGen (fun x p : ℝ => x ^ p) (.frac q))) := by
  unfold rootExponent at h
  split at h <;> cases h
  · exact ⟨cbrt, rfl, soundGenerator_lift cbrt_scalarSound⟩
  · refine ⟨_, rfl, ?_⟩
    have := C34_array_generator (.frac (-1 / 2))
    rwa [show powFun (.frac (-1 / 2)) = fun x => 1 / √x from funext fun x => (rsqrt_eq x).symm] at this
  · refine ⟨_, rfl, ?_⟩
    have := C34_array_generator (.frac (1 / 2))
    rwa [show powFun (.frac (1 / 2)) = Real.sqrt from funext fun x => (Real.sqrt_eq_rpow x).symm] at this

theorem keepsShape_pow (p : Expo ℝ) :
    KeepsShape (guardGen (PowOk p) (powGen (fun x p : ℝ => x ^ p) p)) :=
  keepsShape_guard (keepsShape_lift _ _)

/-- **C42 (built-in tables).** The tables of jax_bound.py, restricted to the regions of C33 and C34,
satisfy the assumptions of C42-C44. -/
theorem safeLib_sound : LibSound safeLib realSem where
  fn n f h := by
    have h : realFn n = some f := h
    unfold realFn at h
    split at h <;> cases h <;> rfl
  pow := rfl
  gen n g h := by
    simp only [safeLib] at h
    cases hn : builtinName n with
    | some b =>
      simp only [hn, Option.some.injEq] at h
      subst h
      exact ⟨_, realSem_builtin hn, C33_array_generator b, keepsShape_guard (keepsShape_lift _ _)⟩
    | none =>
      simp only [hn, Option.map_eq_some_iff] at h
      obtain ⟨q, hq, rfl⟩ := h
      obtain ⟨f, hf, hs⟩ := realSem_root hq
      exact ⟨f, hf, hs, keepsShape_pow _⟩
  powInt n _ := ⟨C34_array_generator (.int n), keepsShape_pow _⟩
  expoInt p n h x := by
    have h : realExpo p = .int n := h
    unfold realExpo at h
    split_ifs at h with hp
    cases h
    show x ^ p = x ^ ⌊p⌋
    rw [← Real.rpow_intCast, ← hp]
  expoFrac p q h := by
    have h : realExpo p = .frac q := h
    unfold realExpo at h
    split_ifs at h with hp
    cases h
    exact ⟨C34_array_generator (.frac p), keepsShape_pow _⟩

theorem safeLib_arr : LibArr safeLib where
  gen n g h := by
    simp only [safeLib] at h
    cases hn : builtinName n with
    | some b =>
      simp only [hn, Option.some.injEq] at h
      subst h
      exact arrGen_guard (arrGen_lift _ _)
    | none =>
      simp only [hn, Option.map_eq_some_iff] at h
      obtain ⟨q, hq, rfl⟩ := h
      exact arrGen_guard (arrGen_lift _ _)
  pow p := arrGen_guard (arrGen_lift _ _)

theorem genLe_guard {ok : ℝ → ℝ → ℝ → ℕ → Prop} {gen : TEA.Generator ℝ} : GenLe (guardGen ok gen) gen :=
  fun _ _ _ _ h => guardGen_eq h

theorem safeLib_le : LibLe safeLib realLib where
  sem := rfl
  expo := rfl
  gen n := by
    cases hn : builtinName n with
    | some b =>
      exact Or.inr ⟨_, _, by simp only [safeLib, hn]; rfl, by simp only [realLib, realGen, hn], genLe_guard⟩
    | none =>
      cases hq : rootExponent n with
      | none =>
        exact Or.inl ⟨by simp only [safeLib, hn, hq, Option.map_none], by
          simp only [realLib, realGen, hn, hq, Option.map_none]⟩
      | some q =>
        exact Or.inr ⟨_, _, by simp only [safeLib, hn, hq, Option.map_some]; rfl, by
          simp only [realLib, realGen, hn, hq, Option.map_some], genLe_guard⟩
  pow p := genLe_guard

/-- **C42/C43 (built-in tables).** If every call the run of `taylor_bounds` makes to an
enclosure-generating function of primitive_enclosures.py is inside the regions of C33/C34 (the run with
`safeLib` succeeds), then the run with the code's own tables returns the same bounds, and they contain
`f(x)` for every `x` in the trust region. -/
theorem C42_builtin {jaxpr : Jaxpr ℝ}
    {consts : List (ND ℝ)} {maxDegree : ℤ} {propagate : Bool} {x0 lo hi : ND ℝ} {bnd : Bounds ℝ}
    (hlh : lo.shape = hi.shape) (h0 : (Coef.ivl lo hi).Contains x0)
    (hb : taylorBounds safeLib jaxpr consts maxDegree propagate x0 lo hi = .ok bnd)
    (hok : TaylorBoundsOk realLib jaxpr consts maxDegree propagate x0 lo hi) :
    taylorBounds realLib jaxpr consts maxDegree propagate x0 lo hi = .ok bnd ∧
    ∀ x y vals, (Coef.ivl lo hi).Contains x → evalEnv realSem jaxpr consts x = .ok vals → NonEmptyVals vals →
      evalJaxpr realSem jaxpr consts x = .ok y →
      (∃ r, bnd.call x = .ok r ∧ r.Contains y) ∧
      ∃ l u, bnd.lower x = .ok l ∧ bnd.upper x = .ok u ∧ l.shape = y.shape ∧ u.shape = y.shape ∧
        ∀ I, ValidIdx y.shape I → l.get I ≤ y.get I ∧ y.get I ≤ u.get I := by
  have hok' := taylorBoundsOk_of_le safeLib_le hok
  refine ⟨okLe_taylorBounds safeLib_le _ _ _ _ _ _ _ _ hb, fun x y vals hx hev hne hy => ?_⟩
  exact ⟨C42_taylor_bounds safeLib_sound hlh h0 hx hb hok' hev hne hy,
    C43_lower_upper safeLib_sound hlh h0 hx hb hok' hev hne hy⟩

/-- **C44 (built-in tables).** At the reference point both bounds equal `f(x0)`, if `max_degree ≥ 1`. -/
theorem C44_builtin {jaxpr : Jaxpr ℝ} {consts : List (ND ℝ)} {maxDegree : ℤ} (hmd : 1 ≤ maxDegree)
    {propagate : Bool} {x0 lo hi y : ND ℝ} {bnd : Bounds ℝ}
    (hlh : lo.shape = hi.shape) (h0 : (Coef.ivl lo hi).Contains x0)
    (hb : taylorBounds safeLib jaxpr consts maxDegree propagate x0 lo hi = .ok bnd)
    (hok : TaylorBoundsOk realLib jaxpr consts maxDegree propagate x0 lo hi)
    {vals : Vals ℝ} (hev : evalEnv realSem jaxpr consts x0 = .ok vals) (hne : NonEmptyVals vals)
    (hy : evalJaxpr realSem jaxpr consts x0 = .ok y) :
    ∃ l u, bnd.lower x0 = .ok l ∧ bnd.upper x0 = .ok u ∧ l.Same y ∧ u.Same y :=
  C44_exact_at_x0 safeLib_sound safeLib_arr hmd hlh h0 hb (taylorBoundsOk_of_le safeLib_le hok) hev hne hy

/-! ### A concrete run -/

theorem _root_.AB.TEA.elementwise_congr {T : TEA ℝ} {g g' : TEA.Generator ℝ}
    (h : ∀ x0 tr, g x0 tr T.maxDegree = g' x0 tr T.maxDegree)
    (arg : Encl ℝ) (r : Option (Coef ℝ)) : T.elementwiseFun g arg r = T.elementwiseFun g' arg r := by
  unfold TEA.elementwiseFun
  simp only [h]

theorem _root_.AB.TEA.elementwise_congr' {T : TEA ℝ} {g g' : TEA.Generator ℝ} {x0 : ND ℝ} {l : Encl ℝ}
    {tr : Coef ℝ} (h : g x0 (TEA.toInterval tr) T.maxDegree = g' x0 (TEA.toInterval tr) T.maxDegree) :
    T.elementwiseFun g (.arr x0 :: l) (some tr) = T.elementwiseFun g' (.arr x0 :: l) (some tr) := by
  unfold TEA.elementwiseFun
  simp only [TEA.argRegion, TEA.expansionPoint, py_ok_bind, h]

/-- The program `x * exp(x)`. -/
def exX : Jaxpr ℝ where
  constvars := []
  invars := [0]
  outvars := [.var 2]
  eqns := [⟨.elementwise "exp", [.var 0], [1]⟩, ⟨.mul, [.var 0, .var 1], [2]⟩]

/-- did the run succeed? -/
def isOk {α : Type} : Py α → Bool | .ok _ => true | .error _ => false

theorem exists_of_isOk {α : Type} {r : Py α} (h : isOk r = true) : ∃ a, r = .ok a := by
  cases r with
  | ok a => exact ⟨a, rfl⟩
  | error e => cases h

/-- The run with the code's tables on `x * exp(x)`, `x0 = 0`, trust region `[-1, 1]`, degree 2. -/
theorem exX_real : ∃ bnd, taylorBounds realLib exX [] 2 true (ND.scalar 0) (ND.scalar (-1)) (ND.scalar 1) =
    .ok bnd := exists_of_isOk (by with_unfolding_all rfl)

theorem exX_step {T T0 : TEA ℝ} (hT : T.maxDegree = 2) (hT0 : T0.maxDegree = 0) (env : Env ℝ)
    (henv : env = [(0, ⟨[.arr (ND.scalar 0), .arr (ND.scalar 1)], some (.ivl (ND.scalar (-1)) (ND.scalar 1))⟩)]) :
    step safeLib T T0 true [] env ⟨.elementwise "exp", [.var 0], [1]⟩ =
    step realLib T T0 true [] env ⟨.elementwise "exp", [.var 0], [1]⟩ := by
  subst henv
  have g0 : ∀ x0 tr, guardGen (BuiltinRegion .exp) (elementwiseGen ⟨.exp, 0⟩) x0 tr 0 =
      elementwiseGen ⟨.exp, 0⟩ x0 tr 0 := by
    intro x0 tr
    unfold guardGen
    rw [if_pos]
    intro R hR I hI
    exact ⟨Or.inr (by norm_num), Or.inr (by norm_num), trivial⟩
  have g2 : guardGen (BuiltinRegion .exp) (elementwiseGen ⟨.exp, 0⟩) (ND.scalar 0)
      (ND.scalar (-1), ND.scalar 1) 2 =
      elementwiseGen ⟨.exp, 0⟩ (ND.scalar 0) (ND.scalar (-1), ND.scalar 1) 2 := by
    unfold guardGen
    rw [if_pos]
    intro R hR I hI
    have e1 : ∀ a : ℝ, (ND.scalar a).bget I = a := fun a => rfl
    simp only [e1]
    exact ⟨Or.inr (by norm_num), Or.inr (by norm_num), trivial⟩
  have hs : safeLib.gen "exp" = some (guardGen (BuiltinRegion .exp) (elementwiseGen ⟨.exp, 0⟩)) := rfl
  have hr : realLib.gen "exp" = some (elementwiseGen ⟨.exp, 0⟩) := rfl
  have hpush : ∀ e : Encl ℝ, outRegion safeLib T T0 (.elementwise "exp") [⟨[.arr (ND.scalar 0), .arr (ND.scalar 1)],
      some (.ivl (ND.scalar (-1)) (ND.scalar 1))⟩] e = outRegion realLib T T0 (.elementwise "exp")
      [⟨[.arr (ND.scalar 0), .arr (ND.scalar 1)], some (.ivl (ND.scalar (-1)) (ND.scalar 1))⟩] e := by
    intro e
    unfold outRegion
    simp only [pushforward, hs, hr, Option.map_some]
    simp only [List.mapM_cons, List.mapM_nil, py_ok_bind]
    simp only [pure, Except.pure, py_ok_bind]
    rw [TEA.elementwise_congr (T := T0) (g' := elementwiseGen ⟨.exp, 0⟩) (by rw [hT0]; exact g0)]
  unfold step
  have hi : List.mapM (getInter [(0, (⟨[.arr (ND.scalar 0), .arr (ND.scalar 1)],
      some (.ivl (ND.scalar (-1)) (ND.scalar 1))⟩ : Inter ℝ))]) [Atom.var 0] =
      .ok [⟨[.arr (ND.scalar 0), .arr (ND.scalar 1)], some (.ivl (ND.scalar (-1)) (ND.scalar 1))⟩] := rfl
  simp only [hi, py_ok_bind]
  have ho : eqnOutputs safeLib T T0 true ⟨.elementwise "exp", [.var 0], [1]⟩
      [⟨[.arr (ND.scalar 0), .arr (ND.scalar 1)], some (.ivl (ND.scalar (-1)) (ND.scalar 1))⟩] =
      eqnOutputs realLib T T0 true ⟨.elementwise "exp", [.var 0], [1]⟩
      [⟨[.arr (ND.scalar 0), .arr (ND.scalar 1)], some (.ivl (ND.scalar (-1)) (ND.scalar 1))⟩] := by
    unfold eqnOutputs
    have hc : List.mapM Inter.constantValue [(⟨[.arr (ND.scalar 0), .arr (ND.scalar 1)],
      some (.ivl (ND.scalar (-1)) (ND.scalar 1))⟩ : Inter ℝ)] = none := rfl
    simp only [hc, pushforward, hs, hr, Option.map_some]
    rw [TEA.elementwise_congr' (T := T) (g' := elementwiseGen ⟨.exp, 0⟩) (by rw [hT]; exact g2)]
    simp only [hpush]
  rw [ho]

/-- The hypotheses of `C42_builtin` are met by `x * exp(x)` about `x0 = 0` over `[-1, 1]`, degree 2. -/
theorem exX_safe : ∃ bnd, taylorBounds safeLib exX [] 2 true (ND.scalar 0) (ND.scalar (-1)) (ND.scalar 1) =
    .ok bnd := by
  obtain ⟨bnd, h⟩ := exX_real
  refine ⟨bnd, ?_⟩
  simp only [taylorBounds, taylorEnv, py_bind_ok] at h ⊢
  obtain ⟨env, h1, h2⟩ := h
  refine ⟨env, ?_, h2⟩
  rw [if_neg (by decide)] at h1 ⊢
  simp only [py_bind_ok] at h1 ⊢
  obtain ⟨r, hr, h1⟩ := h1
  refine ⟨r, hr, ?_⟩
  cases r with
  | arr a => cases h1
  | ivl l u =>
    simp only [py_bind_ok] at h1 ⊢
    obtain ⟨T, hT, T0, hT0, e0, he0, h1⟩ := h1
    refine ⟨T, hT, T0, hT0, e0, he0, ?_⟩
    have hTm : T.maxDegree = 2 := by
      unfold TEA.init at hT; split_ifs at hT; cases hT; rfl
    have hTm0 : T0.maxDegree = 0 := by
      unfold TEA.init at hT0; split_ifs at hT0; cases hT0; rfl
    cases he0
    simp only [exX, List.foldlM_cons, py_bind_ok] at h1 ⊢
    obtain ⟨e1, h3, h4⟩ := h1
    exact ⟨e1, (exX_step hTm hTm0 _ rfl).trans h3, h4⟩

theorem exX_ok : TaylorBoundsOk realLib exX [] 2 true (ND.scalar 0) (ND.scalar (-1)) (ND.scalar 1) := by
  intro tlo thi T T0 env _ _ _ h4
  cases h4
  refine ⟨fun ins h _ => ?_, fun env' _ => ⟨fun ins _ _ => ?_, fun env'' _ => trivial⟩⟩
  · cases h
    intro i c hc
    rcases i with _ | _ | i <;> cases hc
    · exact Or.inr ⟨rfl, rfl⟩
    · exact Or.inl rfl
  · rcases ins with _ | ⟨a, _ | ⟨b, _ | ⟨c, l⟩⟩⟩ <;> trivial

theorem exX_nonEmpty (x : ℝ) {vals : Vals ℝ} (h : evalEnv realSem exX [] (ND.scalar x) = .ok vals) :
    NonEmptyVals vals := by
  cases h
  intro va hva
  have : va.2.shape = [] := by
    rcases List.mem_cons.1 hva with e | hva
    · exact congrArg (fun v => v.2.shape) e
    rcases List.mem_cons.1 hva with e | hva
    · exact congrArg (fun v => v.2.shape) e
    · exact congrArg (fun v => v.2.shape) (List.mem_singleton.1 hva)
  rw [this]
  exact ⟨[], .nil⟩

/-- C42, C43 for `x * exp(x)`: the bounds computed about 0 over `[-1, 1]` hold at every `x` there. -/
example : ∃ bnd : Bounds ℝ, taylorBounds realLib exX [] 2 true (ND.scalar 0) (ND.scalar (-1)) (ND.scalar 1) =
    .ok bnd ∧ ∀ x : ℝ, -1 ≤ x → x ≤ 1 → ∃ l u, bnd.lower (ND.scalar x) = .ok l ∧
      bnd.upper (ND.scalar x) = .ok u ∧ l.get [] ≤ x * Real.exp x ∧ x * Real.exp x ≤ u.get [] := by
  obtain ⟨bnd, hb⟩ := exX_safe
  have hc : ∀ x : ℝ, -1 ≤ x → x ≤ 1 → (Coef.ivl (ND.scalar (-1)) (ND.scalar 1)).Contains (ND.scalar x) :=
    fun x h1 h2 => ⟨rfl, fun I _ => ⟨h1, h2⟩⟩
  obtain ⟨h1, h2⟩ := C42_builtin (lo := ND.scalar (-1)) (hi := ND.scalar 1) rfl (hc 0 (by norm_num) (by norm_num)) hb exX_ok
  refine ⟨bnd, h1, fun x hx hx' => ?_⟩
  obtain ⟨-, l, u, hl, hu, -, -, h⟩ := h2 (ND.scalar x) _ _ (hc x hx hx') rfl (exX_nonEmpty x rfl) rfl
  have := h [] .nil
  exact ⟨l, u, hl, hu, this⟩

end JB
end AB
