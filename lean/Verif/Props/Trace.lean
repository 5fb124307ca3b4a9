/-
C79: the outcome of `taylor_bounds` — which exception it raises, or the number, kinds and shapes of the coefficients it
returns — depends on the shapes of `x0` and of the trust region, and not on the numbers in them.
-/
import Verif.Proofs.Trace2
import Verif.Model.RealLib
import Verif.Model.Conv
import Verif.Props.AtRef

set_option linter.unusedSectionVars false

namespace AB
namespace JB
open TEA PE EF
variable {K : Type} [Field K] [LinearOrder K] [IsStrictOrderedRing K]

theorem init_shape {T T' : ND K × ND K} (h1 : T.1.shape = T'.1.shape) (h2 : T.2.shape = T'.2.shape) (d : ℕ) :
    PyRel (fun a b => ST a b ∧ a.maxDegree = d) (TEA.init d T.1 T.2) (TEA.init d T'.1 T'.2) := by
  unfold TEA.init
  rw [h1, h2]
  split_ifs
  · exact PyRel.err _
  · exact PyRel.ok ⟨⟨rfl, h1, h2⟩, rfl⟩

theorem identity_shape {x0 x0' : ND K} (h : x0.shape = x0'.shape) : identityCoef x0 = identityCoef x0' := by
  unfold identityCoef
  rw [h]

theorem initEnv_shape {U : Prop} (propagate : Bool) (md : ℕ) (jaxpr : Jaxpr K) (consts : List (ND K)) {x0 lo hi x0' lo' hi' : ND K}
    (hx : x0.shape = x0'.shape) (hl : lo.shape = lo'.shape) (hh : hi.shape = hi'.shape) :
    SameOutcome U (ER md) (initEnv propagate md jaxpr consts x0 lo hi) (initEnv propagate md jaxpr consts x0' lo' hi') := by
  unfold initEnv
  rw [identity_shape hx]
  cases identityCoef x0' with
  | error e => exact SameOutcome.err e
  | ok I =>
    simp only [py_ok_bind]
    by_cases hc : consts.length ≠ jaxpr.constvars.length
    · rw [if_pos hc, if_pos hc]; exact SameOutcome.err _
    rw [if_neg hc, if_neg hc]
    rcases jaxpr.invars with _ | ⟨v, _ | ⟨w, l⟩⟩
    · exact SameOutcome.err _
    · have ht : Option.Rel TrRel (if propagate then some (Coef.ivl lo hi) else none)
          (if propagate then some (Coef.ivl lo' hi') else none) := by
        split_ifs
        · exact .some ⟨.ivl hl hh, id⟩
        · exact .none
      have hz : ER md (jaxpr.constvars.zip (consts.map constantInter)) (jaxpr.constvars.zip (consts.map constantInter)) := by
        refine zip_ir (List.forall₂_same.2 fun i hi => ?_)
        obtain ⟨v, -, rfl⟩ := List.mem_map.1 hi
        exact IR.const md v
      refine SameOutcome.ok (.cons ⟨rfl, ?_⟩ hz)
      by_cases hd : md > 0
      · simp only [if_pos hd]
        exact ⟨.cons (.arr hx) (.cons (SameForm.refl _) .nil), ht, by simp, by simp; omega,
          Or.inl ⟨fun h => by omega, fun _ => by simp⟩⟩
      · simp only [if_neg hd]
        exact ⟨.cons (.ivl hl hh) .nil, ht, by simp, by simp, Or.inl ⟨fun _ => ⟨lo, hi, rfl⟩, fun h => by omega⟩⟩
    · exact SameOutcome.err _

/-- **C79.** Let the outcome of the enclosure generators used in the program depend on shapes only (`PrimShape`; for the
tables of autobound this is `realLib_shape` below).  Run `taylor_bounds` twice on the same program and the same constants, with
expansion points and trust regions of the same shapes but arbitrary, different numbers in them.  Then the two calls
raise the same exception, or they both return and the coefficients agree in number, kind (array or interval) and
shapes.  So nothing that `taylor_bounds` decides depends on numbers, which is what makes it possible to trace it
with `jax.jit`. -/
theorem C79_outcome {U : Prop} {lib : Lib K} (hfull : LibFull lib) {jaxpr : Jaxpr K}
    (hprims : ∀ eqn ∈ jaxpr.eqns, PrimShape U lib eqn.prim) (consts : List (ND K)) (maxDegree : ℤ) (propagate : Bool)
    {x0 lo hi x0' lo' hi' : ND K} (hx : x0.shape = x0'.shape) (hl : lo.shape = lo'.shape) (hh : hi.shape = hi'.shape) :
    SameOutcome U (fun b b' => List.Forall₂ SameForm b.coefficients b'.coefficients)
      (taylorBounds lib jaxpr consts maxDegree propagate x0 lo hi)
      (taylorBounds lib jaxpr consts maxDegree propagate x0' lo' hi') := by
  have henv : SameOutcome U (ER maxDegree.toNat) (taylorEnv lib jaxpr consts maxDegree propagate x0 lo hi)
      (taylorEnv lib jaxpr consts maxDegree propagate x0' lo' hi') := by
    unfold taylorEnv
    by_cases hd : maxDegree < 0
    · rw [if_pos hd, if_pos hd]; exact SameOutcome.err _
    rw [if_neg hd, if_neg hd]
    refine (SameOutcome.of_rel (IA.subtract_sf (.ivl hl hh) (.arr hx))).bind fun r r' _ _ hr => ?_
    cases hr with
    | arr _ => exact SameOutcome.err _
    | @ivl a0 a1 b0 b1 h0 h1 =>
      refine (SameOutcome.of_rel (init_shape (T := (a0, a1)) (T' := (b0, b1)) h0 h1 _)).bind fun T T' _ _ hT => ?_
      refine (SameOutcome.of_rel (init_shape (T := (a0, a1)) (T' := (b0, b1)) h0 h1 _)).bind fun T0 T0' _ _ hT0 => ?_
      refine (initEnv_shape _ _ jaxpr consts hx hl hh).bind fun env env' _ _ he => ?_
      rw [hx]
      refine SameOutcome.foldlM (R := fun a b => a = b) (List.forall₂_same.2 fun _ _ => rfl) ?_ he
      rintro e e' q _ hq hee rfl
      rw [← hT.2] at hee ⊢
      exact step_shape hfull hT.1 hT0.1 _ _ (hprims q hq) hee
  unfold taylorBounds
  refine henv.bind fun env env' _ _ he => ?_
  rcases jaxpr.outvars with _ | ⟨o, _ | ⟨o', l⟩⟩
  · exact SameOutcome.err _
  · exact (SameOutcome.of_rel (getInter_er he o)).bind fun i j _ _ h => SameOutcome.ok h.encl
  · exact SameOutcome.err _

/-- The same for calling the returned object: two results with coefficients of the same form, evaluated at points of
the same shape, give results of the same form. -/
theorem C79_call {b b' : Bounds K} (hb : List.Forall₂ SameForm b.coefficients b'.coefficients)
    (h0 : b.x0.shape = b'.x0.shape) {x x' : ND K} (hx : x.shape = x'.shape) :
    SameOutcome False SameForm (b.call x) (b'.call x') := by
  unfold Bounds.call
  exact SameOutcome.of_rel (PyRel.bind (map2_sn hx h0) fun _ _ h => eval_sf hb (.arr h))

/-! ### the tables of autobound -/

theorem mapM_outcome {U : Prop} {α : Type} {f g : α → Py (SEncl K)} (l : List α)
    (h : ∀ a, SameOutcome U (fun _ _ => True) (f a) (g a)) : SameOutcome U (fun _ _ => True) (l.mapM f) (l.mapM g) := by
  induction l with
  | nil => exact SameOutcome.ok trivial
  | cons a l ih =>
    rw [List.mapM_cons, List.mapM_cons]
    exact (h a).bind fun _ _ _ _ _ => ih.bind fun _ _ _ _ _ => SameOutcome.ok trivial

theorem lift_shape {U : Prop} {tc : ℕ → K → Py (List K)} {g : K → K → K → ℕ → Py (SEncl K)}
    (h : ∀ x a b x' a' b' d, SameOutcome U (fun _ _ => True) (g x a b d) (g x' a' b' d)) : GenShape U (liftGen tc g) := by
  intro x0 x0' r r' d h0 h1 h2
  unfold liftGen
  rw [h0, h1]
  cases bshape x0'.shape r'.1.shape with
  | none => exact SameOutcome.err _
  | some R =>
    dsimp only
    refine (mapM_outcome (idx R) fun I => h _ _ _ _ _ _ d).bind fun _ _ _ _ _ => SameOutcome.ok ?_
    refine List.rel_append ?_ (.cons (.ivl rfl rfl) .nil)
    rw [List.forall₂_map_left_iff, List.forall₂_map_right_iff]
    exact List.forall₂_same.2 fun i _ => .arr h0

theorem ratio_outcome (x0 x0' : K) (d : ℕ) (s s' : K → K) {l l' : List K} (hl : l.length = l'.length) (x x' : K) :
    PyRel (fun _ _ => True) (taylorRemainderRatio x0 d s l x) (taylorRemainderRatio x0' d s' l' x') := by
  unfold taylorRemainderRatio
  rw [hl]
  split_ifs
  · exact PyRel.err _
  · exact PyRel.ok trivial

theorem sharp_outcome (x0 x0' : K) (d : ℕ) (s s' : K → K) {l l' : List K} (hl : l.length = l'.length) (a a' b b' : K) (u : Bool) :
    PyRel (fun _ _ => True) (sharpMonotonic x0 d a b s l u) (sharpMonotonic x0' d a' b' s' l' u) :=
  PyRel.bind (ratio_outcome _ _ _ _ _ hl _ _) fun _ _ _ => PyRel.bind (ratio_outcome _ _ _ _ _ hl _ _) fun _ _ _ => PyRel.ok trivial

theorem powGen_shape (rp : K → K → K) (p : Expo K) : GenShape True (powGen rp p) := by
  refine lift_shape fun x a b x' a' b' d => ?_
  unfold powEnclosure
  have hl : (powCoeffs rp p d x).length = (powCoeffs rp p d x').length := by simp [powCoeffs]
  dsimp only
  refine (SameOutcome.of_rel (sharp_outcome x x' d _ _ hl a a' b b' false)).bind fun _ _ _ _ _ => ?_
  refine (SameOutcome.of_rel (sharp_outcome x x' d _ _ hl a a' b b' true)).bind fun _ _ _ _ _ => ?_
  cases powKthDerivSign 1 p (d + 1) with
  | error e => exact SameOutcome.err e
  | ok s =>
    simp only [py_ok_bind]
    by_cases h1 : powFinite p d x a b
    · by_cases h2 : powFinite p d x' a' b'
      · rw [if_neg (not_not.2 h1), if_neg (not_not.2 h2)]
        cases p with
        | frac q => exact SameOutcome.ok trivial
        | int n =>
          dsimp only
          cases powKthDerivSign (-1) (Expo.int (K := K) n) (d + 1) with
          | error e => exact SameOutcome.err e
          | ok s => exact SameOutcome.ok trivial
      · rw [if_pos h2]; exact Or.inr (Or.inr ⟨trivial, Or.inr rfl⟩)
    · rw [if_pos h1]; exact Or.inr (Or.inr ⟨trivial, Or.inl rfl⟩)

theorem coeffs_outcome (fid : FunctionId) (d : ℕ) (x x' : ℝ) :
    PyRel (fun l l' => l.length = l'.length) (getTaylorPolynomialCoefficients fid d x) (getTaylorPolynomialCoefficients fid d x') := by
  unfold getTaylorPolynomialCoefficients
  have : PyRel (List.Forall₂ fun _ _ => True)
      ((List.range (d + 1)).mapM fun i => do
        let fd ← getFunction (fid.derivativeId i)
        return fd x / (i.factorial : ℝ))
      ((List.range (d + 1)).mapM fun i => do
        let fd ← getFunction (fid.derivativeId i)
        return fd x' / (i.factorial : ℝ)) := by
    refine PyRel.mapM (R := fun a b => a = b) (List.forall₂_same.2 fun _ _ => rfl) ?_
    rintro i _ rfl
    cases getFunction (fid.derivativeId i) with
    | error e => exact PyRel.err e
    | ok f => exact PyRel.ok trivial
  rcases this with ⟨l, l', h1, h2, h⟩ | h
  · exact Or.inl ⟨l, l', h1, h2, h.length_eq⟩
  · exact Or.inr h

theorem elementwiseGen_shape (U : Prop) (fid : FunctionId) : GenShape U (elementwiseGen fid) := by
  refine lift_shape fun x a b x' a' b' d => SameOutcome.of_rel ?_
  unfold getElementwiseTaylorEnclosure
  cases getFunction fid with
  | error e => exact PyRel.err e
  | ok f =>
    simp only [py_ok_bind]
    cases getFunctionData (fid.derivativeId d) with
    | error e => exact PyRel.err e
    | ok D =>
      simp only [py_ok_bind]
      refine PyRel.bind (coeffs_outcome fid d x x') fun l l' hl => ?_
      by_cases c1 : (D.increasing || D.decreasing) = true
      · rw [if_pos c1, if_pos c1]; exact sharp_outcome _ _ _ _ _ hl _ _ _ _ _
      rw [if_neg c1, if_neg c1]
      by_cases c2 : d = 2 ∧ D.evenSymmetric = true
      · rw [if_pos c2, if_pos c2]
        exact PyRel.bind (ratio_outcome _ _ _ _ _ hl _ _) fun _ _ _ => PyRel.bind (ratio_outcome _ _ _ _ _ hl _ _) fun _ _ _ =>
          PyRel.bind (ratio_outcome _ _ _ _ _ hl _ _) fun _ _ _ => PyRel.ok trivial
      rw [if_neg c2, if_neg c2]
      refine PyRel.bind (sharp_outcome _ _ _ _ _ hl _ _ _ _ _) fun _ _ _ => PyRel.bind (sharp_outcome _ _ _ _ _ hl _ _ _ _ _) fun _ _ _ => ?_
      unfold getRange
      cases getFunction (fid.derivativeId d) with
      | error e => exact PyRel.err e
      | ok f =>
        cases getFunctionData (fid.derivativeId d) with
        | error e => exact PyRel.err e
        | ok D =>
          simp only [py_ok_bind, pure, Except.pure]
          unfold boundedDerivative
          rw [List.length_dropLast, List.length_dropLast, hl]
          by_cases c3 : l'.length - 1 ≠ d
          · rw [if_pos c3, if_pos c3]; exact PyRel.err _
          · rw [if_neg c3, if_neg c3]; exact PyRel.ok trivial

theorem realGen_shape {name : String} {g : Generator ℝ} (h : realGen name = some g) :
    GenShape True g ∧ (rootExponent name = none → GenShape False g) := by
  unfold realGen at h
  split at h
  · cases h; exact ⟨elementwiseGen_shape True _, fun _ => elementwiseGen_shape False _⟩
  · cases hq : rootExponent name with
    | none => rw [hq] at h; cases h
    | some q => rw [hq] at h; cases h; exact ⟨powGen_shape _ _, fun h => nomatch h⟩

/-- The primitives that the code encloses without `pow_enclosure`, whose results are always finite numbers: everything
except division, `pow`, negative powers and the roots. -/
def NoPow : Prim ℝ → Prop
  | .div | .pow => False
  | .integerPow y => 0 ≤ y
  | .elementwise name => rootExponent name = none
  | _ => True

/-- **C79 (tables).** The tables of autobound meet the condition of `C79_outcome`, so that only the convolutions and the
bodies of `jit` equations remain to be checked.  The escape clause `U` is needed for `pow_enclosure` only, which computes an
infinity or NaN for some numbers. -/
theorem C79_tables {p : Prim ℝ} (hc : ∀ op, p = .conv op → ∀ a a' b b' : ND ℝ, a.shape = a'.shape → b.shape = b'.shape →
      SameOutcome False (fun r r' => r.shape = r'.shape) (op a b) (op a' b'))
    (hj : ∀ body, p = .jit body → ∀ a a' : ND ℝ, a.shape = a'.shape →
      SameOutcome False (fun r r' => r.shape = r'.shape) (body a) (body a')) :
    PrimShape True realLib p ∧ (NoPow p → PrimShape False realLib p) := by
  cases p with
  | conv op => exact ⟨hc op rfl, fun _ => hc op rfl⟩
  | jit body => exact ⟨hj body rfl, fun _ => hj body rfl⟩
  | elementwise name => exact ⟨fun g hg => (realGen_shape hg).1, fun hn g hg => (realGen_shape hg).2 hn⟩
  | div => exact ⟨powGen_shape _ _, fun h => h.elim⟩
  | pow => exact ⟨fun p => powGen_shape _ _, fun h => h.elim⟩
  | integerPow y => exact ⟨fun _ => powGen_shape _ _, fun h h' => absurd h' (not_lt.2 h)⟩
  | _ => exact ⟨trivial, fun _ => trivial⟩

/-- The convolutions of `jax.lax` meet the condition on the parameters of a primitive. -/
theorem C79_conv (c : Lax.ConvParams) (a a' b b' : ND K) (ha : a.shape = a'.shape) (hb : b.shape = b'.shape) :
    SameOutcome False (fun r r' => r.shape = r'.shape) (Lax.convGeneral c a b) (Lax.convGeneral c a' b') := by
  unfold Lax.convGeneral
  rw [ha, hb]
  split_ifs
  · exact SameOutcome.ok rfl
  · exact SameOutcome.err _

theorem realLib_full : LibFull realLib where
  gen n g h := by
    change realGen n = some g at h
    unfold realGen at h
    split at h
    · cases h; exact full_lift _ _
    · cases hq : rootExponent n with
      | none => rw [hq] at h; cases h
      | some q => rw [hq] at h; cases h; exact full_lift _ _
  pow p := full_lift _ _

/-- a primitive without `jit`, and with the convolution of `jax.lax` only -/
def Plain : Prim ℝ → Prop
  | .conv op => ∃ c, op = Lax.convGeneral c
  | .jit _ => False
  | _ => True

theorem plain_shape {p : Prim ℝ} (hp : Plain p) : PrimShape True realLib p ∧ (NoPow p → PrimShape False realLib p) := by
  refine C79_tables ?_ ?_
  · rintro op rfl
    obtain ⟨c, rfl⟩ := hp
    exact C79_conv c
  · rintro body rfl
    exact hp.elim

/-- **C79 (built-in functions).** For every program built from the primitives that autobound knows (without nested `jit`
equations), with the tables of autobound: two calls with arguments of the same shapes have the same outcome, unless
one of them computes an infinity or NaN in `pow_enclosure`. -/
theorem C79_builtin {jaxpr : Jaxpr ℝ} (hp : ∀ eqn ∈ jaxpr.eqns, Plain eqn.prim) (consts : List (ND ℝ)) (maxDegree : ℤ)
    (propagate : Bool) {x0 lo hi x0' lo' hi' : ND ℝ} (hx : x0.shape = x0'.shape) (hl : lo.shape = lo'.shape)
    (hh : hi.shape = hi'.shape) :
    SameOutcome True (fun b b' => List.Forall₂ SameForm b.coefficients b'.coefficients)
      (taylorBounds realLib jaxpr consts maxDegree propagate x0 lo hi)
      (taylorBounds realLib jaxpr consts maxDegree propagate x0' lo' hi') :=
  C79_outcome realLib_full (fun eqn he => (plain_shape (hp eqn he)).1) consts maxDegree propagate hx hl hh

/-- **C79 (without division, fractional and negative powers).** Here there is no escape clause: if `taylor_bounds` returns
for one expansion point and trust region, it returns for all others of the same shapes (also for those that do not contain
`x0`, or are empty), with coefficients of the same number, kinds and shapes; and if it raises, it always raises, and the
same exception. -/
theorem C79_returns {jaxpr : Jaxpr ℝ} (hp : ∀ eqn ∈ jaxpr.eqns, Plain eqn.prim ∧ NoPow eqn.prim) (consts : List (ND ℝ))
    (maxDegree : ℤ) (propagate : Bool) {x0 lo hi x0' lo' hi' : ND ℝ} (hx : x0.shape = x0'.shape)
    (hl : lo.shape = lo'.shape) (hh : hi.shape = hi'.shape) :
    (∀ b, taylorBounds realLib jaxpr consts maxDegree propagate x0 lo hi = .ok b →
      ∃ b', taylorBounds realLib jaxpr consts maxDegree propagate x0' lo' hi' = .ok b' ∧
        List.Forall₂ SameForm b.coefficients b'.coefficients) ∧
    ∀ e, taylorBounds realLib jaxpr consts maxDegree propagate x0 lo hi = .error e →
      taylorBounds realLib jaxpr consts maxDegree propagate x0' lo' hi' = .error e := by
  rcases C79_outcome realLib_full (fun eqn he => (plain_shape (hp eqn he).1).2 (hp eqn he).2) consts maxDegree propagate
    hx hl hh with ⟨a, b, h1, h2, h⟩ | ⟨e, h1, h2⟩ | h
  · refine ⟨fun c hc => ?_, fun e he => ?_⟩
    · rw [h1] at hc; cases hc; exact ⟨b, h2, h⟩
    · rw [h1] at he; cases he
  · refine ⟨fun c hc => ?_, fun e' he => ?_⟩
    · rw [h1] at hc; cases hc
    · rw [h1] at he; cases he; exact h2
  · exact h.1.elim

/-- `x ↦ x * exp x`: from the one run computed in `exX_real`, the call returns for every scalar `x0` and every trust region. -/
theorem C79_instance (x0 lo hi : ℝ) :
    ∃ b, taylorBounds realLib exX [] 2 true (ND.scalar x0) (ND.scalar lo) (ND.scalar hi) = .ok b := by
  have hp : ∀ eqn ∈ exX.eqns, Plain eqn.prim ∧ NoPow eqn.prim := by
    intro eqn he
    simp only [exX, List.mem_cons, List.not_mem_nil, or_false] at he
    rcases he with rfl | rfl
    · exact ⟨trivial, rfl⟩
    · exact ⟨trivial, trivial⟩
  obtain ⟨b, hb⟩ := exX_real
  have key := (C79_returns hp [] 2 true (x0 := ND.scalar 0) (lo := ND.scalar (-1)) (hi := ND.scalar 1) (x0' := ND.scalar x0)
    (lo' := ND.scalar lo) (hi' := ND.scalar hi) rfl rfl rfl).1 b hb
  obtain ⟨b', hb', -⟩ := key
  exact ⟨b', hb'⟩

end JB
end AB
