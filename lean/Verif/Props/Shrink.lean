/-
C60: shrinking the trust region tightens the bounds (/repo/autobound/jax/jax_bound.py:32-212 and everything it calls).
-/
import Verif.Proofs.Iso5
import Verif.Proofs.IsoLib

set_option linter.unusedSectionVars false

namespace AB
open PE EF

/-- **C60 (element-wise functions).** For every built-in function, every degree and all regions on which the tables are
right, however small: over the smaller of two nested trust regions containing `x0`, the final coefficient returned by
`get_elementwise_taylor_enclosure` is an interval contained in the one for the larger region. -/
theorem C60_elementwise {n : FName} {k : ℕ} {x0 a' b' a b : ℝ} (h1 : a ≤ a') (h2 : a' ≤ x0) (h3 : x0 ≤ b') (h4 : b' ≤ b)
    (ok' : BuiltinTable n x0 a' b' k) (ok : BuiltinTable n x0 a b k) {s' s : SEncl ℝ}
    (e' : getElementwiseTaylorEnclosure ⟨n, 0⟩ x0 a' b' k = .ok s')
    (e : getElementwiseTaylorEnclosure ⟨n, 0⟩ x0 a b k = .ok s) :
    s'.1 = s.1 ∧ s.2.1 ≤ s'.2.1 ∧ s'.2.1 ≤ s'.2.2 ∧ s'.2.2 ≤ s.2.2 := by
  refine ⟨?_, scalarIsotone_builtin n x0 x0 a' b' a b k s' s h1 h2 h3 h4 (h1.trans h2) (h3.trans h4) (fun _ => rfl) ok' ok
    e' e⟩
  obtain ⟨l', hl', e1'⟩ := elementwise_fst e'
  obtain ⟨l, hl, e1⟩ := elementwise_fst e
  rw [hl] at hl'
  cases hl'
  rw [e1, e1']

/-- **C60 (powers).** The same for `pow_enclosure`. -/
theorem C60_pow {p : Expo ℝ} {k : ℕ} {x0 a' b' a b : ℝ} (h1 : a ≤ a') (h2 : a' ≤ x0) (h3 : x0 ≤ b') (h4 : b' ≤ b)
    (ok' : PowTable p x0 a' b' k) (ok : PowTable p x0 a b k) {s' s : SEncl ℝ}
    (e' : powEnclosure (fun x p : ℝ => x ^ p) p x0 a' b' k = .ok s')
    (e : powEnclosure (fun x p : ℝ => x ^ p) p x0 a b k = .ok s) :
    s'.1 = s.1 ∧ s.2.1 ≤ s'.2.1 ∧ s'.2.1 ≤ s'.2.2 ∧ s'.2.2 ≤ s.2.2 := by
  refine ⟨?_, scalarIsotone_pow p x0 x0 a' b' a b k s' s h1 h2 h3 h4 (h1.trans h2) (h3.trans h4) (fun _ => rfl) ok' ok
    e' e⟩
  rw [pow_fst e, pow_fst e']

namespace JB
section
variable {K : Type} [Field K] [LinearOrder K] [IsStrictOrderedRing K]

/-- **C60 (coefficients).** For every program, every degree and every pair of nested trust regions containing `x0` for
which `taylor_bounds` returns: every coefficient for the smaller region is contained in the corresponding coefficient for
the larger region (and array coefficients are equal). -/
theorem C60_coefficients {lib : Lib K} (hlib : LibIsotone lib) {jaxpr : Jaxpr K}
    (hp : ∀ eqn ∈ jaxpr.eqns, PrimIsotone eqn.prim)
    {consts : List (ND K)} {maxDegree : ℤ} {propagate : Bool} {x0 lo' hi' lo hi : ND K} (hw : Within x0 lo' hi' lo hi)
    {b' b : Bounds K} (h' : taylorBounds lib jaxpr consts maxDegree propagate x0 lo' hi' = .ok b')
    (h : taylorBounds lib jaxpr consts maxDegree propagate x0 lo hi = .ok b) :
    NestE b'.coefficients b.coefficients := (iso_taylorBounds hlib hp hw h' h).2.2

/-- **C60 (bounds).** ... and at every point `x` (inside or outside the trust regions) at which both bounds can be
evaluated, the bounds for the smaller region lie between those for the larger region. -/
theorem C60_bounds {lib : Lib K} (hlib : LibIsotone lib) {jaxpr : Jaxpr K}
    (hp : ∀ eqn ∈ jaxpr.eqns, PrimIsotone eqn.prim)
    {consts : List (ND K)} {maxDegree : ℤ} {propagate : Bool} {x0 lo' hi' lo hi : ND K} (hw : Within x0 lo' hi' lo hi)
    {b' b : Bounds K} (h' : taylorBounds lib jaxpr consts maxDegree propagate x0 lo' hi' = .ok b')
    (h : taylorBounds lib jaxpr consts maxDegree propagate x0 lo hi = .ok b)
    {x l' u' l u : ND K} (hl' : b'.lower x = .ok l') (hu' : b'.upper x = .ok u') (hl : b.lower x = .ok l)
    (hu : b.upper x = .ok u) :
    l'.shape = l.shape ∧ u'.shape = l.shape ∧ u.shape = l.shape ∧ ∀ I, ValidIdx l.shape I →
      l.get I ≤ l'.get I ∧ l'.get I ≤ u'.get I ∧ u'.get I ≤ u.get I := by
  obtain ⟨e1, e2, hn⟩ := iso_taylorBounds hlib hp hw h' h
  simp only [Bounds.lower, Bounds.upper, Bounds.call, py_bind_ok, py_pure] at hl hu hl' hu'
  rw [e1] at hl' hu'
  rw [e2] at hl hu
  obtain ⟨r, ⟨z, hz, hr⟩, rfl⟩ := hl
  obtain ⟨r2, ⟨z2, hz2, hr2⟩, rfl⟩ := hu
  obtain ⟨r', ⟨z', hz', hr'⟩, rfl⟩ := hl'
  obtain ⟨r2', ⟨z2', hz2', hr2'⟩, rfl⟩ := hu'
  rw [hz] at hz2 hz' hz2'
  cases hz2; cases hz'; cases hz2'
  rw [hr] at hr2; cases hr2
  rw [hr'] at hr2'; cases hr2'
  have N := Poly.iso_evalTaylor hn (.arr z) hr' hr
  cases N with
  | arr a => exact ⟨rfl, rfl, rfl, fun I _ => ⟨le_rfl, le_rfl, le_rfl⟩⟩
  | @ivl p q s t w' w ins =>
    have N : Nest (.ivl p q) (.ivl s t) := .ivl w' w ins
    have s1 : p.shape = s.shape := N.shape
    have s2 : p.shape = q.shape := w'.1
    have s3 : s.shape = t.shape := w.1
    refine ⟨s1, s2.symm.trans s1, s3.symm, fun I hI => ?_⟩
    have hI : ValidIdx s.shape I := hI
    have := N.entries (R := s.shape) (ble_refl _) hI
    simp only [Coef.lo, Coef.hi] at this
    rw [ND.bget_valid s hI, ND.bget_valid p (s1.symm ▸ hI), ND.bget_valid q ((s2.symm.trans s1).symm ▸ hI),
      ND.bget_valid t (s3 ▸ hI)] at this
    exact this

end

/-- **C60 (built-in tables).** If every call that the two runs make to an enclosure-generating function is on a region on
which its table is right (the runs with `tableLib` succeed), then the runs with the code's own tables return the same
bounds, and those for the smaller trust region are at least as tight, at every point. No condition on how small the trust
regions are. -/
theorem C60_builtin {jaxpr : Jaxpr ℝ} (hp : ∀ eqn ∈ jaxpr.eqns, PrimIsotone eqn.prim)
    {consts : List (ND ℝ)} {maxDegree : ℤ} {propagate : Bool} {x0 lo' hi' lo hi : ND ℝ} (hw : Within x0 lo' hi' lo hi)
    {b' b : Bounds ℝ} (h' : taylorBounds tableLib jaxpr consts maxDegree propagate x0 lo' hi' = .ok b')
    (h : taylorBounds tableLib jaxpr consts maxDegree propagate x0 lo hi = .ok b) :
    taylorBounds realLib jaxpr consts maxDegree propagate x0 lo' hi' = .ok b' ∧
    taylorBounds realLib jaxpr consts maxDegree propagate x0 lo hi = .ok b ∧
    NestE b'.coefficients b.coefficients ∧
    ∀ x l' u' l u : ND ℝ, b'.lower x = .ok l' → b'.upper x = .ok u' → b.lower x = .ok l → b.upper x = .ok u →
      l'.shape = l.shape ∧ u'.shape = l.shape ∧ u.shape = l.shape ∧ ∀ I, ValidIdx l.shape I →
        l.get I ≤ l'.get I ∧ l'.get I ≤ u'.get I ∧ u'.get I ≤ u.get I :=
  ⟨okLe_taylorBounds tableLib_le _ _ _ _ _ _ _ _ h', okLe_taylorBounds tableLib_le _ _ _ _ _ _ _ _ h,
    C60_coefficients tableLib_isotone hp hw h' h,
    fun _ _ _ _ _ h1 h2 h3 h4 => C60_bounds tableLib_isotone hp hw h' h h1 h2 h3 h4⟩

/-! ### A concrete case -/

theorem tableLib_exp : tableLib.gen "exp" = realLib.gen "exp" := by
  show some (guardGen (BuiltinTable .exp) (elementwiseGen ⟨.exp, 0⟩)) = some (elementwiseGen ⟨.exp, 0⟩)
  congr 1
  funext x0 tr d
  unfold guardGen
  rw [if_pos]
  exact fun _ _ _ _ => trivial

theorem exX_table (x0 lo hi : ND ℝ) (md : ℤ) (pr : Bool) :
    taylorBounds tableLib exX [] md pr x0 lo hi = taylorBounds realLib exX [] md pr x0 lo hi := by
  have hs : ∀ T T0 pr xs env eqn, eqn ∈ exX.eqns → step tableLib T T0 pr xs env eqn = step realLib T T0 pr xs env eqn := by
    intro T T0 pr xs env eqn he
    have ho : ∀ ins, eqnOutputs tableLib T T0 pr eqn ins = eqnOutputs realLib T T0 pr eqn ins := by
      intro ins
      have hpf : ∀ T : TEA ℝ, pushforward tableLib T eqn.prim = pushforward realLib T eqn.prim := by
        intro T
        rcases List.mem_cons.1 he with rfl | he
        · simp only [pushforward, tableLib_exp]
        · obtain rfl := List.mem_singleton.1 he
          rfl
      unfold eqnOutputs outRegion
      simp only [hpf]
      rfl
    unfold step
    simp only [ho]
  have hf : ∀ T T0 pr xs env, exX.eqns.foldlM (step tableLib T T0 pr xs) env = exX.eqns.foldlM (step realLib T T0 pr xs) env := by
    intro T T0 pr xs env
    simp only [exX, List.foldlM_cons, List.foldlM_nil]
    rw [hs T T0 pr xs env _ (by simp [exX])]
    congr 1
  unfold taylorBounds taylorEnv
  simp only [hf]

/-- C60 for `x * exp(x)`, degree 2, about 0, `[-1/2, 1/2]` inside `[-1, 1]`. -/
example : ∃ b' b : Bounds ℝ,
    taylorBounds realLib exX [] 2 true (ND.scalar 0) (ND.scalar (-(1 / 2))) (ND.scalar (1 / 2)) = .ok b' ∧
    taylorBounds realLib exX [] 2 true (ND.scalar 0) (ND.scalar (-1)) (ND.scalar 1) = .ok b ∧
    NestE b'.coefficients b.coefficients := by
  obtain ⟨b, hb⟩ := exX_real
  obtain ⟨b', hb'⟩ : ∃ b', taylorBounds realLib exX [] 2 true (ND.scalar 0) (ND.scalar (-(1 / 2))) (ND.scalar (1 / 2)) =
    .ok b' := exists_of_isOk (by with_unfolding_all rfl)
  have hw : Within (ND.scalar (0 : ℝ)) (ND.scalar (-(1 / 2))) (ND.scalar (1 / 2)) (ND.scalar (-1)) (ND.scalar 1) :=
    ⟨⟨rfl, rfl, rfl, rfl⟩, fun I _ => by simp only [ND.scalar]; norm_num⟩
  rw [← exX_table] at hb hb'
  have := C60_builtin (jaxpr := exX) (by
    intro eqn he
    rcases List.mem_cons.1 he with rfl | he
    · trivial
    · obtain rfl := List.mem_singleton.1 he
      trivial) hw hb' hb
  exact ⟨b', b, this.1, this.2.1, this.2.2.1⟩

end JB
end AB
