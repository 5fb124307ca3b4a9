/-
C78: propagating trust regions never loosens the bounds (/repo/autobound/jax/jax_bound.py:61-212,
`propagate_trust_regions`).
-/
import Verif.Proofs.Propagate
import Verif.Props.Shrink
import Verif.Props.AtRef
import Verif.Props.Register
import Verif.Props.PolyEx

set_option linter.unusedSectionVars false

namespace AB
open PE EF
namespace JB
section
variable {K : Type} [Field K] [LinearOrder K] [IsStrictOrderedRing K]

/-- nested coefficients about the same point give nested bounds -/
theorem bounds_nested {x0 : ND K} {b' b : Bounds K} (e1 : b'.x0 = x0) (e2 : b.x0 = x0)
    (hn : NestE b'.coefficients b.coefficients)
    {x l' u' l u : ND K} (hl' : b'.lower x = .ok l') (hu' : b'.upper x = .ok u') (hl : b.lower x = .ok l)
    (hu : b.upper x = .ok u) :
    l'.shape = l.shape ∧ u'.shape = l.shape ∧ u.shape = l.shape ∧ ∀ I, ValidIdx l.shape I →
      l.get I ≤ l'.get I ∧ l'.get I ≤ u'.get I ∧ u'.get I ≤ u.get I := by
  simp only [Bounds.lower, Bounds.upper, Bounds.call, py_bind_ok, py_pure] at hl hu hl' hu'
  rw [e1] at hl' hu'
  rw [e2] at hl hu
  obtain ⟨r, ⟨z, hz, hr⟩, rfl⟩ := hl
  obtain ⟨r2, ⟨z2, hz2, hr2⟩, rfl⟩ := hu
  obtain ⟨r', ⟨z', hz', hr'⟩, rfl⟩ := hl'
  obtain ⟨r2', ⟨z2', hz2', hr2'⟩, rfl⟩ := hu'
  rw [hz] at hz2 hz' hz2'
  cases hz2; cases hz'; cases hz2'
  rw [hr] at hr2; cases hr2
  rw [hr'] at hr2'; cases hr2'
  have N := Poly.iso_evalTaylor hn (.arr z) hr' hr
  cases N with
  | arr a => exact ⟨rfl, rfl, rfl, fun I _ => ⟨le_rfl, le_rfl, le_rfl⟩⟩
  | @ivl p q s t w' w ins =>
    have N : Nest (.ivl p q) (.ivl s t) := .ivl w' w ins
    have s1 : p.shape = s.shape := N.shape
    have s2 : p.shape = q.shape := w'.1
    have s3 : s.shape = t.shape := w.1
    refine ⟨s1, s2.symm.trans s1, s3.symm, fun I hI => ?_⟩
    have hI : ValidIdx s.shape I := hI
    have := N.entries (R := s.shape) (ble_refl _) hI
    simp only [Coef.lo, Coef.hi] at this
    rw [ND.bget_valid s hI, ND.bget_valid p (s1.symm ▸ hI), ND.bget_valid q ((s2.symm.trans s1).symm ▸ hI),
      ND.bget_valid t (s3 ▸ hI)] at this
    exact this

/-- **C78 (coefficients).** For every program that fits, every degree and all trust regions `[lo', hi'] ⊆ [lo, hi]`
containing `x0` (in particular for equal ones): if `taylor_bounds` returns both with `propagate_trust_regions=True` on
the smaller and with `propagate_trust_regions=False` on the larger region, then every coefficient of the former is contained in the
corresponding coefficient of the latter (array coefficients are equal).  The tables of enclosure generators are isotone,
and right at the reference point. -/
theorem C78_coefficients {lib : Lib K} {sem : Sem K} (hlib : LibIsotone lib) {jaxpr : Jaxpr K}
    (hp : ∀ eqn ∈ jaxpr.eqns, PrimIsotone eqn.prim)
    {consts : List (ND K)} {maxDegree : ℤ} {x0 lo' hi' lo hi : ND K} (hw : Within x0 lo' hi' lo hi)
    (hsound : ∀ z, ND.map2 (· - ·) x0 x0 = .ok z → LibSoundAt z lib sem)
    (hfit : ProgramFits sem jaxpr consts x0) {vals : Vals K} (hev : evalEnv sem jaxpr consts x0 = .ok vals)
    (hne : NonEmptyVals vals)
    {b' b : Bounds K} (h' : taylorBounds lib jaxpr consts maxDegree true x0 lo' hi' = .ok b')
    (h : taylorBounds lib jaxpr consts maxDegree false x0 lo hi = .ok b) :
    NestE b'.coefficients b.coefficients := (prop_taylorBounds hlib hp hw hsound hfit hev hne h' h).2.2

/-- **C78 (bounds).** ... and at every point `x` (inside or outside the trust region) at which both bounds can be
evaluated, the bounds with propagation lie between those without. -/
theorem C78_bounds {lib : Lib K} {sem : Sem K} (hlib : LibIsotone lib) {jaxpr : Jaxpr K}
    (hp : ∀ eqn ∈ jaxpr.eqns, PrimIsotone eqn.prim)
    {consts : List (ND K)} {maxDegree : ℤ} {x0 lo' hi' lo hi : ND K} (hw : Within x0 lo' hi' lo hi)
    (hsound : ∀ z, ND.map2 (· - ·) x0 x0 = .ok z → LibSoundAt z lib sem)
    (hfit : ProgramFits sem jaxpr consts x0) {vals : Vals K} (hev : evalEnv sem jaxpr consts x0 = .ok vals)
    (hne : NonEmptyVals vals)
    {b' b : Bounds K} (h' : taylorBounds lib jaxpr consts maxDegree true x0 lo' hi' = .ok b')
    (h : taylorBounds lib jaxpr consts maxDegree false x0 lo hi = .ok b)
    {x l' u' l u : ND K} (hl' : b'.lower x = .ok l') (hu' : b'.upper x = .ok u') (hl : b.lower x = .ok l)
    (hu : b.upper x = .ok u) :
    l'.shape = l.shape ∧ u'.shape = l.shape ∧ u.shape = l.shape ∧ ∀ I, ValidIdx l.shape I →
      l.get I ≤ l'.get I ∧ l'.get I ≤ u'.get I ∧ u'.get I ≤ u.get I := by
  obtain ⟨e1, e2, hn⟩ := prop_taylorBounds hlib hp hw hsound hfit hev hne h' h
  exact bounds_nested e1 e2 hn hl' hu' hl hu

end

/-- **C78 (built-in tables).** If every call that the two runs make to an enclosure-generating function is on a region on
which its table is right (the runs with `tableLib` succeed; no condition on how small the regions are), then the runs
with the code's own tables return the same bounds, and those with propagated trust regions are at least as tight, in
every coefficient and at every point. -/
theorem C78_builtin {jaxpr : Jaxpr ℝ} (hp : ∀ eqn ∈ jaxpr.eqns, PrimIsotone eqn.prim)
    {consts : List (ND ℝ)} {maxDegree : ℤ} {x0 lo' hi' lo hi : ND ℝ} (hw : Within x0 lo' hi' lo hi)
    (hfit : ProgramFits realSem jaxpr consts x0) {vals : Vals ℝ} (hev : evalEnv realSem jaxpr consts x0 = .ok vals)
    (hne : NonEmptyVals vals)
    {b' b : Bounds ℝ} (h' : taylorBounds tableLib jaxpr consts maxDegree true x0 lo' hi' = .ok b')
    (h : taylorBounds tableLib jaxpr consts maxDegree false x0 lo hi = .ok b) :
    taylorBounds realLib jaxpr consts maxDegree true x0 lo' hi' = .ok b' ∧
    taylorBounds realLib jaxpr consts maxDegree false x0 lo hi = .ok b ∧
    NestE b'.coefficients b.coefficients ∧
    ∀ x l' u' l u : ND ℝ, b'.lower x = .ok l' → b'.upper x = .ok u' → b.lower x = .ok l → b.upper x = .ok u →
      l'.shape = l.shape ∧ u'.shape = l.shape ∧ u.shape = l.shape ∧ ∀ I, ValidIdx l.shape I →
        l.get I ≤ l'.get I ∧ l'.get I ≤ u'.get I ∧ u'.get I ≤ u.get I :=
  ⟨okLe_taylorBounds tableLib_le _ _ _ _ _ _ _ _ h', okLe_taylorBounds tableLib_le _ _ _ _ _ _ _ _ h,
    C78_coefficients tableLib_isotone hp hw (tableLib_at_ref x0) hfit hev hne h' h,
    fun _ _ _ _ _ h1 h2 h3 h4 => C78_bounds tableLib_isotone hp hw (tableLib_at_ref x0) hfit hev hne h' h h1 h2 h3 h4⟩

/-! ### A concrete case, in which propagation helps -/

/-- enclosures of `x^2` of degrees 0 and 1 -/
def sqScalar (x0 a b : ℚ) (d : ℕ) : Py (SEncl ℚ) :=
  if d = 0 then .ok ([], (0, max (a ^ 2) (b ^ 2))) else if d = 1 then .ok ([x0 ^ 2], (a + x0, b + x0))
  else .error .notImplemented

def sqTaylor (_ : ℕ) (x : ℚ) : Py (List ℚ) := .ok [x ^ 2]

def sqGen : TEA.Generator ℚ := liftGen sqTaylor sqScalar

theorem sq_le_max {a b x : ℚ} (h1 : a ≤ x) (h2 : x ≤ b) : x ^ 2 ≤ max (a ^ 2) (b ^ 2) := by
  rcases le_total 0 x with h | h
  · exact le_max_of_le_right (by nlinarith)
  · exact le_max_of_le_left (by nlinarith)

theorem sqGen_guard : guardGen (fun _ _ _ _ => True) sqGen = sqGen := by
  funext x0 tr d
  unfold guardGen
  rw [if_pos]
  intros
  trivial

theorem sqGen_sound : SoundGenerator (fun x : ℚ => x ^ 2) (fun _ => True) sqGen := by
  have h : ScalarSound (fun x : ℚ => x ^ 2) sqTaylor sqScalar (fun _ _ _ _ => True) := by
    intro x0 a b d s ha hb _ hs
    unfold sqScalar at hs
    by_cases hd0 : d = 0
    · subst hd0
      rw [if_pos rfl] at hs
      cases hs
      refine ⟨rfl, ?_, ?_, [x0 ^ 2], rfl, fun i hi => by omega⟩
      · show (0 : ℚ) ≤ max (a ^ 2) (b ^ 2)
        exact (sq_nonneg a).trans (le_max_left _ _)
      · intro x hx1 hx2
        refine ⟨x ^ 2, sq_nonneg x, sq_le_max hx1 hx2, ?_⟩
        simp
    rw [if_neg hd0] at hs
    by_cases hd : d = 1
    · subst hd
      rw [if_pos rfl] at hs
      cases hs
      refine ⟨rfl, ?_, ?_, [x0 ^ 2], rfl, ?_⟩
      · show a + x0 ≤ b + x0
        linarith
      · intro x hx1 hx2
        refine ⟨x + x0, ?_, ?_, ?_⟩
        · show a + x0 ≤ x + x0
          linarith
        · show x + x0 ≤ b + x0
          linarith
        · simp
          ring
      · intro i hi
        obtain rfl : i = 0 := by omega
        rfl
    · rw [if_neg hd] at hs
      cases hs
  exact sqGen_guard ▸ soundGenerator_lift h

theorem sqGen_isotone : IsotoneGen sqGen := by
  have h : ScalarIsotone sqScalar (fun _ _ _ _ => True) := by
    intro x0' x0 a' b' a b d s' s h1 h2 h3 h4 h5 h6 hd _ _ e' e
    unfold sqScalar at e e'
    by_cases hd0 : d = 0
    · subst hd0
      rw [if_pos rfl] at e e'
      cases e; cases e'
      exact ⟨le_rfl, (sq_nonneg a').trans (le_max_left _ _),
        max_le (sq_le_max h1 (h2.trans (h3.trans h4))) (sq_le_max (h1.trans (h2.trans h3)) h4)⟩
    rw [if_neg hd0] at e e'
    by_cases hd1 : d = 1
    · subst hd1
      rw [if_pos rfl] at e e'
      cases e; cases e'
      obtain rfl := hd one_ne_zero
      refine ⟨?_, ?_, ?_⟩ <;> simp <;> linarith
    · rw [if_neg hd1] at e
      cases e
  exact sqGen_guard ▸ isotone_lift h

/-- the tables with the primitive `sq` registered -/
def sqLib : Lib ℚ := (polyLib : Lib ℚ).register "sq" sqGen
def sqSem : Sem ℚ := (polySem : Sem ℚ).define "sq" fun x => x ^ 2

theorem sqLib_sound : LibSound sqLib sqSem :=
  C54_register_sound polyLib_sound sqGen_sound (keepsShape_lift _ _) fun _ h => by cases h

theorem sqLib_isotone : LibIsotone sqLib where
  gen n g h := by
    replace h : (if n = "sq" then some sqGen else none) = some g := h
    split_ifs at h
    cases h
    exact sqGen_isotone
  pow p := by
    intro _ _ _ _ _ _ _ _ _ _ _ _ _ _ _ _ h
    cases h

/-- `f(x) = sq(x * x)` -/
def exSq : Jaxpr ℚ where
  constvars := []
  invars := [0]
  outvars := [.var 2]
  eqns := [⟨.mul, [.var 0, .var 0], [1]⟩, ⟨.elementwise "sq", [.var 1], [2]⟩]

/-- C78 for `sq(x * x)` of degree 1 about 1 on `[0, 2]`: the last coefficient is `[1, 15]` with propagated trust regions
and `[-3, 15]` without. -/
theorem C78_instance : ∃ b' b : Bounds ℚ,
    taylorBounds sqLib exSq [] 1 true (ND.scalar 1) (ND.scalar 0) (ND.scalar 2) = .ok b' ∧
    taylorBounds sqLib exSq [] 1 false (ND.scalar 1) (ND.scalar 0) (ND.scalar 2) = .ok b ∧
    NestE b'.coefficients b.coefficients ∧
    (b'.coefficients.map fun c => (c.lo.get [], c.hi.get [])) = [(1, 1), (1, 15)] ∧
    (b.coefficients.map fun c => (c.lo.get [], c.hi.get [])) = [(1, 1), (-3, 15)] := by
  have hq : (do
      let b' ← taylorBounds sqLib exSq [] 1 true (ND.scalar 1) (ND.scalar 0) (ND.scalar 2)
      let b ← taylorBounds sqLib exSq [] 1 false (ND.scalar 1) (ND.scalar 0) (ND.scalar 2)
      return decide ((b'.coefficients.map fun c => (c.lo.get [], c.hi.get [])) = [(1, 1), (1, 15)] ∧
        (b.coefficients.map fun c => (c.lo.get [], c.hi.get [])) = [(1, 1), (-3, 15)]) : Py Bool) = .ok true := by
    decide +kernel
  simp only [py_bind_ok, py_pure, decide_eq_true_eq] at hq
  obtain ⟨b', hb', b, hb, h1, h2⟩ := hq
  have hw : Within (ND.scalar (1 : ℚ)) (ND.scalar 0) (ND.scalar 2) (ND.scalar 0) (ND.scalar 2) :=
    ⟨⟨rfl, rfl, rfl, rfl⟩, fun I _ => by simp only [ND.scalar]; norm_num⟩
  obtain ⟨vals, hv, hne⟩ : ∃ vals, evalEnv sqSem exSq [] (ND.scalar 1) = .ok vals ∧ NonEmptyVals vals := by
    refine ⟨_, rfl, ?_⟩
    intro va hva
    rcases hva with _ | ⟨_, hva⟩
    · exact ⟨[], .nil⟩
    rcases hva with _ | ⟨_, hva⟩
    · exact ⟨[], .nil⟩
    rcases hva with _ | ⟨_, hva⟩
    · exact ⟨[], .nil⟩
    cases hva
  have hfit : ProgramFits sqSem exSq [] (ND.scalar 1) := by
    refine ⟨by decide, _, countsFit_trivial _, ?_⟩
    refine ⟨fun _ a o ha ho => ?_, fun v1 h1 => ?_⟩
    · cases ha; cases ho
      trivial
    cases h1
    refine ⟨fun _ a o ha ho => ?_, fun v2 h2 => trivial⟩
    cases ha; cases ho
    trivial
  refine ⟨b', b, hb', hb, C78_coefficients sqLib_isotone ?_ hw (fun z _ => sqLib_sound.at z) hfit hv hne hb' hb, h1, h2⟩
  intro eqn he
  rcases List.mem_cons.1 he with rfl | he
  · trivial
  · obtain rfl := List.mem_singleton.1 he
    trivial

/-- C78 with the code's own tables, for `x * exp(x)` of every degree, about every point and over every region. -/
example (x0 lo hi : ℝ) (h1 : lo ≤ x0) (h2 : x0 ≤ hi) (md : ℤ) (hmd : 1 ≤ md) : ∃ b' b : Bounds ℝ,
    taylorBounds realLib exX [] md true (ND.scalar x0) (ND.scalar lo) (ND.scalar hi) = .ok b' ∧
    taylorBounds realLib exX [] md false (ND.scalar x0) (ND.scalar lo) (ND.scalar hi) = .ok b ∧
    NestE b'.coefficients b.coefficients := by
  obtain ⟨b', hb', -⟩ := exX_all x0 lo hi h1 h2 md hmd true
  obtain ⟨b, hb, -⟩ := exX_all x0 lo hi h1 h2 md hmd false
  rw [← exX_table] at hb hb'
  have hw : Within (ND.scalar x0) (ND.scalar lo) (ND.scalar hi) (ND.scalar lo) (ND.scalar hi) :=
    ⟨⟨rfl, rfl, rfl, rfl⟩, fun I _ => ⟨le_rfl, h1, h2, le_rfl⟩⟩
  have := C78_builtin (jaxpr := exX) (by
    intro eqn he
    rcases List.mem_cons.1 he with rfl | he
    · trivial
    · obtain rfl := List.mem_singleton.1 he
      trivial) hw (exX_fits x0) rfl (exX_nonEmpty x0 rfl) hb' hb
  exact ⟨b', b, this.1, this.2.1, this.2.2.1⟩

end JB
end AB
