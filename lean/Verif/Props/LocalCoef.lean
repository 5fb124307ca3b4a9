/-
C45 for the tables of jax_bound.py, for trust regions of any size and without conditions on the enclosure generators.
-/
import Verif.Proofs.Local3
import Verif.Props.TaylorCoef
import Verif.Props.Lead

set_option linter.unusedSectionVars false

namespace AB
namespace JB
open EF PE Set TEA

theorem eqnReturns_fix {xs : List ℕ} {md : ℕ} (hmd : md ≠ 0) {cs : List ℤ} {p : Prim ℝ} {invars : List (Atom ℝ)}
    {args : List (ND ℝ)} (h : EqnReturns shapeLib xs md false cs p invars args) :
    EqnReturns fixLib xs md false cs p invars args := by
  have hu : ∀ p, GenUsable md false (fixLib.powGen p) := fun p => ⟨fixGen_total _ _ hmd, fun h => by cases h⟩
  have ht : ∀ p, GenTotal (fixLib.powGen p) md := fun p => fixGen_total _ _ hmd
  cases p with
  | div =>
    rcases args with _ | ⟨a, _ | ⟨b, _ | ⟨c, l⟩⟩⟩ <;> try exact h
    exact ⟨h.1, hu _⟩
  | integerPow y =>
    rcases args with _ | ⟨a, _ | ⟨b, l⟩⟩ <;> try exact h
    exact ⟨h.1, h.2.1, fun hy => ⟨(h.2.2 hy).1, hu _⟩⟩
  | pow =>
    rcases invars with _ | ⟨u, _ | ⟨v, _ | ⟨w, l⟩⟩⟩ <;> try exact h
    rcases args with _ | ⟨a, _ | ⟨b, _ | ⟨c, l⟩⟩⟩ <;> try exact h
    obtain ⟨h1, h2, h3, h4, h5⟩ := h
    refine ⟨h1, h2, h3, h4, ?_⟩
    have e : fixLib.expo (b.get []) = shapeLib.expo (b.get []) := rfl
    rw [e]
    cases hex : shapeLib.expo (b.get []) with
    | frac q => exact ht _
    | int n => rw [hex] at h5; exact ⟨h5.1, ht _⟩
  | elementwise name =>
    rcases args with _ | ⟨a, _ | ⟨b, l⟩⟩ <;> try exact h
    obtain ⟨h1, g, hg, -⟩ := h
    refine ⟨h1, ?_⟩
    simp only [shapeLib, Option.map_eq_some_iff] at hg
    obtain ⟨g0, hg0, -⟩ := hg
    rcases tcOf_realGen name with ⟨tc, g', h2, -⟩ | ⟨-, h2⟩
    · refine ⟨fixGen (fnOf name) tc, by simp only [fixLib, h2, Option.map_some], fixGen_total _ _ hmd, fun h => by cases h⟩
    · have : realGen name = some g0 := hg0
      rw [h2] at this; cases this
  | conv op =>
    rcases args with _ | ⟨a, _ | ⟨b, _ | ⟨c, l⟩⟩⟩ <;> exact h
  | jit body =>
    rcases args with _ | ⟨a, _ | ⟨b, l⟩⟩ <;> exact h
  | _ => exact h

theorem eqnsReturn_fix {xs : List ℕ} {md : ℕ} (hmd : md ≠ 0) : ∀ {eqns : List (Eqn ℝ)} {cs : List ℤ} {vals : Vals ℝ},
    EqnsReturn shapeLib realSem xs md false cs vals eqns → EqnsReturn fixLib realSem xs md false cs vals eqns
  | [], _, _, _ => trivial
  | eqn :: eqns, cs, vals, h => by
    refine ⟨fun args ha => ?_, fun vals' hv => eqnsReturn_fix hmd (h.2 vals' hv)⟩
    have := h.1 args ha
    split_ifs at this ⊢
    · exact this
    · exact eqnReturns_fix hmd this

theorem programReturns_fix {jaxpr : Jaxpr ℝ} {consts : List (ND ℝ)} {md : ℤ} (hmd : 0 < md) {x0 : ND ℝ}
    (h : ProgramReturns shapeLib realSem jaxpr consts md false x0) :
    ProgramReturns fixLib realSem jaxpr consts md false x0 :=
  eqnsReturn_fix (by omega) h

/-- the cube of radius `s` about `x0` -/
def cubeLo (x0 : ND ℝ) (s : ℝ) : ND ℝ := ⟨x0.shape, fun I => x0.get I - s⟩
def cubeHi (x0 : ND ℝ) (s : ℝ) : ND ℝ := ⟨x0.shape, fun I => x0.get I + s⟩

theorem cube_contains (x0 : ND ℝ) {s : ℝ} (hs : 0 ≤ s) : (Coef.ivl (cubeLo x0 s) (cubeHi x0 s)).Contains x0 := by
  refine ⟨rfl, fun I _ => ?_⟩
  show x0.get I - s ≤ x0.get I ∧ x0.get I ≤ x0.get I + s
  constructor <;> linarith

/-- near `x0` the restricted tables give a run -/
theorem local_run {jaxpr : Jaxpr ℝ} {consts : List (ND ℝ)} {d : ℕ} (hd : 0 < d) {x0 y0 : ND ℝ}
    (hrank : x0.shape.length ≤ 1) (hwf : WellFormedProgram jaxpr consts) (hfit : ProgramFits realSem jaxpr consts x0)
    (hret : ProgramReturns shapeLib realSem jaxpr consts d false x0)
    (hp : ∀ eqn ∈ jaxpr.eqns, PrimIsotone eqn.prim) (hq : ∀ eqn ∈ jaxpr.eqns, PrimLipschitz eqn.prim)
    (hsm : SmoothArgs jaxpr consts d x0) {vals : Vals ℝ} (hev : evalEnv realSem jaxpr consts x0 = .ok vals)
    (hne : NonEmptyVals vals) (hy : evalJaxpr realSem jaxpr consts x0 = .ok y0) :
    ∃ s : ℝ, 0 < s ∧ ∃ b, taylorBounds localLib jaxpr consts d false x0 (cubeLo x0 s) (cubeHi x0 s) = .ok b := by
  have hmd : (0 : ℤ) < d := by exact_mod_cast hd
  let ι := {s : ℝ // 0 < s ∧ s ≤ 1}
  let w : ι → ℝ := fun s => 2 * s.1
  let i0 : ι := ⟨1, one_pos, le_rfl⟩
  have hc : ∀ s : ι, (Coef.ivl (cubeLo x0 s.1) (cubeHi x0 s.1)).Contains x0 := fun s => cube_contains x0 s.2.1.le
  have hsh : ∀ s : ι, (cubeLo x0 s.1).shape = (cubeHi x0 s.1).shape := fun _ => rfl
  have hs : Shrink w i0 x0 (fun s => cubeLo x0 s.1) (fun s => cubeHi x0 s.1) := by
    refine ⟨fun s => ⟨⟨rfl, rfl, rfl, rfl⟩, fun I _ => ?_⟩, fun s I _ => ?_⟩
    · obtain ⟨s, h1, h2⟩ := s
      show x0.get I - 1 ≤ x0.get I - s ∧ x0.get I - s ≤ x0.get I ∧ x0.get I ≤ x0.get I + s ∧ x0.get I + s ≤ x0.get I + 1
      refine ⟨?_, ?_, ?_, ?_⟩ <;> linarith
    · show x0.get I + s.1 - (x0.get I - s.1) ≤ 2 * s.1
      linarith
  have hrun : ∀ s : ι, ∃ b, taylorBounds fixLib jaxpr consts d false x0 (cubeLo x0 s.1) (cubeHi x0 s.1) = .ok b := by
    intro s
    have hok := taylorBoundsOk_of_fits_at hmd.le (propagate := false) (fixLib_at_ref x0) (hsh s) (hc s) hfit hev hne
    have hr := taylorBoundsReturns_of_at fixLib_arr fixLib_full hmd.le (fixLib_at_ref x0) (hsh s) (hc s) hfit
      (programReturns_fix hmd hret) hev hne
    exact returns_at fixLib_arr hmd.le (fixLib_at_ref x0) (hsh s) hrank (hc s) (hc s) hwf (fun h => by cases h) hok hr hev hne hy
  choose b hb using hrun
  simp only [taylorBounds, py_bind_ok] at hb
  choose env he hb using hb
  obtain ⟨σ, hσ, h⟩ := local_of_fix (w := w) (i0 := i0) (fun s => by have := s.2.1; show 0 ≤ 2 * s.1; linarith) hmd hs
    (fun _ => rfl) hc hfit (by simpa using hsm) hp hq hev hne jaxpr.eqns [] (List.append_nil _).symm env he
  let s1 : ι := ⟨min 1 (σ / 2), lt_min one_pos (by linarith), min_le_left _ _⟩
  refine ⟨s1.1, s1.2.1, b s1, ?_⟩
  unfold taylorBounds
  refine py_bind_ok.2 ⟨env s1, h s1 ?_, hb s1⟩
  show 2 * min 1 (σ / 2) ≤ σ
  have := min_le_right 1 (σ / 2)
  linarith

/-- **C45 (the tables of jax_bound.py, every trust region).**  Let the program be one that `taylor_bounds` accepts
(conditions on shapes and primitives only, `ProgramReturns shapeLib`), let every argument of an element-wise function, every
denominator and every base of a power have, at `x0`, a value where the function is smooth, and let `taylor_bounds` return
— over any trust region, however small or large, with or without propagation, also when the enclosure itself is wrong because of
the tolerance in `taylor_remainder_ratio` (C30).  Then for every output entry `I` and every direction `v`, with
`g t = f(x0 + t v)[I]` near 0, the coefficient of degree `i < max_degree`, contracted with `v`, is the Taylor coefficient
of `g` at 0. -/
theorem C45_tables {jaxpr : Jaxpr ℝ} {consts : List (ND ℝ)} {d : ℕ} {propagate : Bool} {x0 lo hi y0 : ND ℝ}
    {bnd : Bounds ℝ} (hrank : x0.shape.length ≤ 1) (hwf : WellFormedProgram jaxpr consts)
    (hfit : ProgramFits realSem jaxpr consts x0) (hret : ProgramReturns shapeLib realSem jaxpr consts d false x0)
    (hp : ∀ eqn ∈ jaxpr.eqns, PrimIsotone eqn.prim) (hq : ∀ eqn ∈ jaxpr.eqns, PrimLipschitz eqn.prim)
    (hsm : SmoothArgs jaxpr consts d x0) {vals : Vals ℝ} (hev : evalEnv realSem jaxpr consts x0 = .ok vals)
    (hne : NonEmptyVals vals) (hy : evalJaxpr realSem jaxpr consts x0 = .ok y0) (hlo : lo.shape = x0.shape)
    (hb : taylorBounds realLib jaxpr consts d propagate x0 lo hi = .ok bnd)
    {v : ND ℝ} (hv : v.shape = x0.shape) {ε : ℝ} (hε : 0 < ε) {I : List ℕ} {g : ℝ → ℝ}
    (hg : ∀ t ∈ Icc 0 ε, ∃ vals y, evalEnv realSem jaxpr consts ⟨x0.shape, fun J => x0.get J + t * v.get J⟩ =
      .ok vals ∧ NonEmptyVals vals ∧
      evalJaxpr realSem jaxpr consts ⟨x0.shape, fun J => x0.get J + t * v.get J⟩ = .ok y ∧
      ValidIdx y.shape I ∧ y.get I = g t)
    (hgs : ContDiffAt ℝ d g 0) :
    ∀ i < d, coefForm bnd.coefficients I v i = iteratedDeriv i g 0 / i.factorial := by
  intro i hid
  have hd : 0 < d := by omega
  obtain ⟨s, hs, b, hlb⟩ := local_run hd hrank hwf hfit hret hp hq hsm hev hne hy
  have hc := cube_contains x0 hs.le
  -- a bound for the direction
  obtain ⟨B, hB0, hB⟩ : ∃ B : ℝ, 0 < B ∧ ∀ J, ValidIdx x0.shape J → |v.get J| ≤ B := by
    have key : ∀ l : List (List ℕ), ∃ B : ℝ, 0 < B ∧ ∀ J ∈ l, |v.get J| ≤ B := by
      intro l
      induction l with
      | nil => exact ⟨1, one_pos, by simp⟩
      | cons J l ih =>
        obtain ⟨B, h1, h2⟩ := ih
        refine ⟨max B |v.get J|, lt_max_of_lt_left h1, fun L hL => ?_⟩
        rcases List.mem_cons.1 hL with rfl | hL
        · exact le_max_right _ _
        · exact (h2 L hL).trans (le_max_left _ _)
    obtain ⟨B, h1, h2⟩ := key (idx x0.shape)
    exact ⟨B, h1, fun J hJ => h2 J (mem_idx.2 hJ)⟩
  have hε' : 0 < min ε (s / B) := lt_min hε (div_pos hs hB0)
  have hok := taylorBoundsOk_of_fits localLib_sound (maxDegree := (d : ℤ)) (by omega) (propagate := false) (show (cubeLo x0 s).shape = (cubeHi x0 s).shape from rfl) hc hfit hev hne
  have hcoef := C45_taylor_polynomial localLib_sound localLib_arr (lo := cubeLo x0 s) (hi := cubeHi x0 s) rfl hc hlb hok hv hε' (I := I) (g := g) (fun t ht => by
      refine ⟨rfl, fun J hJ => ?_⟩
      have hJ' : ValidIdx x0.shape J := hJ
      show x0.get J - s ≤ x0.get J + t * v.get J ∧ x0.get J + t * v.get J ≤ x0.get J + s
      have ht1 : t ≤ s / B := ht.2.trans (min_le_right _ _)
      have h1 : |t * v.get J| ≤ s := by
        rw [abs_mul, abs_of_nonneg ht.1]
        calc t * |v.get J| ≤ (s / B) * B := mul_le_mul ht1 (hB J hJ') (abs_nonneg _) (div_pos hs hB0).le
          _ = s := div_mul_cancel₀ _ hB0.ne'
      have := abs_le.1 h1
      constructor <;> linarith [this.1, this.2])
    (fun t ht => hg t ⟨ht.1, ht.2.trans (min_le_left _ _)⟩) hgs i hid
  have hlead := (C76_polynomial_part (md := (d : ℤ)) (localLib_lead _) (show (cubeLo x0 s).shape = lo.shape from hlo.symm)
    hlb hb).2 i (by exact_mod_cast hid)
  rw [← hcoef]
  unfold coefForm coefAt
  rw [hlead]

/-- **C45 (the tables of jax_bound.py, every trust region), scalar input.** -/
theorem C45_tables_scalar {jaxpr : Jaxpr ℝ} {consts : List (ND ℝ)} {d : ℕ} {propagate : Bool} {x0 a b : ℝ}
    {bnd : Bounds ℝ} (hwf : WellFormedProgram jaxpr consts)
    (hfit : ProgramFits realSem jaxpr consts (ND.scalar x0))
    (hret : ProgramReturns shapeLib realSem jaxpr consts d false (ND.scalar x0))
    (hp : ∀ eqn ∈ jaxpr.eqns, PrimIsotone eqn.prim) (hq : ∀ eqn ∈ jaxpr.eqns, PrimLipschitz eqn.prim)
    (hsm : SmoothArgs jaxpr consts d (ND.scalar x0))
    (hb : taylorBounds realLib jaxpr consts d propagate (ND.scalar x0) (ND.scalar a) (ND.scalar b) = .ok bnd)
    {ε : ℝ} (hε : 0 < ε) {I : List ℕ} {F : ℝ → ℝ}
    (hF : ∀ s ∈ Icc x0 (x0 + ε), ∃ vals y, evalEnv realSem jaxpr consts (ND.scalar s) = .ok vals ∧ NonEmptyVals vals ∧
      evalJaxpr realSem jaxpr consts (ND.scalar s) = .ok y ∧ ValidIdx y.shape I ∧ y.get I = F s)
    (hFs : ContDiffAt ℝ d F x0) :
    ∀ i < d, coefAt bnd.coefficients i I = iteratedDeriv i F x0 / i.factorial := by
  intro i hid
  obtain ⟨vals, y, hev, hne, hy, -, -⟩ := hF x0 ⟨le_rfl, by linarith⟩
  have hsc : ∀ t : ℝ, (⟨(ND.scalar x0).shape, fun J => (ND.scalar x0).get J + t * (ND.scalar (1 : ℝ)).get J⟩ : ND ℝ) =
      ND.scalar (x0 + t * 1) := fun t => rfl
  have hgs : ContDiffAt ℝ d (fun t => F (x0 + t * 1)) 0 := by
    have h1 : ContDiffAt ℝ d (fun t : ℝ => x0 + t * 1) 0 := by fun_prop
    have h2 : ContDiffAt ℝ d F (x0 + 0 * 1) := by simpa using hFs
    exact h2.comp 0 h1
  have h := C45_tables (v := ND.scalar 1) (g := fun t => F (x0 + t * 1)) (lo := ND.scalar a) (hi := ND.scalar b)
    (show (ND.scalar x0).shape.length ≤ 1 by simp [ND.scalar])
    hwf hfit hret hp hq hsm hev hne hy rfl hb rfl hε (I := I)
    (fun t ht => by rw [hsc]; exact hF _ ⟨by linarith [ht.1], by linarith [ht.2]⟩) hgs i hid
  have hform : coefForm bnd.coefficients I (ND.scalar 1) i = coefAt bnd.coefficients i I := by
    rw [coefForm_eq, show (ND.scalar (1 : ℝ)).shape = ([] : List ℕ) from rfl,
      pair_scale (z := (ND.scalar (1 : ℝ)).get) (v := fun _ => (1 : ℝ)) (t := 1) (fun c _ => (mul_one 1).symm)]
    have : IA.repS i ([] : List ℕ) = [] := by
      unfold IA.repS; induction i <;> simp_all
    unfold pair zp
    rw [this]
    simp [idx]
  rw [hform] at h
  rw [h]
  simp only [mul_one]
  rw [iteratedDeriv_comp_const_add]
  simp

/-! ### an example -/

theorem exX_shapes (x0 : ℝ) (md : ℤ) : ProgramReturns shapeLib realSem exX [] md false (ND.scalar x0) := by
  refine ⟨fun a ha => ?_, fun v1 h1 => ?_⟩
  · rw [if_neg (by decide)]
    cases ha
    refine ⟨Or.inl rfl, _, rfl, fun _ _ _ _ _ _ => ⟨[], rfl⟩, fun h => ?_⟩
    cases h
  cases h1
  refine ⟨fun a ha => ?_, fun v2 h2 => trivial⟩
  rw [if_neg (by decide)]
  cases ha; trivial

theorem exX_smoothArgs (x0 : ℝ) (d : ℕ) : SmoothArgs exX [] d (ND.scalar x0) := by
  intro pre eqn post t a0 he _ hc _ I _
  have hmem : eqn ∈ exX.eqns := by rw [he]; simp
  simp only [exX, List.mem_cons, List.not_mem_nil, or_false] at hmem
  rcases hmem with rfl | rfl
  · exact ⟨trivial, trivial⟩
  · cases hc

/-- `x * exp(x)` about any `x0`, over **any** trust region `[lo, hi]` that contains `x0` — including those on which the
tolerance of `taylor_remainder_ratio` makes the final interval wrong, and `lo = hi` — in any degree: `taylor_bounds` returns, and
all coefficients below the degree are the Taylor coefficients of `x * exp(x)` at `x0`. -/
theorem C45_tables_example (x0 lo hi : ℝ) (h1 : lo ≤ x0) (h2 : x0 ≤ hi) (d : ℕ) (hd : 1 ≤ d) (propagate : Bool) :
    ∃ bnd, taylorBounds realLib exX [] d propagate (ND.scalar x0) (ND.scalar lo) (ND.scalar hi) = .ok bnd ∧
      ∀ i < d, coefAt bnd.coefficients i [] = iteratedDeriv i (fun x => x * Real.exp x) x0 / i.factorial := by
  obtain ⟨bnd, hb, -⟩ := exX_all x0 lo hi h1 h2 d (by exact_mod_cast hd) propagate
  refine ⟨bnd, hb, ?_⟩
  refine C45_tables_scalar exX_wf (exX_fits x0) (exX_shapes x0 d) ?_ ?_ (exX_smoothArgs x0 d) hb one_pos
    (fun s _ => ⟨_, _, rfl, exX_nonEmpty s rfl, rfl, .nil, rfl⟩) (by fun_prop)
  · intro eqn he
    simp only [exX, List.mem_cons, List.not_mem_nil, or_false] at he
    rcases he with rfl | rfl <;> trivial
  · intro eqn he
    simp only [exX, List.mem_cons, List.not_mem_nil, or_false] at he
    rcases he with rfl | rfl <;> trivial

end JB
end AB
