/-
Lemmas for the notebook programs: Taylor enclosures of a scalar function of a scalar.
-/
import Verif.Model.Notebooks
import Verif.Spec.Notebooks
import Verif.Props.Gap
import Verif.Props.PolyExact

set_option linter.unusedSectionVars false

namespace AB
namespace NB
variable {K : Type} [Field K] [LinearOrder K] [IsStrictOrderedRing K]
open JB

/-- end points of a coefficient of rank 0 -/
def lo0 (c : Coef K) : K := (TEA.toInterval c).1.get []
def hi0 (c : Coef K) : K := (TEA.toInterval c).2.get []

/-- value of a polynomial given by its coefficients -/
def evalAt (cs : List K) (z : K) : K := ∑ i ∈ Finset.range cs.length, cs.getD i 0 * z ^ i

theorem enum_map_sum {F : Type} (a : List F) (d : F) (g : ℕ → F → K) :
    ((Poly.enum a).map fun x => g x.1 x.2).sum = ∑ i ∈ Finset.range a.length, g i (a.getD i d) := by
  rw [← Poly.list_range_sum]
  congr 1
  apply List.ext_getElem? fun i => ?_
  rw [List.getElem?_map, List.getElem?_map, Poly.enum_getElem?]
  by_cases h : i < a.length
  · rw [List.getElem?_eq_getElem h, List.getElem?_range h]
    simp [h]
  · rw [List.getElem?_eq_none (by omega), List.getElem?_eq_none (by simpa using h)]
    rfl

theorem monomial_scalar (z : ND K) (n : ℕ) : monomialAt z n [] = z.get [] ^ n := by
  induction n with
  | zero => simp [monomialAt, groups]
  | succ n ih =>
    unfold monomialAt at ih ⊢
    simp only [groups, List.map_cons, List.prod_cons, List.take_nil, List.drop_nil, ih]
    rw [pow_succ']

theorem sumOver_scalar {E : Encl K} {z : ND K} (hz : z.shape = []) (g : Coef K → List ℕ → K → K) :
    sumOver E z g = ∑ i ∈ Finset.range E.length, g (E[i]?.getD (.arr (ND.scalar 0))) [] (z.get [] ^ i) := by
  unfold sumOver
  rw [← Poly.list_range_sum]
  refine congrArg List.sum (List.map_congr_left fun i _ => ?_)
  have e : (List.replicate i z.shape).flatten = [] := by rw [hz]; simp
  rw [e]
  simp only [idx, List.map_cons, List.map_nil, List.sum_cons, List.sum_nil, add_zero]
  rw [monomial_scalar]

theorem ble_nil {B : List ℕ} (h : ble B []) : B = [] := List.eq_nil_of_length_eq_zero (Nat.le_zero.1 (ble_length h))

/-- all coefficients of an enclosure of a scalar function of a scalar have rank 0 -/
theorem scalar_shapes {E : Encl K} {z y : ND K} (hs : SoundEncl E z y) (hz : z.shape = []) (hy : y.shape = [])
    {c : Coef K} (hc : c ∈ E) :
    c.shape = [] ∧ (TEA.toInterval c).1.shape = [] ∧ (TEA.toInterval c).2.shape = [] := by
  obtain ⟨hV, -⟩ := (encloses_iff hs.wf).1 hs.encl
  obtain ⟨i, hi⟩ := List.mem_iff_getElem?.1 hc
  obtain ⟨hw, B, hB, hb⟩ := hV i c hi
  rw [hy] at hb
  have hsh : c.shape = [] := by
    rw [hB, ble_nil hb, hz]
    show [] ++ (List.replicate i []).flatten = []
    simp
  refine ⟨hsh, ?_⟩
  cases c with
  | arr a => exact ⟨hsh, hsh⟩
  | ivl l u => exact ⟨hsh, (show l.shape = u.shape from hw) ▸ hsh⟩

theorem getD_map0 (E : Encl K) (f : Coef K → K) (hf : f (.arr (ND.scalar 0)) = 0) (i : ℕ) :
    (E.map f).getD i 0 = f (E[i]?.getD (.arr (ND.scalar 0))) := by
  rw [List.getD_eq_getElem?_getD, List.getElem?_map]
  cases E[i]? with
  | none => simp [hf]
  | some c => rfl

/-- the two polynomials of the end points bound the function, where the monomials of the interval coefficients are
not negative -/
theorem scalar_poly_bounds {E : Encl K} {z y : ND K} (hs : SoundEncl E z y) (hz : z.shape = []) (hy : y.shape = [])
    (hnn : ∀ (i : ℕ) (c : Coef K), E[i]? = some c → c.IsArr ∨ 0 ≤ z.get [] ^ i) :
    ∃ r, Poly.evalTaylorEnclosure E (.arr z) = .ok r ∧ r.shape = [] ∧
      evalAt (E.map lo0) (z.get []) = (TEA.toInterval r).1.get [] ∧
      evalAt (E.map hi0) (z.get []) = (TEA.toInterval r).2.get [] ∧
      evalAt (E.map lo0) (z.get []) ≤ y.get [] ∧ y.get [] ≤ evalAt (E.map hi0) (z.get []) := by
  obtain ⟨r, hr, hcov⟩ := hs.encl
  obtain ⟨hV, -⟩ := (encloses_iff hs.wf).1 hs.encl
  obtain ⟨hW, -, hmin, -, -⟩ := eval_ok (Coef.WF_arr _) (zmem_self z) hs.wf.wfe hr
  have hsh : r.shape = [] := ble_nil (hy ▸ hmin _ hV)
  obtain ⟨h1, h2, -⟩ := C62_point_value hs.wf hr (I := []) (by rw [hsh]; exact .nil)
  rw [sumOver_scalar hz] at h1 h2
  have hone : ∀ (i : ℕ) (c : Coef K), E[i]? = some c → lo0 c ≤ hi0 c ∧ loAt c [] = lo0 c ∧ hiAt c [] = hi0 c := by
    intro i c hc
    obtain ⟨s1, s2, s3⟩ := scalar_shapes hs hz hy (List.mem_of_getElem? hc)
    have hwf := hs.wf c (List.mem_of_getElem? hc)
    refine ⟨?_, by unfold loAt lo0; rw [s1]; rfl, by unfold hiAt hi0; rw [s1]; rfl⟩
    cases c with
    | arr a => exact le_rfl
    | ivl l u => exact hwf.2 [] (by rw [show l.shape = [] from s1]; exact .nil)
  have e1 : evalAt (E.map lo0) (z.get []) = (TEA.toInterval r).1.get [] := by
    rw [h1]
    unfold evalAt
    rw [List.length_map]
    refine Finset.sum_congr rfl fun i hi => ?_
    have hi := Finset.mem_range.1 hi
    have e : E[i]? = some E[i] := List.getElem?_eq_getElem hi
    rw [getD_map0 E lo0 rfl, e, Option.getD_some]
    obtain ⟨k1, k2, k3⟩ := hone i _ e
    rw [List.append_nil, k2, k3]
    rcases hnn i _ e with ha | hp
    · have : lo0 E[i] = hi0 E[i] := by
        cases hc : E[i] with
        | arr a => rfl
        | ivl l u => rw [hc] at ha; exact absurd ha id
      rw [← this, min_self]
    · rw [min_eq_left (mul_le_mul_of_nonneg_right k1 hp)]
  have e2 : evalAt (E.map hi0) (z.get []) = (TEA.toInterval r).2.get [] := by
    rw [h2]
    unfold evalAt
    rw [List.length_map]
    refine Finset.sum_congr rfl fun i hi => ?_
    have hi := Finset.mem_range.1 hi
    have e : E[i]? = some E[i] := List.getElem?_eq_getElem hi
    rw [getD_map0 E hi0 rfl, e, Option.getD_some]
    obtain ⟨k1, k2, k3⟩ := hone i _ e
    rw [List.append_nil, k2, k3]
    rcases hnn i _ e with ha | hp
    · have : lo0 E[i] = hi0 E[i] := by
        cases hc : E[i] with
        | arr a => rfl
        | ivl l u => rw [hc] at ha; exact absurd ha id
      rw [← this, max_self]
    · rw [max_eq_right (mul_le_mul_of_nonneg_right k1 hp)]
  have hcont := Coef.contains_of_covers hW hcov (hy.trans hsh.symm)
  have hm := hcont.2 [] (by rw [hsh]; exact .nil)
  refine ⟨r, hr, hsh, e1, e2, ?_, ?_⟩
  · rw [e1]
    cases r with
    | arr a => exact le_of_eq (show y.get [] = a.get [] from hm).symm
    | ivl l u => exact hm.1
  · rw [e2]
    cases r with
    | arr a => exact le_of_eq (show y.get [] = a.get [] from hm)
    | ivl l u => exact hm.2

theorem Computes.sub {sem : Sem K} {jaxpr : Jaxpr K} {consts : List (ND K)} {f : K → K} {a b a' b' : K}
    (h : Computes sem jaxpr consts f a b) (ha : a ≤ a') (hb : b' ≤ b) : Computes sem jaxpr consts f a' b' :=
  ⟨fun x h1 h2 => h.eval x (ha.trans h1) (h2.trans hb), fun x h1 h2 => h.fits x (ha.trans h1) (h2.trans hb)⟩

/-- the enclosure returned for a scalar program, at a point of the region -/
theorem computes_sound {lib : Lib K} {sem : Sem K} (hlib : LibSound lib sem) {jaxpr : Jaxpr K}
    {consts : List (ND K)} {f : K → K} {a b x0 x : K} (hf : Computes sem jaxpr consts f a b) {degree : ℤ}
    {propagate : Bool} {bnd : Bounds K} (h0 : a ≤ x0 ∧ x0 ≤ b) (hx : a ≤ x ∧ x ≤ b)
    (hb : taylorBounds lib jaxpr consts degree propagate (ND.scalar x0) (ND.scalar a) (ND.scalar b) = .ok bnd) :
    ∃ z y : ND K, z.shape = [] ∧ z.get [] = x - x0 ∧ y.shape = [] ∧ y.get [] = f x ∧
      bnd.x0 = ND.scalar x0 ∧ ND.map2 (· - ·) (ND.scalar x) (ND.scalar x0) = .ok z ∧
      bnd.coefficients.length ≤ degree.toNat + 1 ∧ SoundEncl bnd.coefficients z y := by
  obtain ⟨v0, y0, e0, n0, -, -, -⟩ := hf.eval x0 h0.1 h0.2
  obtain ⟨v, y, e, n, hy, hys, hyv⟩ := hf.eval x hx.1 hx.2
  have hmd : 0 ≤ degree := by
    simp only [taylorBounds, py_bind_ok] at hb
    obtain ⟨env, he, -⟩ := hb
    exact (taylorEnv_inv he).1
  have m0 : (Coef.ivl (ND.scalar a) (ND.scalar b)).Contains (ND.scalar x0) := ⟨rfl, fun _ _ => h0⟩
  have mx : (Coef.ivl (ND.scalar a) (ND.scalar b)).Contains (ND.scalar x) := ⟨rfl, fun _ _ => hx⟩
  have hok := taylorBoundsOk_of_fits (lib := lib) (propagate := propagate) hlib hmd
    (lo := ND.scalar a) (hi := ND.scalar b) rfl m0 (hf.fits x0 h0.1 h0.2) e0 n0
  obtain ⟨z, y', hz, hy', hx0, -, -, -, hlen, hzs, hs⟩ := taylorBounds_sound hlib (lo := ND.scalar a) (hi := ND.scalar b) rfl m0 mx hb hok e n
  rw [hy] at hy'
  cases hy'
  refine ⟨z, y, hzs, ?_, hys, hyv, hx0, hz, hlen, hs⟩
  cases hz
  rfl

theorem floats_ok {E : Encl K} {g : Coef K → ND K} (h : ∀ c ∈ E, (g c).shape = []) :
    E.mapM (fun c => toFloat (g c)) = .ok (E.map fun c => (g c).get []) := by
  induction E with
  | nil => rfl
  | cons c E ih =>
    rw [List.mapM_cons, show toFloat (g c) = .ok ((g c).get []) by
      unfold toFloat; rw [if_pos (h c List.mem_cons_self)], py_ok_bind,
      ih fun d hd => h d (List.mem_cons_of_mem _ hd)]
    rfl

end NB
end AB
