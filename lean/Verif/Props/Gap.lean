/-
C62: what `TaylorBounds.lower`, `TaylorBounds.upper` (/repo/autobound/jax/jax_bound.py:43-59) evaluate to at a
point, and the distance between the two.
-/
import Verif.Props.Register

set_option linter.unusedSectionVars false

namespace AB
variable {K : Type} [Field K] [LinearOrder K] [IsStrictOrderedRing K]

/-- The end points of a coefficient at an index (after broadcasting); both are the entry if it is an array. -/
def loAt (c : Coef K) (L : List ℕ) : K := (TEA.toInterval c).1.get (bidx c.shape L)
def hiAt (c : Coef K) (L : List ℕ) : K := (TEA.toInterval c).2.get (bidx c.shape L)

/-- `sum_i sum_J g(c_i, J, monomial)` over all coefficients of `E` and all entries of their last axes. -/
def sumOver (E : Encl K) (z : ND K) (g : Coef K → List ℕ → K → K) : K :=
  ((List.range E.length).map fun i =>
    ((idx (List.replicate i z.shape).flatten).map fun J =>
      g (E[i]?.getD (.arr (ND.scalar 0))) J (monomialAt z i J)).sum).sum

theorem list_sum_map_sub {α : Type} (l : List α) (f g : α → K) :
    (l.map f).sum - (l.map g).sum = (l.map fun a => f a - g a).sum := by
  induction l with
  | nil => simp
  | cons a l ih => simp only [List.map_cons, List.sum_cons]; rw [← ih]; ring

theorem polyValue_le_sumOver {E : Encl K} {z : ND K} {w : ℕ → List ℕ → K} {g : Coef K → List ℕ → K → K}
    (h : ∀ i c, E[i]? = some c → ∀ J, ValidIdx (List.replicate i z.shape).flatten J →
      w i J * monomialAt z i J ≤ g c J (monomialAt z i J)) : polyValue z E.length w ≤ sumOver E z g := by
  refine List.sum_le_sum fun i hi => List.sum_le_sum fun J hJ => ?_
  have hi := List.mem_range.1 hi
  have e : E[i]? = some E[i] := List.getElem?_eq_getElem hi
  rw [e, Option.getD_some]
  exact h i _ e J (mem_idx.1 hJ)

theorem sumOver_le_polyValue {E : Encl K} {z : ND K} {w : ℕ → List ℕ → K} {g : Coef K → List ℕ → K → K}
    (h : ∀ i c, E[i]? = some c → ∀ J, ValidIdx (List.replicate i z.shape).flatten J →
      g c J (monomialAt z i J) ≤ w i J * monomialAt z i J) : sumOver E z g ≤ polyValue z E.length w := by
  refine List.sum_le_sum fun i hi => List.sum_le_sum fun J hJ => ?_
  have hi := List.mem_range.1 hi
  have e : E[i]? = some E[i] := List.getElem?_eq_getElem hi
  rw [e, Option.getD_some]
  exact h i _ e J (mem_idx.1 hJ)

theorem atIdx_lohi {c : Coef K} (hc : c.WellFormed) {L : List ℕ} {v : K} :
    c.AtIdx (bidx c.shape L) v ↔ loAt c L ≤ v ∧ v ≤ hiAt c L := by
  cases c with
  | arr a => exact ⟨fun h => ⟨le_of_eq (show v = _ from h).symm, le_of_eq (show v = _ from h)⟩,
      fun h => le_antisymm h.2 h.1⟩
  | ivl l u => exact Iff.rfl

/-- **C62 (value at a point).** At a point `z`, the lower end of `eval_taylor_enclosure(E, z)` is the sum, over
all coefficients and all their entries, of the smaller of (lower end × monomial) and (upper end × monomial), the
upper end the sum of the larger ones; and their distance is the sum of (width of the entry) × |monomial|. -/
theorem C62_point_value {E : Encl K} (hE : WellFormedEncl E) {z : ND K} {r : Coef K}
    (h : Poly.evalTaylorEnclosure E (.arr z) = .ok r) {I : List ℕ} (hI : ValidIdx r.shape I) :
    (TEA.toInterval r).1.get I =
      sumOver E z (fun c J m => min (loAt c (I ++ J) * m) (hiAt c (I ++ J) * m)) ∧
    (TEA.toInterval r).2.get I =
      sumOver E z (fun c J m => max (loAt c (I ++ J) * m) (hiAt c (I ++ J) * m)) ∧
    (TEA.toInterval r).2.get I - (TEA.toInterval r).1.get I =
      sumOver E z (fun c J m => (hiAt c (I ++ J) - loAt c (I ++ J)) * |m|) := by
  obtain ⟨hW, hV, -, -, -⟩ := eval_ok (Coef.WF_arr _) (zmem_self z) hE.wfe h
  have hwf := eval_ordered hE h
  have hbI : bidx r.shape I = I := bidx_valid hI
  have hmem : ∀ v, r.AtIdx I v ↔ (TEA.toInterval r).1.get I ≤ v ∧ v ≤ (TEA.toInterval r).2.get I := by
    intro v
    have := atIdx_lohi hwf (L := I) (v := v)
    unfold loAt hiAt at this
    rwa [hbI] at this
  have hle : (TEA.toInterval r).1.get I ≤ (TEA.toInterval r).2.get I := by
    cases r with
    | arr a => exact le_rfl
    | ivl l u => exact hwf.2 I hI
  have hord : ∀ i c, E[i]? = some c → ∀ J, ValidIdx (List.replicate i z.shape).flatten J →
      loAt c (I ++ J) ≤ hiAt c (I ++ J) := by
    intro i c hc J hJ
    obtain ⟨-, B, hB, hle⟩ := hV i c hc
    have hw := hE c (List.mem_of_getElem? hc)
    cases c with
    | arr a => exact le_rfl
    | ivl l u =>
      refine hw.2 _ ?_
      refine validIdx_bidx (R := r.shape ++ IA.repS i z.shape) ?_ (validIdx_append hI hJ)
      rw [show l.shape = B ++ IA.repS i z.shape from hB]
      exact ble_append hle (ble_refl _) rfl
  have pick : ∀ s : Coef K → List ℕ → K → K,
      (∀ i c, E[i]? = some c → ∀ J, ValidIdx (List.replicate i z.shape).flatten J →
        loAt c (I ++ J) ≤ s c J (monomialAt z i J) ∧ s c J (monomialAt z i J) ≤ hiAt c (I ++ J)) →
      r.AtIdx I (polyValue z E.length fun i J => s (E[i]?.getD (.arr (ND.scalar 0))) J (monomialAt z i J)) := by
    intro s hs
    rw [C09_eval_iff_choice hE h hI]
    refine ⟨_, fun i c hc J hJ => ?_, rfl⟩
    rw [atIdx_lohi (hE c (List.mem_of_getElem? hc))]
    simp only [hc, Option.getD_some]
    exact hs i c hc J hJ
  have hlo : (TEA.toInterval r).1.get I =
      sumOver E z (fun c J m => min (loAt c (I ++ J) * m) (hiAt c (I ++ J) * m)) := by
    apply le_antisymm
    · have := ((hmem _).1 (pick (fun c J m => if 0 ≤ m then loAt c (I ++ J) else hiAt c (I ++ J)) (by
        intro i c hc J hJ
        have := hord i c hc J hJ
        split_ifs
        · exact ⟨le_rfl, this⟩
        · exact ⟨this, le_rfl⟩))).1
      refine this.trans (polyValue_le_sumOver fun i c hc J hJ => ?_)
      have := hord i c hc J hJ
      simp only [hc, Option.getD_some]
      split_ifs with hm
      · exact le_min le_rfl (mul_le_mul_of_nonneg_right this hm)
      · exact le_min (mul_le_mul_of_nonpos_right this (not_le.1 hm).le) le_rfl
    · obtain ⟨w, hw, e⟩ := (C09_eval_iff_choice hE h hI _).1 ((hmem _).2 ⟨le_rfl, hle⟩)
      rw [e]
      refine sumOver_le_polyValue fun i c hc J hJ => ?_
      obtain ⟨h1, h2⟩ := (atIdx_lohi (hE c (List.mem_of_getElem? hc))).1 (hw i c hc J hJ)
      rcases le_total 0 (monomialAt z i J) with hm | hm
      · exact (min_le_left _ _).trans (mul_le_mul_of_nonneg_right h1 hm)
      · exact (min_le_right _ _).trans (mul_le_mul_of_nonpos_right h2 hm)
  have hhi : (TEA.toInterval r).2.get I =
      sumOver E z (fun c J m => max (loAt c (I ++ J) * m) (hiAt c (I ++ J) * m)) := by
    apply le_antisymm
    · obtain ⟨w, hw, e⟩ := (C09_eval_iff_choice hE h hI _).1 ((hmem _).2 ⟨hle, le_rfl⟩)
      rw [e]
      refine polyValue_le_sumOver fun i c hc J hJ => ?_
      obtain ⟨h1, h2⟩ := (atIdx_lohi (hE c (List.mem_of_getElem? hc))).1 (hw i c hc J hJ)
      rcases le_total 0 (monomialAt z i J) with hm | hm
      · exact (mul_le_mul_of_nonneg_right h2 hm).trans (le_max_right _ _)
      · exact (mul_le_mul_of_nonpos_right h1 hm).trans (le_max_left _ _)
    · have := ((hmem _).1 (pick (fun c J m => if 0 ≤ m then hiAt c (I ++ J) else loAt c (I ++ J)) (by
        intro i c hc J hJ
        have := hord i c hc J hJ
        split_ifs
        · exact ⟨this, le_rfl⟩
        · exact ⟨le_rfl, this⟩))).2
      refine le_trans (sumOver_le_polyValue fun i c hc J hJ => ?_) this
      have := hord i c hc J hJ
      simp only [hc, Option.getD_some]
      split_ifs with hm
      · exact max_le (mul_le_mul_of_nonneg_right this hm) le_rfl
      · exact max_le le_rfl (mul_le_mul_of_nonpos_right this (not_le.1 hm).le)
  refine ⟨hlo, hhi, ?_⟩
  rw [hlo, hhi]
  unfold sumOver
  rw [list_sum_map_sub]
  refine congrArg List.sum (List.map_congr_left fun i hi => ?_)
  rw [list_sum_map_sub]
  refine congrArg List.sum (List.map_congr_left fun J hJ => ?_)
  have hi := List.mem_range.1 hi
  have e : E[i]? = some E[i] := List.getElem?_eq_getElem hi
  have := hord i _ e J (mem_idx.1 hJ)
  rw [e, Option.getD_some]
  beta_reduce
  rcases le_total 0 (monomialAt z i J) with hm | hm
  · rw [abs_of_nonneg hm, max_eq_right (mul_le_mul_of_nonneg_right this hm),
      min_eq_left (mul_le_mul_of_nonneg_right this hm)]
    ring
  · rw [abs_of_nonpos hm, max_eq_left (mul_le_mul_of_nonpos_right this hm),
      min_eq_right (mul_le_mul_of_nonpos_right this hm)]
    ring

namespace JB

/-- **C62.** Let `bnd` be the result of `taylor_bounds` (a program as in C42).  Then `final_interval` returns
`(a, b)`, and at *every* `x` of the shape of `x0`, inside or outside of the trust region, the distance between
`upper(x)` and `lower(x)` is `sum_J (b[I, J] - a[I, J]) * |prod of the entries of x - x0 at J|`, where `J` runs over the
indices of the last `n` copies of the axes of `x0` and `n` is the degree of the bounds.  If the degree of the bounds
is less than `max_degree`, then `a = b` (and the bounds coincide). -/
theorem C62_gap {lib : Lib K} {sem : Sem K} (hlib : LibSound lib sem) (harr : LibArr lib)
    {jaxpr : Jaxpr K} {consts : List (ND K)} {maxDegree : ℤ} {propagate : Bool}
    {x0 lo hi x : ND K} {bnd : Bounds K}
    (hlh : lo.shape = hi.shape) (h0 : (Coef.ivl lo hi).Contains x0) (hx : x.shape = x0.shape)
    (hb : taylorBounds lib jaxpr consts maxDegree propagate x0 lo hi = .ok bnd)
    (hfit : ProgramFits sem jaxpr consts x0)
    {vals0 : Vals K} (hev0 : evalEnv sem jaxpr consts x0 = .ok vals0) (hne0 : NonEmptyVals vals0) :
    ∃ (z : ND K) (n : ℕ) (a b l u : ND K), ND.map2 (· - ·) x x0 = .ok z ∧ n ≤ maxDegree.toNat ∧
      bnd.coefficients.length = n + 1 ∧ bnd.finalInterval = .ok (a, b) ∧ (n < maxDegree.toNat → a = b) ∧
      bnd.lower x = .ok l ∧ bnd.upper x = .ok u ∧ l.shape = u.shape ∧
      ∀ I, ValidIdx l.shape I → u.get I - l.get I =
        ((idx (List.replicate n x0.shape).flatten).map fun J =>
          (b.bget (I ++ J) - a.bget (I ++ J)) * |monomialAt z n J|).sum := by
  have hmd : 0 ≤ maxDegree := by
    simp only [taylorBounds, py_bind_ok] at hb
    obtain ⟨env, he, -⟩ := hb
    exact (taylorEnv_inv he).1
  have hok := taylorBoundsOk_of_fits (lib := lib) hlib hmd (propagate := propagate) hlh h0 hfit hev0 hne0
  obtain ⟨z0, y, hz0, hy, hx0, -, -, -, hlen, hzs, hs⟩ := taylorBounds_sound hlib hlh h0 h0 hb hok hev0 hne0
  have harr' := coefficients_arr harr hb
  have hz' := ND.map2_same (fun a b : K => a - b) hx
  obtain ⟨hV, -⟩ := (encloses_iff hs.wf).1 hs.encl
  have hV' : VE (⟨x.shape, fun I => x.bget I - x0.bget I⟩ : ND K).shape y.shape bnd.coefficients := by
    show VE x.shape _ _
    rw [hx, ← hzs]
    exact hV
  obtain ⟨r, hr, -⟩ := eval_total (Z := .arr ⟨x.shape, fun I => x.bget I - x0.bget I⟩) (Coef.WF_arr _)
    (zmem_self _) hV'
  have hcall : bnd.call x = .ok r := by
    simp only [Bounds.call, hx0, hz', py_ok_bind]
    exact hr
  have hwf := eval_ordered hs.wf hr
  obtain ⟨n, hn⟩ : ∃ n, bnd.coefficients.length = n + 1 :=
    Nat.exists_eq_succ_of_ne_zero fun h => hs.ne (List.length_eq_zero_iff.1 h)
  obtain ⟨d, hd⟩ : ∃ d, bnd.coefficients[n]? = some d := ⟨_, List.getElem?_eq_getElem (by omega)⟩
  have hfi : bnd.finalInterval = .ok (TEA.toInterval d) := by
    unfold Bounds.finalInterval
    rw [List.getLast?_eq_getElem?, hn, Nat.add_sub_cancel, hd]
  have hdw : d.WellFormed := hs.wf d (List.mem_of_getElem? hd)
  refine ⟨_, n, (TEA.toInterval d).1, (TEA.toInterval d).2, (TEA.toInterval r).1, (TEA.toInterval r).2, hz',
    by omega, hn, hfi, ?_, ?_, ?_, ?_, ?_⟩
  · intro hlt
    have := harr' n d hd hlt
    cases d with
    | arr a => rfl
    | ivl l u => exact absurd this id
  · simp only [Bounds.lower, hcall, py_ok_bind]; rfl
  · simp only [Bounds.upper, hcall, py_ok_bind]; rfl
  · cases r with
    | arr a => rfl
    | ivl l u => exact hwf.1
  · intro I hI
    have hI' : ValidIdx r.shape I := by cases r <;> exact hI
    rw [(C62_point_value hs.wf hr hI').2.2]
    unfold sumOver
    rw [hn, List.range_succ, List.map_append, List.sum_append]
    have hz0 : ((List.range n).map fun i => ((idx (List.replicate i x.shape).flatten).map fun J =>
        (hiAt (bnd.coefficients[i]?.getD (.arr (ND.scalar 0))) (I ++ J) -
          loAt (bnd.coefficients[i]?.getD (.arr (ND.scalar 0))) (I ++ J)) *
          |monomialAt (⟨x.shape, fun I => x.bget I - x0.bget I⟩ : ND K) i J|).sum).sum = 0 := by
      apply List.sum_eq_zero
      intro v hv
      obtain ⟨i, hi, rfl⟩ := List.mem_map.1 hv
      have hi := List.mem_range.1 hi
      have h1 : bnd.coefficients[i]? = some (bnd.coefficients[i]'(by omega)) := List.getElem?_eq_getElem (by omega)
      have h2 := harr' i _ h1 (by omega)
      apply List.sum_eq_zero
      intro v hv
      obtain ⟨J, -, rfl⟩ := List.mem_map.1 hv
      rw [h1, Option.getD_some]
      cases h3 : bnd.coefficients[i]'(by omega) with
      | arr a => simp [hiAt, loAt, TEA.toInterval]
      | ivl l u => rw [h3] at h2; exact absurd h2 id
    rw [hz0, zero_add, List.map_cons, List.map_nil, List.sum_cons, List.sum_nil, add_zero, hd, Option.getD_some]
    show ((idx (List.replicate n x.shape).flatten).map _).sum = _
    rw [hx]
    refine congrArg List.sum (List.map_congr_left fun J _ => ?_)
    cases d with
    | arr a => rfl
    | ivl l u =>
      have e : l.shape = u.shape := hdw.1
      simp only [hiAt, loAt, TEA.toInterval, ND.bget_def, Coef.shape, e]

/-- **C62 (scalar input).** For a scalar `x`, `upper(x) - lower(x) = (b - a) * |x - x0|^n` with
`(a, b) = final_interval` and `n` the degree of the bounds. -/
theorem C62_gap_scalar {lib : Lib K} {sem : Sem K} (hlib : LibSound lib sem) (harr : LibArr lib)
    {jaxpr : Jaxpr K} {consts : List (ND K)} {maxDegree : ℤ} {propagate : Bool}
    {x0 lo hi x : K} {bnd : Bounds K} (h0 : lo ≤ x0 ∧ x0 ≤ hi)
    (hb : taylorBounds lib jaxpr consts maxDegree propagate (ND.scalar x0) (ND.scalar lo) (ND.scalar hi) = .ok bnd)
    (hfit : ProgramFits sem jaxpr consts (ND.scalar x0))
    {vals0 : Vals K} (hev0 : evalEnv sem jaxpr consts (ND.scalar x0) = .ok vals0) (hne0 : NonEmptyVals vals0) :
    ∃ (n : ℕ) (a b l u : ND K), n ≤ maxDegree.toNat ∧
      bnd.coefficients.length = n + 1 ∧ bnd.finalInterval = .ok (a, b) ∧
      bnd.lower (ND.scalar x) = .ok l ∧ bnd.upper (ND.scalar x) = .ok u ∧ l.shape = u.shape ∧
      ∀ I, ValidIdx l.shape I → u.get I - l.get I = (b.bget I - a.bget I) * |x - x0| ^ n := by
  obtain ⟨z, n, a, b, l, u, hz, hn, hl, hf, -, h1, h2, h3, h4⟩ := C62_gap (x := ND.scalar x) (x0 := ND.scalar x0) hlib harr
    (lo := ND.scalar lo) (hi := ND.scalar hi) rfl ⟨rfl, fun I _ => h0⟩ rfl hb hfit hev0 hne0
  refine ⟨n, a, b, l, u, hn, hl, hf, h1, h2, h3, fun I hI => ?_⟩
  rw [h4 I hI]
  have e : (List.replicate n (ND.scalar x0 : ND K).shape).flatten = [] := by
    show (List.replicate n ([] : List ℕ)).flatten = []
    simp
  rw [e]
  cases hz
  have hm : ∀ n, monomialAt (⟨[], fun _ => x - x0⟩ : ND K) n [] = (x - x0) ^ n := by
    intro n
    induction n with
    | zero => simp [monomialAt, groups]
    | succ n ih =>
      unfold monomialAt at ih ⊢
      simp only [groups, List.map_cons, List.prod_cons, List.take_nil, List.drop_nil, ih]
      rw [pow_succ']
  simp only [idx, List.map_cons, List.map_nil, List.sum_cons, List.sum_nil, add_zero, List.append_nil]
  have : monomialAt ({ shape := [], get := fun I => (ND.scalar x).bget I - (ND.scalar x0).bget I } : ND K) n [] =
      (x - x0) ^ n := hm n
  erw [this]
  rw [abs_pow]

end JB
end AB
