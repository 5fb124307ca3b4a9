/-
The element-wise enclosures on arrays: the real generators are sound generators
(/repo/autobound/primitive_enclosures.py, used by enclosure_arithmetic.py:264-295).
-/
import Verif.Props.Builtin
import Verif.Props.Encl4
set_option linter.unusedSectionVars false

namespace AB
open PE EF Set

/-- scalar soundness of `g` (with the coefficients given by `tc`) for `f` where `ok` holds -/
def ScalarSound {K : Type} [Field K] [LinearOrder K] (f : K → K) (tc : ℕ → K → Py (List K))
    (g : K → K → K → ℕ → Py (SEncl K)) (ok : K → K → K → ℕ → Prop) : Prop :=
  ∀ x0 a b d s, a ≤ x0 → x0 ≤ b → ok x0 a b d → g x0 a b d = .ok s →
    s.1.length = d ∧ s.2.1 ≤ s.2.2 ∧ SEncl.EnclosesFun s f x0 a b ∧
    ∃ l, tc d x0 = .ok l ∧ ∀ i < d, l.getD i 0 = s.1.getD i 0

section
variable {K : Type} [Field K] [LinearOrder K] [IsStrictOrderedRing K]

theorem guardGen_ok {ok : K → K → K → ℕ → Prop} {gen : TEA.Generator K} {x0 : ND K} {tr : ND K × ND K}
    {d : ℕ} {e : Encl K} (h : guardGen ok gen x0 tr d = .ok e) :
    (∀ R, bshape x0.shape tr.1.shape = some R → ∀ I, ValidIdx R I →
      ok (x0.bget I) (tr.1.bget I) (tr.2.bget I) d) ∧ gen x0 tr d = .ok e := by
  unfold guardGen at h
  split_ifs at h with h1
  exact ⟨h1, h⟩

/-- `ScalarSound` for the points allowed by `P` only -/
def ScalarSoundOn {K : Type} [Field K] [LinearOrder K] (P : ℕ → K → K → Prop) (f : K → K) (tc : ℕ → K → Py (List K))
    (g : K → K → K → ℕ → Py (SEncl K)) (ok : K → K → K → ℕ → Prop) : Prop :=
  ∀ x0 a b d s, a ≤ x0 → x0 ≤ b → ok x0 a b d → g x0 a b d = .ok s →
    s.1.length = d ∧ s.2.1 ≤ s.2.2 ∧ (∀ x, a ≤ x → x ≤ b → P d x0 x → SEncl.Has s (x - x0) (f x)) ∧
    ∃ l, tc d x0 = .ok l ∧ ∀ i < d, l.getD i 0 = s.1.getD i 0

theorem soundGenerator_lift_on {P : ℕ → K → K → Prop} {f : K → K} {tc : ℕ → K → Py (List K)}
    {g : K → K → K → ℕ → Py (SEncl K)} {ok : K → K → K → ℕ → Prop} (hs : ScalarSoundOn P f tc g ok)
    (x0 lo hi : ND K) (d : ℕ) (e : Encl K) (R : List ℕ) (hsh : lo.shape = hi.shape)
    (hR : bshape x0.shape lo.shape = some R)
    (hx0 : ∀ I, ValidIdx R I → lo.bget I ≤ x0.bget I ∧ x0.bget I ≤ hi.bget I)
    (hg : guardGen ok (liftGen tc g) x0 (lo, hi) d = .ok e) :
    e ≠ [] ∧ e.length ≤ d + 1 ∧ WellFormedEncl e ∧
    (∀ c ∈ e, c.shape = [] ∨ c.shape = x0.shape ∨ c.shape = lo.shape ∨ c.shape = R) ∧
    ∀ y δ : ND K, (∀ I, ValidIdx y.shape I → P d (x0.bget I) (y.get I)) → bshape R y.shape = some y.shape →
      (∀ I, ValidIdx y.shape I → lo.bget I ≤ y.get I ∧ y.get I ≤ hi.bget I) →
      ND.map2 (· - ·) y x0 = .ok δ → ElemEncloses e δ (y.map f) := by
  obtain ⟨hok, hg⟩ := guardGen_ok hg
  have hok := hok R hR
  simp only at hok
  unfold liftGen at hg
  simp only [hR] at hg
  simp only [py_bind_ok, py_pure] at hg
  obtain ⟨ss, hss, rfl⟩ := hg
  have hall : ∀ I, ValidIdx R I → ∃ s, g (x0.bget I) (lo.bget I) (hi.bget I) d = .ok s := by
    intro I hI
    have := Poly.mapM_ok hss
    have hm := mem_idx.2 hI
    clear hss hI
    generalize idx R = l at this hm
    induction this with
    | nil => cases hm
    | cons h _ ih =>
      rcases List.mem_cons.1 hm with rfl | hm
      · exact ⟨_, h⟩
      · exact ih hm
  have lR := bshape_le hR
  have key : ∀ I, ValidIdx R I → ∃ s, g (x0.bget I) (lo.bget I) (hi.bget I) d = .ok s ∧
      s.1.length = d ∧ s.2.1 ≤ s.2.2 ∧ (∀ x, lo.bget I ≤ x → x ≤ hi.bget I → P d (x0.bget I) x → SEncl.Has s (x - x0.bget I) (f x)) ∧
      ∃ l, tc d (x0.bget I) = .ok l ∧ ∀ i < d, l.getD i 0 = s.1.getD i 0 := by
    intro I hI
    obtain ⟨s, h⟩ := hall I hI
    exact ⟨s, h, hs _ _ _ _ _ (hx0 I hI).1 (hx0 I hI).2 (hok I hI) h⟩
  set fin : List ℕ → K × K := fun I => finOf (g (x0.bget I) (lo.bget I) (hi.bget I) d) with hfin
  have hfin' : ∀ I s, g (x0.bget I) (lo.bget I) (hi.bget I) d = .ok s → fin I = s.2 := by
    intro I s h; rw [hfin]; simp only [h, finOf]
  set coef : ℕ → K → K := fun i x => coefOf i (tc d x) with hcf
  have hcf' : ∀ i x l, tc d x = .ok l → coef i x = l.getD i 0 := by
    intro i x l h; rw [hcf]; simp only [h, coefOf]
  set E : Encl K := (List.range d).map (fun i => Coef.arr (x0.map (coef i))) ++
        [Coef.ivl ⟨R, fun I => (fin I).1⟩ ⟨R, fun I => (fin I).2⟩] with hEdef
  have hlen : E.length = d + 1 := by simp [hEdef]
  have hmem : ∀ c ∈ E, (∃ i, c = .arr (x0.map (coef i))) ∨
      c = .ivl ⟨R, fun I => (fin I).1⟩ ⟨R, fun I => (fin I).2⟩ := by
    intro c hc
    rw [hEdef, List.mem_append] at hc
    rcases hc with hc | hc
    · obtain ⟨i, -, rfl⟩ := List.mem_map.1 hc
      exact Or.inl ⟨i, rfl⟩
    · exact Or.inr (List.mem_singleton.1 hc)
  have hwf : WellFormedEncl E := by
    intro c hc
    rcases hmem c hc with ⟨i, rfl⟩ | rfl
    · exact ⟨trivial, trivial⟩
    · refine ⟨rfl, fun I hI => ?_⟩
      obtain ⟨s, h1, -, h2, -⟩ := key I hI
      show (fin I).1 ≤ (fin I).2
      rw [hfin' I s h1]; exact h2
  refine ⟨by intro h; rw [h] at hlen; simp at hlen, hlen.le, hwf, ?_, ?_⟩
  · intro c hc
    rcases hmem c hc with ⟨i, rfl⟩ | rfl
    · right; left; rfl
    · right; right; right; rfl
  · intro y δ hP hRy hy hδ
    have lRy : ble R y.shape := ble_iff_bshape.1 hRy
    obtain ⟨hδs, hδv⟩ := ND.map2_ok hδ
    have hxy : ble x0.shape y.shape := ble_trans lR.1 lRy
    have hδs : δ.shape = y.shape := by
      have := bshape_eq_of_ble' hxy
      rw [hδs] at this
      exact Option.some.inj this
    have hEy : ∀ c ∈ E, ble c.shape y.shape := by
      intro c hc
      rcases hmem c hc with ⟨i, rfl⟩ | rfl
      · exact hxy
      · exact lRy
    obtain ⟨r, hr⟩ := elemEval_total (Z := .arr δ) hwf.wfe (Coef.WF_arr _) hEy
      (by show ble δ.shape _; rw [hδs]; exact ble_refl _)
    obtain ⟨r1, -, -, r4, r5⟩ := elemEval_ok hwf.wfe (Coef.WF_arr _) hr
    have hry : ble r.shape y.shape := r4 _ hEy (by show ble δ.shape _; rw [hδs]; exact ble_refl _)
    refine ⟨r, hr, (Coef.covers_iff r1).2 ⟨hry, fun I hI => ?_⟩⟩
    have hI : ValidIdx y.shape I := hI
    have hl : R.length ≤ I.length := (ble_length lRy).trans hI.length.le
    have hJ := validIdx_bidx lRy hI
    obtain ⟨s, h1, h2, h3, h4, l, hl1, hl2⟩ := key (bidx R I) hJ
    have ex0 : x0.bget (bidx R I) = x0.bget I := ND.bget_bidx _ lR.1 hl
    have elo : lo.bget (bidx R I) = lo.bget I := ND.bget_bidx _ lR.2 hl
    have ehi : hi.bget (bidx R I) = hi.bget I := ND.bget_bidx _ (hsh ▸ lR.2) hl
    rw [ex0, elo, ehi] at h4
    obtain ⟨q, q1, q2, q3⟩ := h4 (y.get I) (hy I hI).1 (hy I hI).2 (hP I hI)
    have hδI : δ.bget I = y.get I - x0.bget I := by
      rw [hδv I (by rw [hδs]; exact hI.length.le), ND.bget_valid _ hI]
    have := r5 I ((ble_length hry).trans hI.length.le)
      (by show δ.shape.length ≤ _; rw [hδs]; exact hI.length.le) (δ.bget I) (Coef.mem_arr.2 rfl)
      (fun j => if j < d then s.1.getD j 0 else q) ?_
    · show r.Mem I (f (y.get I))
      rw [q3, h2]
      rw [hlen, Finset.sum_range_succ, hδI] at this
      simp only [lt_irrefl, if_false] at this
      rwa [Finset.sum_congr rfl (g := fun i => s.1.getD i 0 * (y.get I - x0.bget I) ^ i)] at this
      intro i hi
      rw [if_pos (Finset.mem_range.1 hi)]
    · intro j c hj
      by_cases hjd : j < d
      · rw [if_pos hjd]
        rw [hEdef, List.getElem?_append_left (by simpa using hjd), List.getElem?_map,
          List.getElem?_range hjd] at hj
        simp only [Option.map_some, Option.some.injEq] at hj
        subst hj
        rw [Coef.mem_arr, ND.bget_map, ← ex0, hcf' _ _ _ hl1, hl2 j hjd]
      · rw [if_neg hjd]
        rw [hEdef, List.getElem?_append_right (by simpa using hjd)] at hj
        have hj0 : j - ((List.range d).map (fun i => Coef.arr (x0.map (coef i)))).length = 0 := by
          by_contra hne
          rw [List.getElem?_eq_none (by simp at hne ⊢; omega)] at hj
          cases hj
        rw [hj0] at hj
        simp only [List.getElem?_cons_zero, Option.some.injEq] at hj
        subst hj
        show (fin (bidx R I)).1 ≤ q ∧ q ≤ (fin (bidx R I)).2
        rw [hfin' _ _ h1]
        exact ⟨q1, q2⟩

/-- **C22/C33/C34 (arrays).** Lifting a soundly enclosed scalar function to arrays with numpy broadcasting
gives a sound element-wise enclosure generator. -/
theorem soundGenerator_lift {f : K → K} {tc : ℕ → K → Py (List K)} {g : K → K → K → ℕ → Py (SEncl K)}
    {ok : K → K → K → ℕ → Prop} (hs : ScalarSound f tc g ok) :
    SoundGenerator f (fun _ => True) (guardGen ok (liftGen tc g)) := by
  intro x0 lo hi d e R hsh hR hne hx0 _ hg
  obtain ⟨k1, k2, k3, k4, k5⟩ := soundGenerator_lift_on (P := fun _ _ _ => True) (f := f) (ok := ok)
    (fun x0 a b d s h1 h2 h3 h4 => by
      obtain ⟨g1, g2, g3, g4⟩ := hs x0 a b d s h1 h2 h3 h4
      exact ⟨g1, g2, fun x hx hx' _ => g3 x hx hx', g4⟩) x0 lo hi d e R hsh hR hx0 hg
  exact ⟨k1, k2, k3, k4, fun y δ => k5 y δ (fun _ _ => trivial)⟩

end

/-! ### the real generators -/

theorem sharp_fst {x0 : ℝ} {k : ℕ} {a b : ℝ} {f : ℝ → ℝ} {cs : List ℝ} {inc : Bool} {s : SEncl ℝ}
    (h : sharpMonotonic x0 k a b f cs inc = .ok s) : s.1 = cs.take k := by
  simp only [sharpMonotonic, py_bind_ok, py_pure] at h
  obtain ⟨_, _, _, _, rfl⟩ := h
  rfl

theorem pow_fst {p : Expo ℝ} {x0 a b : ℝ} {k : ℕ} {s : SEncl ℝ}
    (h : powEnclosure (fun x p : ℝ => x ^ p) p x0 a b k = .ok s) :
    s.1 = (powCoeffs (fun x p : ℝ => x ^ p) p k x0).take k := by
  simp only [powEnclosure, py_bind_ok] at h
  obtain ⟨s1, h1, s2, h2, r, hr, h⟩ := h
  by_cases hf : powFinite p k x0 a b
  swap
  · rw [if_pos hf] at h; cases h
  rw [if_neg (not_not.2 hf)] at h
  cases p with
  | frac q =>
    simp only [py_pure] at h
    rw [← sharp_fst h1, ← h]
  | int n =>
    simp only [py_bind_ok, py_pure] at h
    obtain ⟨_, _, h⟩ := h
    rw [← sharp_fst h1, ← h]

theorem elementwise_fst {fid : FunctionId} {x0 a b : ℝ} {k : ℕ} {s : SEncl ℝ}
    (h : getElementwiseTaylorEnclosure fid x0 a b k = .ok s) :
    ∃ l, getTaylorPolynomialCoefficients fid k x0 = .ok l ∧ s.1 = l.take k := by
  simp only [getElementwiseTaylorEnclosure, py_bind_ok] at h
  obtain ⟨f, hf, d, hd, l, hl, h⟩ := h
  refine ⟨l, hl, ?_⟩
  split_ifs at h with h1 h2
  · exact sharp_fst h
  · simp only [sharpQuadratic, py_bind_ok, py_pure] at h
    obtain ⟨_, _, _, _, _, _, rfl⟩ := h
    rw [h2.1]
  all_goals
    simp only [py_bind_ok, py_pure] at h
    obtain ⟨_, _, _, _, _, _, _, _, rfl⟩ := h
    rfl

theorem getD_take {l : List ℝ} {k i : ℕ} (h : i < k) : (l.take k).getD i 0 = l.getD i 0 := by
  rw [List.getD_eq_getElem?_getD, List.getD_eq_getElem?_getD, List.getElem?_take_of_lt h]

/-- the tables of supported derivatives -/
theorem truthful_supported {n : FName} {k : ℕ} {a b : ℝ} (h : TableTruthful n k a b) :
    supportedOrder n k := by
  obtain ⟨d, r, h1, h2, -⟩ := h
  simp only [getRange, py_bind_ok] at h2
  obtain ⟨g, hg, -⟩ := h2
  exact (getFunction_eq.1 hg).1

theorem builtin_of_truthful {n : FName} {k : ℕ} {x0 a b : ℝ} (hx0 : x0 ∈ Icc a b)
    (hdom : Icc a b ⊆ smoothDomain n) (ha : NotCapped x0 k a) (hb : NotCapped x0 k b)
    (h : TableTruthful n k a b) : BuiltinSound n k x0 a b := by
  have hk := truthful_supported h
  obtain ⟨d, r, h1, h2, h3, h4, h5, h6⟩ := h
  have hD : EqOn (iteratedDeriv k (mathFun n)) (derivFun n k) (Icc a b) := fun x hx =>
    ((C25_derivative_formulas (n := n) (k := k) (g := derivFun n k) (by
      simpa [FunctionId.derivativeId] using getFunction_eq.2 ⟨hk, rfl⟩)).1 x (hdom hx)).symm
  refine C33_truthful_tables hk h1 hx0 hdom ha hb h3 (fun h => (h4 h).congr hD)
    (fun h => (h5 h).congr hD) ?_
  intro m1 m2 r' hr' x hx
  rw [h2] at hr'
  cases hr'
  rw [← hD hx]
  exact h6 m1 m2 x hx

/-- **C33 (all degrees).** Under `BuiltinRegion` the scalar element-wise enclosure is sound. -/
theorem builtin_of_region {n : FName} {k : ℕ} {x0 a b : ℝ} (hx0 : x0 ∈ Icc a b)
    (h : BuiltinRegion n x0 a b k) : BuiltinSound n k x0 a b := by
  obtain ⟨ha, hb, h⟩ := h
  cases n with
  | exp => exact C33_exp k hx0 ha hb
  | log => exact C33_log k h hx0 ha hb
  | abs => exact C33_abs h hx0 ha hb
  | sigmoid =>
    rcases h with h | h
    · exact C33_sigmoid h hx0 ha hb
    · exact builtin_of_truthful hx0 (subset_univ _) ha hb h
  | softplus =>
    rcases h with h | ⟨rfl, h⟩ | h
    · exact C33_softplus h hx0 ha hb
    · exact C32_softplus2 hx0 ha hb h
    · exact builtin_of_truthful hx0 (subset_univ _) ha hb h
  | swish => exact builtin_of_truthful hx0 (subset_univ _) ha hb h
  | other _ => exact absurd h id

/-- **C33 (arrays).** `abs_enclosure`, `exp_enclosure`, ..., called on arrays, satisfy the contract of
`get_elementwise_fun`, on trust regions satisfying `BuiltinRegion` at every element. -/
theorem C33_array_generator (n : FName) :
    SoundGenerator (mathFun n) (fun _ => True) (guardGen (BuiltinRegion n) (elementwiseGen ⟨n, 0⟩)) := by
  refine soundGenerator_lift ?_
  intro x0 a b d s h1 h2 hok hg
  obtain ⟨s', e, q1, q2, q3⟩ := builtin_of_region ⟨h1, h2⟩ hok
  simp only [e] at hg
  cases hg
  obtain ⟨l, hl, hs⟩ := elementwise_fst e
  exact ⟨q1, q2, q3, l, hl, fun i hi => by rw [hs, getD_take hi]⟩

/-- **C34 (arrays).** `pow_enclosure` called on arrays satisfies the contract of `get_elementwise_fun`. -/
theorem C34_array_generator (p : Expo ℝ) :
    SoundGenerator (powFun p) (fun _ => True) (guardGen (PowOk p) (powGen (fun x p : ℝ => x ^ p) p)) := by
  refine soundGenerator_lift ?_
  intro x0 a b d s h1 h2 ⟨k1, k2, k3, k4⟩ hg
  obtain ⟨s', e, q1, q2, q3⟩ := C34_pow ⟨h1, h2⟩ k1 k2 k3 k4
  simp only [e] at hg
  cases hg
  exact ⟨q1, q2, q3, _, rfl, fun i hi => by rw [pow_fst e, getD_take hi]⟩

/-- a guarded run that succeeds is the actual run -/
theorem guardGen_eq {ok : ℝ → ℝ → ℝ → ℕ → Prop} {gen : TEA.Generator ℝ} {x0 : ND ℝ} {tr : ND ℝ × ND ℝ}
    {d : ℕ} {e : Encl ℝ} (h : guardGen ok gen x0 tr d = .ok e) : gen x0 tr d = .ok e := (guardGen_ok h).2

/-- `SoundGenerator` is met by the real generators: `exp_enclosure`, about `(0, 1)` over the region
`[-1, 2]`, degree 2, is not rejected by the guard. -/
example : ∃ e, guardGen (BuiltinRegion .exp) (elementwiseGen EXP) ⟨[2], fun I => I.headD 0⟩
    (⟨[], fun _ => -1⟩, ⟨[], fun _ => 2⟩) 2 = .ok e := by
  have hR : bshape [2] [] = some [2] := rfl
  have hc : ∀ I, ValidIdx [2] I → BuiltinRegion .exp (((I.headD 0 : ℕ) : ℝ)) (-1) 2 2 := by
    intro I hI
    cases hI with
    | cons h h' =>
      cases h'
      rename_i i
      simp only [List.headD_cons]
      have : i = 0 ∨ i = 1 := by omega
      rcases this with rfl | rfl <;>
      exact ⟨Or.inr (by norm_num [abs_of_neg]), Or.inr (by norm_num), trivial⟩
  have hb : ∀ I, ValidIdx [2] I →
      (⟨[2], fun I => ((I.headD 0 : ℕ) : ℝ)⟩ : ND ℝ).bget I = ((I.headD 0 : ℕ) : ℝ) := fun I hI =>
    ND.bget_valid _ hI
  unfold guardGen
  rw [if_pos]
  · unfold elementwiseGen liftGen
    simp only [hR]
    have : ∀ l : List (List ℕ), (∀ I ∈ l, ValidIdx [2] I) → ∃ r,
        (l.mapM fun I => getElementwiseTaylorEnclosure EXP
          ((⟨[2], fun I => ((I.headD 0 : ℕ) : ℝ)⟩ : ND ℝ).bget I)
          ((⟨[], fun _ => -1⟩ : ND ℝ).bget I) ((⟨[], fun _ => 2⟩ : ND ℝ).bget I) 2) =
          Except.ok (ε := PyErr) r := by
      intro l hl
      induction l with
      | nil => exact ⟨_, rfl⟩
      | cons I l ih =>
        obtain ⟨r, hr⟩ := ih fun J hJ => hl J (by simp [hJ])
        have hI := hl I (by simp)
        obtain ⟨s, hs, -⟩ := builtin_of_region (n := .exp) (x0 := ((I.headD 0 : ℕ) : ℝ)) (a := -1) (b := 2)
          (k := 2) (by
            cases hI with
            | cons h h' =>
              rename_i i _
              have : i = 0 ∨ i = 1 := by omega
              rcases this with rfl | rfl <;> norm_num) (hc I hI)
        rw [List.mapM_cons, hb I hI, show getElementwiseTaylorEnclosure EXP ((I.headD 0 : ℕ) : ℝ)
          ((⟨[], fun _ => -1⟩ : ND ℝ).bget I) ((⟨[], fun _ => 2⟩ : ND ℝ).bget I) 2 = .ok s from hs, py_ok_bind,
          hr, py_ok_bind]
        exact ⟨_, rfl⟩
    obtain ⟨r, hr⟩ := this (idx [2]) fun I hI => mem_idx.1 hI
    rw [hr, py_ok_bind]
    exact ⟨_, rfl⟩
  · intro R hR' I hI
    rw [hR] at hR'
    cases hR'
    rw [hb I hI]
    exact hc I hI

theorem TEA.elementwise_guard {T : TEA ℝ} {ok : ℝ → ℝ → ℝ → ℕ → Prop} {gen : TEA.Generator ℝ} {arg c : Encl ℝ}
    {r : Option (Coef ℝ)} (h : T.elementwiseFun (guardGen ok gen) arg r = .ok c) :
    T.elementwiseFun gen arg r = .ok c := by
  unfold TEA.elementwiseFun at h ⊢
  simp only [py_bind_ok] at h ⊢
  obtain ⟨tr, htr, h⟩ := h
  refine ⟨tr, htr, ?_⟩
  cases arg with
  | nil => exact h
  | cons a0 arg =>
    simp only [py_bind_ok] at h ⊢
    obtain ⟨x0, hx0, e, he, h⟩ := h
    exact ⟨x0, hx0, e, guardGen_eq he, h⟩

namespace TEA
variable {T : TEA ℝ} {md : ℕ} {lo hi : ND ℝ} (hinit : TEA.init md lo hi = .ok T) {z : ND ℝ}
  (hz : (Coef.ivl lo hi).Contains z)
include hinit hz

/-- **C22 (built-in functions).** `get_elementwise_fun(exp_enclosure)` etc. on an enclosure: if the call
stays within `BuiltinRegion` (the guarded run succeeds), the actual run returns the same enclosure, and it
encloses the function of the enclosed value. -/
theorem C22_builtin (n : EF.FName) {arg c : Encl ℝ} (harg : WellFormedEncl arg) {y : ND ℝ}
    (hu : UniformBatch z.shape y.ndim arg) (hy : Encloses arg z y) (hne : ∃ I, ValidIdx y.shape I)
    (h0 : (Coef.ivl lo hi).Contains ⟨lo.shape, fun _ => 0⟩)
    (hc : T.elementwiseFun (guardGen (BuiltinRegion n) (elementwiseGen ⟨n, 0⟩)) arg = .ok c) :
    T.elementwiseFun (elementwiseGen ⟨n, 0⟩) arg = .ok c ∧
    Encloses c z (y.map (mathFun n)) ∧ WellFormedEncl c ∧ UniformBatch z.shape y.ndim c := by
  refine ⟨elementwise_guard hc, ?_⟩
  exact C22_derived hinit hz (C33_array_generator n) harg hu hy hne h0 (fun _ _ _ _ _ _ => trivial) hc

/-- **C23 (powers).** `power(a, p)` for an exponent that is not a nonnegative integer. -/
theorem C23_pow (p : Expo ℝ) {a c : Encl ℝ} (ha : WellFormedEncl a) {y : ND ℝ}
    (hu : UniformBatch z.shape y.ndim a) (hy : Encloses a z y) (hne : ∃ I, ValidIdx y.shape I)
    (h0 : (Coef.ivl lo hi).Contains ⟨lo.shape, fun _ => 0⟩)
    (hc : T.powerOther (guardGen (PowOk p) (powGen (fun x p : ℝ => x ^ p) p)) a = .ok c) :
    T.powerOther (powGen (fun x p : ℝ => x ^ p) p) a = .ok c ∧
    Encloses c z (y.map (powFun p)) ∧ WellFormedEncl c ∧ UniformBatch z.shape y.ndim c := by
  refine ⟨?_, C23_power_other hinit hz (C34_array_generator p) ha hu hy hne h0
    (fun _ _ _ _ _ _ => trivial) hc⟩
  unfold powerOther at hc ⊢
  simp only [py_bind_ok] at hc ⊢
  obtain ⟨u, hu, hc⟩ := hc
  exact ⟨u, hu, elementwise_guard hc⟩

/-- **C23 (division by the code's own reciprocal).** `divide(a, b)` with
`pow_enclosure(-1, ...)`. -/
theorem C23_divide_recip {a b c : Encl ℝ} (ha : WellFormedEncl a)
    (hb : WellFormedEncl b) (ha0 : a ≠ []) {y1 y2 y : ND ℝ} (hu : UniformBatch z.shape y2.ndim b)
    (h1 : Encloses a z y1) (h2 : Encloses b z y2) (hy : ND.map2 (· / ·) y1 y2 = .ok y)
    (hne : ∃ I, ValidIdx y.shape I) (h0 : (Coef.ivl lo hi).Contains ⟨lo.shape, fun _ => 0⟩)
    (hc : T.divide (guardGen (PowOk (.int (-1))) (powGen (fun x p : ℝ => x ^ p) (.int (-1)))) a b = .ok c) :
    T.divide (powGen (fun x p : ℝ => x ^ p) (.int (-1))) a b = .ok c ∧ Encloses c z y ∧
      WellFormedEncl c := by
  have hg := C34_array_generator (.int (-1))
  have hf : powFun (.int (-1)) = fun x : ℝ => x⁻¹ := by
    funext x; simp [powFun]
  rw [hf] at hg
  refine ⟨?_, C23_divide hinit hz hg ha hb ha0 hu h1 h2 hy hne h0 (fun _ _ _ _ _ _ => trivial) hc⟩
  unfold divide at hc ⊢
  simp only [py_bind_ok] at hc ⊢
  obtain ⟨q, hq, hc⟩ := hc
  refine ⟨q, ?_, hc⟩
  unfold powerOther at hq ⊢
  simp only [py_bind_ok] at hq ⊢
  obtain ⟨u, hu, hq⟩ := hq
  exact ⟨u, hu, elementwise_guard hq⟩

end TEA

end AB
