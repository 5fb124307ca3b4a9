/-
C57: the operations of `IntervalArithmetic` and `TaylorEnclosureArithmetic` return on the operands for which
C04 and C16-C23 say what they return, and the number of coefficients of the result
(/repo/autobound/interval_arithmetic.py:165-211, /repo/autobound/enclosure_arithmetic.py:79-352).
-/
import Verif.Proofs.Total2
import Verif.Props.Encl4

set_option linter.unusedSectionVars false

namespace AB
variable {K : Type} [Field K] [LinearOrder K] [IsStrictOrderedRing K]
open IA (repS)

/-! ### outer products and powers -/

theorem ndarrayOuter_shape {x y s : ND K} {d : ℕ} {Q : List ℕ}
    (hQ : bshape (x.shape.take d) (y.shape.take d) = some Q)
    (h : IA.ndarrayOuterProduct d x y = .ok s) : s.shape = Q ++ x.shape.drop d ++ y.shape.drop d := by
  unfold IA.ndarrayOuterProduct at h
  by_cases h0 : d = 0
  · subst h0
    have hQ' : Q = [] := by rw [List.take_zero, List.take_zero, bshape_self] at hQ; exact (Option.some.inj hQ).symm
    rw [if_pos rfl] at h
    obtain ⟨-, -, -, s4, -⟩ := ND.tensordot_ok h
    rw [s4, hQ']
    simp [ND.ndim]
  · rw [if_neg h0] at h
    unfold ND.einsumOuter at h
    by_cases h1 : x.ndim + (y.ndim - d) > 26
    · rw [if_pos h1] at h; cases h
    · rw [if_neg h1, hQ] at h
      cases h
      rfl

theorem ndarrayOuter_total {x y : ND K} {d : ℕ} :
    (∃ s, IA.ndarrayOuterProduct d x y = .ok s) ↔
      (d = 0 ∨ x.shape.length + (y.shape.length - d) ≤ 26) ∧
        ∃ Q, bshape (x.shape.take d) (y.shape.take d) = some Q := by
  unfold IA.ndarrayOuterProduct
  by_cases h0 : d = 0
  · subst h0
    rw [List.take_zero, List.take_zero, bshape_self]
    simp [ND.tensordot, ND.ndim]
  · rw [if_neg h0]
    unfold ND.einsumOuter
    by_cases h1 : x.ndim + (y.ndim - d) > 26
    · rw [if_pos h1]
      simp only [ND.ndim] at h1
      simp [h0]
      intro h2
      omega
    · rw [if_neg h1]
      simp only [ND.ndim] at h1
      cases hb : bshape (x.shape.take d) (y.shape.take d) with
      | none => simp
      | some Q => simp; omega
  
/-- **C57 (outer_product).** `outer_product(A, B, batch_dims=d)` returns exactly if both operands have `d` batch
axes, these broadcast, and (for `d > 0`) the axes can be labelled with 26 letters. -/
theorem C57_outer_product {A B : Coef K} (hA : A.SameShape) (hB : B.SameShape) (d : ℕ) :
    (∃ r, IA.outerProduct A B d = .ok r) ↔
      d ≤ A.shape.length ∧ d ≤ B.shape.length ∧ (d = 0 ∨ A.shape.length + (B.shape.length - d) ≤ 26) ∧
        ∃ Q, bshape (A.shape.take d) (B.shape.take d) = some Q := by
  have wA := Coef.sameShape_iff.1 hA
  have wB := Coef.sameShape_iff.1 hB
  constructor
  · rintro ⟨r, h⟩
    obtain ⟨d1, d2, -, -, Q, q1, -⟩ := IA.outerProduct_ok wA wB h
    refine ⟨d1, d2, ?_, Q, q1⟩
    by_contra hcon
    push Not at hcon
    obtain ⟨hd, h26⟩ := hcon
    have herr : ∀ x y : ND K, x.shape = A.shape → y.shape = B.shape →
        ¬ ∃ s, IA.ndarrayOuterProduct d x y = .ok s := by
      intro x y hx hy h
      have := (ndarrayOuter_total.1 h).1
      rw [hx, hy] at this
      omega
    unfold IA.outerProduct at h
    split_ifs at h with hn
    cases A with
    | arr a =>
      cases B with
      | arr b =>
        simp only [IA.arbitraryBilinear, py_bind_ok] at h
        obtain ⟨s, hs, -⟩ := h
        exact herr a b rfl rfl ⟨s, hs⟩
      | ivl b0 b1 =>
        simp only [IA.arbitraryBilinear, if_true, IA.bilinearProduct, py_bind_ok] at h
        obtain ⟨ps, hps, -⟩ := h
        have hm := Poly.mapM_ok hps
        simp only [IA.endpoints, List.flatMap_cons, List.map_cons, List.map_nil, List.flatMap_nil,
          List.cons_append, List.nil_append] at hm
        cases hm with
        | cons h1 _ => exact herr a b0 rfl rfl ⟨_, h1⟩
    | ivl a0 a1 =>
      cases B with
      | arr b =>
        simp only [IA.arbitraryBilinear, if_true, IA.bilinearProduct, py_bind_ok] at h
        obtain ⟨ps, hps, -⟩ := h
        have hm := Poly.mapM_ok hps
        simp only [IA.endpoints, List.flatMap_cons, List.map_cons, List.map_nil, List.flatMap_nil,
          List.cons_append, List.nil_append] at hm
        cases hm with
        | cons h1 _ => exact herr a0 b rfl rfl ⟨_, h1⟩
      | ivl b0 b1 =>
        simp only [IA.arbitraryBilinear, if_true, IA.bilinearProduct, py_bind_ok] at h
        obtain ⟨ps, hps, -⟩ := h
        have hm := Poly.mapM_ok hps
        simp only [IA.endpoints, List.flatMap_cons, List.map_cons, List.map_nil, List.flatMap_nil,
          List.cons_append, List.nil_append] at hm
        cases hm with
        | cons h1 _ => exact herr a0 b0 rfl rfl ⟨_, h1⟩
  · rintro ⟨d1, d2, h26, Q, hQ⟩
    unfold IA.outerProduct
    rw [if_neg (by rw [Coef.ndim_def, Coef.ndim_def]; omega)]
    refine IA.bilinear_total (R := Q ++ A.shape.drop d ++ B.shape.drop d) true wA wB fun x y hx hy => ?_
    obtain ⟨s, hs⟩ := (ndarrayOuter_total (x := x) (y := y) (d := d)).2
      ⟨by rw [hx, hy]; exact h26, Q, by rw [hx, hy]; exact hQ⟩
    exact ⟨s, hs, by rw [ndarrayOuter_shape (by rw [hx, hy]; exact hQ) hs, hx, hy]⟩

/-- **C57 (outer_power).** `outer_power(A, k, batch_dims=d)` returns if `A` has `d` batch axes and (for `d > 0`) the
axes of the result can be labelled with 26 letters. -/
theorem C57_outer_power {A : Coef K} (hA : A.SameShape) {d : ℕ} (hd : d ≤ A.shape.length) (k : ℕ)
    (h26 : d = 0 ∨ d + k * (A.shape.length - d) ≤ 26) : ∃ r, IA.outerPower A (k : ℤ) d = .ok r := by
  have wA := Coef.sameShape_iff.1 hA
  by_cases h0 : d = 0
  · subst h0; exact outerPower_total wA k
  unfold IA.outerPower
  rw [if_neg (by omega : ¬ ((k : ℤ) < 0))]
  by_cases hk : k = 0
  · subst hk; exact ⟨_, if_pos rfl⟩
  rw [if_neg (by omega : ¬ ((k : ℤ) = 0)), if_neg (by rw [Coef.ndim_def]; omega)]
  have hlen : (A.shape.take d).length = d := by rw [List.length_take]; omega
  obtain ⟨r, hr⟩ := running_total_batch wA (List.take_append_drop d A.shape).symm ((k : ℤ).toNat - 1) (by
    right
    rw [hlen, List.length_drop, show (k : ℤ).toNat - 1 + 1 = k by omega]
    omega)
  rw [hlen] at hr
  rw [hr]
  exact ⟨r, by rw [py_ok_bind, if_pos h0]; rfl⟩

namespace TEA
variable {T : TEA K} {md : ℕ} {lo hi : ND K}

/-- **C57 (the constructor).** -/
theorem C57_init (md : ℕ) (lo hi : ND K) :
    (∃ T, TEA.init md lo hi = .ok T) ↔ lo.shape = hi.shape := by
  unfold TEA.init
  by_cases h : lo.shape = hi.shape
  · simp [h]
  · simp [h]

section
variable (hinit : TEA.init md lo hi = .ok T) {z : ND K} (hz : (Coef.ivl lo hi).Contains z)
include hinit hz

/-- **C57 (add, negative, subtract: number of coefficients).** -/
theorem C57_linear_length {a b c : Encl K} (ha : WellFormedEncl a) (hb : WellFormedEncl b) {y1 y2 : ND K}
    {R : List ℕ} (h1 : Encloses a z y1) (h2 : Encloses b z y2) (hR : bshape y1.shape y2.shape = some R) :
    (T.add a b = .ok c → c.length = min (max a.length b.length) (md + 1)) ∧
    (T.negative a = .ok c → c.length = min a.length (md + 1)) ∧
    (T.subtract a b = .ok c → c.length = min (max a.length b.length) (md + 1)) := by
  obtain ⟨rfl, hT, hzm, hzs⟩ := unpack hinit hz
  obtain ⟨l1, l2⟩ := bshape_le hR
  have va := (h1.at ha l1).1
  have vb := (h2.at hb l2).1
  rw [hzs] at va vb
  have hneg : ∀ {a c : Encl K}, VE T.xShape R a → T.negative a = .ok c →
      c.length = min a.length (T.maxDegree + 1) ∧ VE T.xShape R c := by
    intro a c va hc
    have vn : VE T.xShape R (a.map IA.negative) := by
      intro i c hc
      simp only [List.getElem?_map, Option.map_eq_some_iff] at hc
      obtain ⟨x, hx, rfl⟩ := hc
      obtain ⟨xw, B, hB, ux⟩ := va i x hx
      obtain ⟨n1, n2, -, -⟩ := IA.neg_ok xw
      exact ⟨n1, B, by rw [n2, hB], ux⟩
    obtain ⟨c', hc', vc', lc'⟩ := truncate_total hT hzm anyM_cl vn.veu
    unfold negative at hc
    rw [hc'] at hc
    cases hc
    exact ⟨by rw [lc', List.length_map], vc'.ve⟩
  have hadd : ∀ {b c : Encl K}, VE T.xShape R b → T.add a b = .ok c →
      c.length = min (max a.length b.length) (T.maxDegree + 1) := by
    intro b c vb hc
    obtain ⟨c', hc', -, lc'⟩ := add_total0 hT hzm anyM_cl va.veu (b := b) (fun i y hy => Or.inl (vb.veu i y hy))
      (fun i y _ hy => vb.veu i y hy)
    rw [hc'] at hc
    cases hc
    exact lc'
  refine ⟨hadd vb, fun h => (hneg va h).1, fun h => ?_⟩
  simp only [subtract, py_bind_ok] at h
  obtain ⟨nb, hnb, h⟩ := h
  obtain ⟨ln, vn⟩ := hneg vb hnb
  rw [hadd vn h, ln]
  omega

/-- **C57 (multiply).** -/
theorem C57_multiply {a b : Encl K} (ha : WellFormedEncl a) (hb : WellFormedEncl b)
    (ha0 : a ≠ []) (hb0 : b ≠ []) {y1 y2 y : ND K}
    (h1 : Encloses a z y1) (h2 : Encloses b z y2) (hy : ND.map2 (· * ·) y1 y2 = .ok y)
    (hne : ∃ I, ValidIdx y.shape I) :
    ∃ c, T.multiply a b = .ok c ∧ Encloses c z y ∧ WellFormedEncl c ∧
      c.length = min (a.length + b.length - 1) (md + 1) := by
  obtain ⟨hmd, hT, hzm, hzs⟩ := unpack hinit hz
  obtain ⟨l1, l2⟩ := ND.map2_shape hy
  have va := (h1.at ha l1).1
  have vb := (h2.at hb l2).1
  rw [hzs] at va vb
  obtain ⟨c, hc, -, lc⟩ := multiply_total hT hzm anyM_cl anyM_pr ha0 hb0 va.veu vb.veu
  obtain ⟨k1, k2⟩ := C18_multiply hinit hz ha hb ha0 hb0 h1 h2 hy hne hc
  exact ⟨c, hc, k1, k2, by rw [lc, hmd]⟩

/-- **C57 (power).** For an integer `p ≥ 0`, if the axes of the result can be labelled. -/
theorem C57_power {a : Encl K} (ha : WellFormedEncl a) (ha0 : a ≠ []) (p : ℕ) {y : ND K}
    (h1 : Encloses a z y) (hne : ∃ I, ValidIdx y.shape I) (hN : JB.Labels z.shape y.shape ((a.length - 1) * p)) :
    ∃ c, T.powerNat a p = .ok c ∧ Encloses c z (y.map (· ^ p)) ∧ WellFormedEncl c ∧
      c.length = min (1 + (a.length - 1) * p) (md + 1) := by
  obtain ⟨hmd, hT, hzm, hzs⟩ := unpack hinit hz
  have va := (h1.at ha (ble_refl _)).1
  rw [hzs] at va
  rw [hzs] at hN
  obtain ⟨c, hc, -, lc⟩ := power_total hT hzm anyM_pw ha0 va.veu hN
  obtain ⟨k1, k2⟩ := C19_power hinit hz ha h1 hne hc
  exact ⟨c, hc, k1, k2, by rw [lc, hmd]⟩

/-- **C57 (arbitrary_bilinear).** If the implementation of the operation accepts all pairs of shapes it is documented
to accept (for the degrees that occur), `arbitrary_bilinear` returns. -/
theorem C57_arbitrary_bilinear {Rc : List ℕ} {terms : List ℕ → List (K × List ℕ × List ℕ)}
    {pbb : ND K → ND K → ℕ → ℕ → Py (ND K)} {a b : Encl K}
    (ha : WellFormedEncl a) (hb : WellFormedEncl b) (ha0 : a ≠ []) (hb0 : b ≠ []) {y1 y2 y : ND K}
    (hP : PairwiseContract z.shape y1.shape y2.shape Rc terms pbb)
    (hw : ∀ L, ValidIdx Rc L → ∀ t ∈ terms L, 0 ≤ t.1)
    (hacc : ∀ i j (u v : ND K), i < a.length → j < b.length → i + j ≤ md →
      u.shape = y1.shape ++ (List.replicate i z.shape).flatten →
      v.shape = y2.shape ++ (List.replicate j z.shape).flatten →
      ∃ s, pbb u v (i * z.shape.length) (j * z.shape.length) = .ok s)
    (ea : ExactBatch z.shape y1.shape a) (eb : ExactBatch z.shape y2.shape b)
    (h1 : Encloses a z y1) (h2 : Encloses b z y2) (hy : pbb y1 y2 0 0 = .ok y)
    (hne : ∃ I, ValidIdx y.shape I) :
    ∃ c, T.arbitraryBilinear a b pbb = .ok c ∧ Encloses c z y ∧ WellFormedEncl c ∧ ExactBatch z.shape y.shape c ∧
      c.length = min (a.length + b.length - 1) (md + 1) := by
  obtain ⟨hmd, hT, hzm, hzs⟩ := unpack hinit hz
  have va : VX T.xShape y1.shape a := fun i c hc =>
    ⟨(ha c (List.mem_of_getElem? hc)).wf, by rw [← hzs]; exact ea i c hc⟩
  have vb : VX T.xShape y2.shape b := fun i c hc =>
    ⟨(hb c (List.mem_of_getElem? hc)).wf, by rw [← hzs]; exact eb i c hc⟩
  have hx : T.xNdim = z.shape.length := by rw [hzs]; rfl
  obtain ⟨c, hc⟩ := arbitraryBilinear_total hT hzm (Rc := Rc) (pbb := pbb) ha0 hb0 va vb (by
    intro i j u v hi hj hm hu hv
    rw [← hzs] at hu hv ⊢
    obtain ⟨s, hs⟩ := hacc i j u v hi hj (by omega) hu hv
    rw [hx]
    refine ⟨s, hs, ?_⟩
    obtain ⟨e, -⟩ := hP.2 i j (repS i z.shape) (repS j z.shape) u v s rfl rfl hu hv (by simpa using hs)
    rw [e, IA.repS_add, List.append_assoc])
  obtain ⟨k1, k2, k3⟩ := C20_arbitrary_bilinear hinit hz ha hb ha0 hb0 hP hw ea eb h1 h2 hy hne hc
  refine ⟨c, hc, k1, k2, k3, ?_⟩
  unfold arbitraryBilinear at hc
  rw [setFold_length T hc]
  simp only [List.length_replicate, hmd]
  omega

/-- **C57 (compose_enclosures).** -/
theorem C57_compose {arg e : Encl K} (harg : WellFormedEncl arg) (he : WellFormedEncl e) (he0 : e ≠ [])
    {y y0 δ fy : ND K} (h0 : arg[0]? = some (.arr y0) ∨ e.length = 1)
    (hu : UniformBatch z.shape y.ndim arg)
    (hue : ∀ c ∈ e, c.ndim = y.ndim ∨ c.shape = [])
    (hdeg : e.length ≤ md + 1)
    (hy : Encloses arg z y) (hδ : ND.map2 (· - ·) y y0 = .ok δ)
    (hf : ElemEncloses e δ fy) (hfs : fy.shape = y.shape)
    (hne : ∃ I, ValidIdx y.shape I) (hN : JB.Labels z.shape y.shape ((arg.length - 1) * (e.length - 1))) :
    ∃ c, T.composeEnclosures e arg = .ok c ∧ Encloses c z fy ∧ WellFormedEncl c ∧
      UniformBatch z.shape y.ndim c ∧ c.length = min (1 + (arg.length - 1) * (e.length - 1)) (md + 1) := by
  obtain ⟨hmd, hT, hzm, hzs⟩ := unpack hinit hz
  obtain ⟨f1, -, -⟩ := hf.at he
  rw [hfs] at f1
  have hV := (hy.at harg (ble_refl _)).1
  have hVU : VEU (rankM y.ndim) T.xShape y.shape arg := by
    intro i x hx
    obtain ⟨wx, B, hB, hle⟩ := hV i x hx
    exact ⟨wx, B, by rw [← hzs]; exact hB, hle, uniform_mode hu i x B hx hB⟩
  rw [hzs] at hN
  obtain ⟨c, hc, lc⟩ := compose_total hT hzm (R := y.shape) (U := rankM y.ndim) (rankM_cm _) hVU he0
    (by rw [hmd]; exact hdeg) hN (fun p c hc => by
      have hm := List.mem_of_getElem? hc
      exact ⟨(he c hm).wf, f1 c hm, (hue c hm).imp id fun h => ⟨rfl, h⟩⟩)
  obtain ⟨k1, k2, k3⟩ := C21_compose hinit hz harg he h0 hu hue hdeg hy hδ hf hfs hne hc
  exact ⟨c, hc, k1, k2, k3, by rw [lc, hmd]⟩

/-- **C57 (get_elementwise_fun, derived trust region).** The generator is sound on `D`, which contains the range of
the argument; it returns when called with that range; the constant term of the argument is an array (or
`max_degree = 0`). -/
theorem C57_elementwise {f : K → K} {D : K → Prop} {gen : Generator K}
    (hgen : SoundGenerator f D gen) {arg : Encl K} (harg : WellFormedEncl arg) (harg0 : arg ≠ []) {y : ND K}
    (hu : UniformBatch z.shape y.ndim arg) (hy : Encloses arg z y)
    (hne : ∃ I, ValidIdx y.shape I) (h0 : (Coef.ivl lo hi).Contains ⟨lo.shape, fun _ => 0⟩)
    (hpt : ∀ a0, arg[0]? = some a0 → a0.IsArr ∨ md = 0)
    (hD : ∀ r, encloseEnclosure arg (.ivl lo hi) 0 = .ok [r] →
      ∀ I, ValidIdx r.shape I → ∀ v, r.AtIdx I v → D v)
    (hg : JB.GenReturns T gen arg none)
    (hN : JB.Labels z.shape y.shape ((arg.length - 1) * md)) :
    ∃ c, T.elementwiseFun gen arg = .ok c ∧ Encloses c z (y.map f) ∧ WellFormedEncl c ∧
      UniformBatch z.shape y.ndim c := by
  obtain ⟨hmd, hT, hzm, hzs⟩ := unpack hinit hz
  have hm := uniform_mode hu
  obtain ⟨r, hr, hr', r1, r2, r3, r4⟩ := derived_region hinit hz harg (U := rankM y.ndim) (rankM_cm _) hm hy harg0 h0
  obtain ⟨c, hc⟩ := elementwise_total hinit hz (hgen.at z) harg (U := rankM y.ndim) (rankM_cm _) hm hy hne harg0 hpt hr r1 r2 r3 r4
    (hD r hr') hg (by rw [hmd]; exact hN)
  exact ⟨c, hc, C22_derived hinit hz hgen harg hu hy hne h0 hD hc⟩

/-- **C57 (get_elementwise_fun, supplied trust region).** -/
theorem C57_elementwise_supplied {f : K → K} {D : K → Prop} {gen : Generator K}
    (hgen : SoundGenerator f D gen) {arg : Encl K} (harg : WellFormedEncl arg) (harg0 : arg ≠ []) {y : ND K}
    (hu : UniformBatch z.shape y.ndim arg) (hy : Encloses arg z y)
    (hne : ∃ I, ValidIdx y.shape I) {r : Coef K} (hr : r.SameShape)
    (hrn : r.ndim = y.ndim ∨ r.shape = []) (hry : r.Covers y)
    (hrx : ∀ a0 x0, arg[0]? = some a0 → T.expansionPoint a0 = .ok x0 →
      ∀ I, ValidIdx y.shape I → r.AtIdx (bidx r.shape I) (x0.bget I))
    (hpt : ∀ a0, arg[0]? = some a0 → a0.IsArr ∨ md = 0)
    (hD : ∀ I, ValidIdx r.shape I → ∀ v, r.AtIdx I v → D v)
    (hg : JB.GenReturns T gen arg (some r))
    (hN : JB.Labels z.shape y.shape ((arg.length - 1) * md)) :
    ∃ c, T.elementwiseFun gen arg (some r) = .ok c ∧ Encloses c z (y.map f) ∧ WellFormedEncl c ∧
      UniformBatch z.shape y.ndim c := by
  obtain ⟨hmd, hT, hzm, hzs⟩ := unpack hinit hz
  have wr := Coef.sameShape_iff.1 hr
  obtain ⟨q1, -⟩ := (Coef.covers_iff wr).1 hry
  obtain ⟨c, hc⟩ := elementwise_total hinit hz (hgen.at z) harg (U := rankM y.ndim) (rankM_cm _) (uniform_mode hu) hy hne harg0
    hpt (tr := some r) (r := r) rfl wr (hrn.imp id fun h => ⟨rfl, h⟩) q1
    (fun a0 x0 e1 e2 I hI => (Coef.atIdx_bidx wr).1 (hrx a0 x0 e1 e2 I hI)) hD hg (by rw [hmd]; exact hN)
  exact ⟨c, hc, C22_supplied hinit hz hgen harg hu hy hne hr hrn hry hrx hD hc⟩

/-- **C57 (power with another exponent).** -/
theorem C57_power_other {f : K → K} {D : K → Prop} {powGen : Generator K}
    (hgen : SoundGenerator f D powGen) {a : Encl K} (ha : WellFormedEncl a) (ha0 : a ≠ []) {y : ND K}
    (hu : UniformBatch z.shape y.ndim a) (hy : Encloses a z y)
    (hne : ∃ I, ValidIdx y.shape I) (h0 : (Coef.ivl lo hi).Contains ⟨lo.shape, fun _ => 0⟩)
    (hpt : ∀ a0, a[0]? = some a0 → a0.IsArr ∨ md = 0)
    (hD : ∀ r, encloseEnclosure a (.ivl lo hi) 0 = .ok [r] →
      ∀ I, ValidIdx r.shape I → ∀ v, r.AtIdx I v → D v)
    (hg : JB.GenReturns T powGen a none)
    (hN : JB.Labels z.shape y.shape ((a.length - 1) * md)) :
    ∃ c, T.powerOther powGen a = .ok c ∧ Encloses c z (y.map f) ∧ WellFormedEncl c ∧
      UniformBatch z.shape y.ndim c := by
  obtain ⟨hmd, hT, hzm, hzs⟩ := unpack hinit hz
  obtain ⟨c, hc⟩ := powerOther_total hinit hz (hgen.at z) ha (U := rankM y.ndim) (rankM_cm _) (uniform_mode hu) hy hne ha0
    hpt h0 hD hg (by rw [hmd]; exact hN)
  exact ⟨c, hc, C23_power_other hinit hz hgen ha hu hy hne h0 hD hc⟩

/-- **C57 (divide).** -/
theorem C57_divide {D : K → Prop} {recipGen : Generator K}
    (hgen : SoundGenerator (fun x => x⁻¹) D recipGen) {a b : Encl K} (ha : WellFormedEncl a)
    (hb : WellFormedEncl b) (ha0 : a ≠ []) (hb0 : b ≠ []) {y1 y2 y : ND K} (hu : UniformBatch z.shape y2.ndim b)
    (h1 : Encloses a z y1) (h2 : Encloses b z y2) (hy : ND.map2 (· / ·) y1 y2 = .ok y)
    (hne : ∃ I, ValidIdx y.shape I) (h0 : (Coef.ivl lo hi).Contains ⟨lo.shape, fun _ => 0⟩)
    (hpt : ∀ a0, b[0]? = some a0 → a0.IsArr ∨ md = 0)
    (hD : ∀ r, encloseEnclosure b (.ivl lo hi) 0 = .ok [r] →
      ∀ I, ValidIdx r.shape I → ∀ v, r.AtIdx I v → D v)
    (hg : JB.GenReturns T recipGen b none)
    (hN : JB.Labels z.shape y2.shape ((b.length - 1) * md)) :
    ∃ c, T.divide recipGen a b = .ok c ∧ Encloses c z y ∧ WellFormedEncl c := by
  obtain ⟨l1, l2⟩ := ND.map2_shape hy
  have hne2 : ∃ I, ValidIdx y2.shape I := by
    obtain ⟨I, hI⟩ := hne
    exact ⟨_, validIdx_bidx l2 hI⟩
  obtain ⟨q, hq, k1, k2, -⟩ := C57_power_other hinit hz hgen hb hb0 hu h2 hne2 h0 hpt hD hg hN
  have hq0 : q ≠ [] := by
    have hq' := hq
    simp only [powerOther, py_bind_ok] at hq'
    obtain ⟨_, _, hq'⟩ := hq'
    exact elementwise_ne_nil T hq'
  obtain ⟨c', hc', -⟩ := C57_multiply hinit hz ha k2 ha0 hq0 h1 k1 (y := ⟨y.shape, fun I => y1.bget I * (y2.map fun x => x⁻¹).bget I⟩)
    (by
      have hs := (ND.map2_ok hy).1
      unfold ND.map2
      show (match bshape y1.shape y2.shape with | none => _ | some R => _) = _
      rw [hs]) hne
  have hc : T.divide recipGen a b = .ok c' := by unfold divide; rw [hq, py_ok_bind]; exact hc'
  exact ⟨c', hc, C23_divide hinit hz hgen ha hb ha0 hu h1 h2 hy hne h0 hD hc⟩

end
end TEA
end AB
