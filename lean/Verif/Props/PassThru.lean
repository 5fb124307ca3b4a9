/-
C50: primitives applied separately to each coefficient
(/repo/autobound/enclosure_arithmetic.py:400-405, /repo/autobound/jax/jax_bound.py:447-453).
-/
import Verif.Props.Exact
import Verif.Props.Lift
set_option linter.unusedSectionVars false

namespace AB
variable {K : Type} [Field K] [LinearOrder K] [IsStrictOrderedRing K]
open IA (repS)

theorem mapOver_get {a c : Encl K} {g : ND K → Py (ND K)} (h : mapOverEnclosure a g = .ok c) :
    c.length = a.length ∧ ∀ (i : ℕ) (x' : Coef K), c[i]? = some x' → ∃ x : Coef K, a[i]? = some x ∧
      ((∃ u s : ND K, x = Coef.arr u ∧ g u = .ok s ∧ x' = Coef.arr s) ∨
       (∃ l h' l' h'' : ND K, x = Coef.ivl l h' ∧ g l = .ok l' ∧ g h' = .ok h'' ∧ x' = Coef.ivl l' h'')) := by
  unfold mapOverEnclosure at h
  have := Poly.mapM_ok h
  clear h
  induction this with
  | nil => simp
  | cons h1 h2 ih =>
    rename_i x x' a c
    refine ⟨by simp [ih.1], fun i y hy => ?_⟩
    cases i with
    | succ i => simpa using ih.2 i y (by simpa using hy)
    | zero =>
      simp only [List.getElem?_cons_zero, Option.some.injEq] at hy
      subst hy
      refine ⟨x, by simp, ?_⟩
      cases x with
      | arr u =>
        simp only [py_bind_ok, py_pure] at h1
        obtain ⟨s, hs, rfl⟩ := h1
        exact Or.inl ⟨u, s, rfl, hs, rfl⟩
      | ivl l h =>
        simp only [py_bind_ok, py_pure] at h1
        obtain ⟨s, hs, s', hs', rfl⟩ := h1
        exact Or.inr ⟨l, h, s, s', rfl, hs, hs', rfl⟩

theorem pair_list_comb {τ : Type} (xs : List ℕ) (z : List ℕ → K) (i : ℕ) (l : List τ) (w : τ → K)
    (f : τ → List ℕ → K) :
    pair xs z i (fun J => (l.map fun t => w t * f t J).sum) = (l.map fun t => w t * pair xs z i (f t)).sum := by
  induction l with
  | nil => simp
  | cons t l ih =>
    simp only [List.map_cons, List.sum_cons]
    rw [← ih]
    rw [pair_add xs z i (fun J => w t * f t J) (fun J => (l.map fun t => w t * f t J).sum)]
    congr 1
    unfold pair
    rw [← List.sum_map_mul_left]
    congr 1
    apply List.map_congr_left
    intro J _
    ring

/-- **C50.** `map_over_enclosure(a, g)` for a linear operation with nonnegative weights acting on the
leading axes. -/
theorem C50_pass_thru {Rc : List ℕ} {terms : List ℕ → List (K × List ℕ)} {g : ND K → Py (ND K)}
    {a c : Encl K} {z y1 y : ND K} (ha : GoodEncl a z y1)
    (hL : LinearContract z.shape y1.shape Rc terms g)
    (hw : ∀ L, ValidIdx Rc L → ∀ t ∈ terms L, 0 ≤ t.1) (hy : g y1 = .ok y)
    (hne : ∃ I, ValidIdx y.shape I) (hc : mapOverEnclosure a g = .ok c) : GoodEncl c z y := by
  obtain ⟨hl, hg⟩ := mapOver_get hc
  obtain ⟨hL1, hL2⟩ := hL
  obtain ⟨ys, yv⟩ := hL2 0 y1 y (by simp) hy
  simp only [List.replicate_zero, List.flatten_nil, List.append_nil] at ys yv
  have hshape : ∀ i x', c[i]? = some x' → x'.WF ∧ x'.shape = y.shape ++ repS i z.shape := by
    intro i x' hx'
    obtain ⟨x, hx, h⟩ := hg i x' hx'
    have hs := ha.exact i x hx
    rcases h with ⟨u, s, rfl, e, rfl⟩ | ⟨l, h', l', h'', rfl, e1, e2, rfl⟩
    · exact ⟨Coef.WF_arr _, by rw [ys]; exact (hL2 i u s hs e).1⟩
    · have hw' : l.shape = h'.shape := (ha.wf _ (List.mem_of_getElem? hx)).wf
      have hs : l.shape = y1.shape ++ (List.replicate i z.shape).flatten := hs
      have k1 := (hL2 i l l' hs e1).1
      have k2 := (hL2 i h' h'' (hw' ▸ hs) e2).1
      exact ⟨k1.trans k2.symm, by rw [ys]; exact k1⟩
  have e1 : ∀ α, ∃ f, ValidIdx y1.shape α → Sel z.shape a α f ∧
      selVal z.shape z.get a.length f = y1.get α := by
    intro α
    by_cases hα : ValidIdx y1.shape α
    · obtain ⟨-, hi⟩ := (encloses_iff ha.wf).1 ha.encl
      obtain ⟨f, hf, e⟩ := hi α hα
      exact ⟨f, fun _ => ⟨hf, e.symm⟩⟩
    · exact ⟨0, fun h => absurd h hα⟩
  choose f hf using e1
  have key : ∀ L, ValidIdx y.shape L → ∃ W, SR (exactM y.shape) z.shape y.shape L c W ∧
      selVal z.shape z.get c.length W = y.get L := by
    intro L hLv
    have hLc := ys ▸ hLv
    refine ⟨fun i J => ((terms L).map fun t => t.1 * f t.2 i J).sum, ⟨fun i x' hx' => ?_, fun i hi => ?_⟩, ?_⟩
    · refine ⟨⟨(hshape i x' hx').1, y.shape, (hshape i x' hx').2, ble_refl _, rfl⟩, fun J hJ => ?_⟩
      obtain ⟨x, hx, h⟩ := hg i x' hx'
      have hs := ha.exact i x hx
      have hv : ValidIdx x'.shape (L ++ J) := by
        rw [(hshape i x' hx').2]; exact validIdx_append hLv hJ
      have hmem : ∀ t ∈ terms L, x.Mem (t.2 ++ J) (f t.2 i J) := fun t ht =>
        ((hf t.2 (hL1 L hLc t ht)).1 i).1 x hx J hJ
      have hvx : ∀ t ∈ terms L, ValidIdx x.shape (t.2 ++ J) := by
        intro t ht
        rw [hs]; exact validIdx_append (hL1 L hLc t ht) hJ
      rcases h with ⟨u, s, rfl, e, rfl⟩ | ⟨l, h', l', h'', rfl, e1, e2, rfl⟩
      · rw [Coef.mem_arr, ND.bget_valid _ hv, (hL2 i u s hs e).2 L J hLc hJ]
        show ((terms L).map fun t => t.1 * f t.2 i J).sum = _
        congr 1
        apply List.map_congr_left
        intro t ht
        have := hmem t ht
        rw [Coef.mem_arr, ND.bget_valid _ (hvx t ht)] at this
        rw [this]
      · have hw' : l.shape = h'.shape := (ha.wf _ (List.mem_of_getElem? hx)).wf
        have hw'' : l'.shape = h''.shape := (hshape i _ hx').1
        have hs : l.shape = y1.shape ++ (List.replicate i z.shape).flatten := hs
        have hv : ValidIdx l'.shape (L ++ J) := hv
        have hm' : ∀ t ∈ terms L, l.get (t.2 ++ J) ≤ f t.2 i J ∧ f t.2 i J ≤ h'.get (t.2 ++ J) := by
          intro t ht
          have h1 : l.bget (t.2 ++ J) ≤ f t.2 i J ∧ f t.2 i J ≤ h'.bget (t.2 ++ J) := hmem t ht
          have hv1 : ValidIdx l.shape (t.2 ++ J) := hvx t ht
          rwa [ND.bget_valid _ hv1, ND.bget_valid _ (hw' ▸ hv1)] at h1
        show l'.bget (L ++ J) ≤ _ ∧ _ ≤ h''.bget (L ++ J)
        rw [ND.bget_valid _ hv, ND.bget_valid _ (hw'' ▸ hv), (hL2 i l l' hs e1).2 L J hLc hJ,
          (hL2 i h' h'' (hw' ▸ hs) e2).2 L J hLc hJ]
        constructor
        · exact List.sum_le_sum fun t ht => mul_le_mul_of_nonneg_left (hm' t ht).1 (hw L hLc t ht)
        · exact List.sum_le_sum fun t ht => mul_le_mul_of_nonneg_left (hm' t ht).2 (hw L hLc t ht)
    · have hi' : a[i]? = none := by
        rw [List.getElem?_eq_none_iff] at hi ⊢; omega
      funext J
      show ((terms L).map fun t => t.1 * f t.2 i J).sum = 0
      apply List.sum_eq_zero
      intro x hx
      obtain ⟨t, ht, rfl⟩ := List.mem_map.1 hx
      rw [show f t.2 i J = 0 from ((hf t.2 (hL1 L hLc t ht)).1 i).2 hi' J, mul_zero]
    · have : y.get L = ((terms L).map fun t => t.1 * y1.get t.2).sum := by
        have := yv L [] hLc ValidIdx.nil
        simpa using this
      rw [this, hl]
      unfold selVal
      simp only [pair_list_comb]
      rw [show (∑ x ∈ Finset.range a.length, ((terms L).map fun t => t.1 * pair z.shape z.get x (f t.2 x)).sum)
        = ((terms L).map fun t => ∑ x ∈ Finset.range a.length, t.1 * pair z.shape z.get x (f t.2 x)).sum from ?_]
      · congr 1
        apply List.map_congr_left
        intro t ht
        rw [← Finset.mul_sum, ← (hf t.2 (hL1 L hLc t ht)).2]
        rfl
      · generalize terms L = l
        induction l with
        | nil => simp
        | cons t l ih => simp only [List.map_cons, List.sum_cons, Finset.sum_add_distrib, ih]
  have hne0 : c ≠ [] := by
    intro h0
    rw [h0] at hl
    exact ha.ne (List.length_eq_zero_iff.1 (by simpa using hl.symm))
  have hVE : VE z.shape y.shape c := by
    obtain ⟨I, hI⟩ := hne
    obtain ⟨W, hW, -⟩ := key I hI
    exact hW.veu.ve
  refine ⟨hne0, wellFormedEncl_of_SR hne fun I hI => ⟨_, (key I hI).choose_spec.1⟩, ?_, fun i x' hx' => (hshape i x' hx').2⟩
  refine encloses_of hVE fun I hI => ?_
  obtain ⟨W, hW, e⟩ := key I hI
  exact ⟨W, hW.sel, e.symm⟩

/-- Generators lifted from scalar functions return a constant term of (at least) the shape of `x0`. -/
theorem keepsShape_lift (tc : ℕ → K → Py (List K)) (g : K → K → K → ℕ → Py (PE.SEncl K)) :
    KeepsShape (PE.liftGen tc g) := by
  intro x0 tr d e h
  unfold PE.liftGen at h
  cases hR : bshape x0.shape tr.1.shape with
  | none => simp only [hR] at h; cases h
  | some R =>
    simp only [hR, py_bind_ok, py_pure] at h
    obtain ⟨_, -, rfl⟩ := h
    cases d with
    | zero => exact ⟨_, rfl, bshape_eq_of_ble (bshape_le hR).1⟩
    | succ d =>
      refine ⟨.arr (x0.map fun x => PE.coefOf 0 (tc (d + 1) x)), ?_, bshape_self _⟩
      rw [List.range_succ_eq_map]
      rfl

theorem keepsShape_guard {ok : K → K → K → ℕ → Prop} {gen : TEA.Generator K} (h : KeepsShape gen) :
    KeepsShape (guardGen ok gen) := fun x0 tr d e he => h x0 tr d e (guardGen_ok he).2

end AB
