import Verif.Proofs.Interval
import Mathlib.Algebra.Order.BigOperators.Group.List
import Mathlib.Algebra.BigOperators.Ring.List
import Mathlib.Algebra.Order.Ring.Pow

set_option linter.unusedSectionVars false

namespace AB
variable {K : Type} [Field K] [LinearOrder K] [IsStrictOrderedRing K]

namespace IA
open Coef

/-- a term `w * x[φ] * y[ψ]` of a bilinear operation -/
abbrev BTerm (K : Type) := K × List ℕ × List ℕ

theorem list_sum_add (T : List (BTerm K)) (f g : BTerm K → K) :
    (T.map f).sum + (T.map g).sum = (T.map fun t => f t + g t).sum := by
  induction T with
  | nil => simp
  | cons t T ih => simp only [List.map_cons, List.sum_cons, ← ih]; ring

theorem bilinearFalse_ok {op : ND K → ND K → Py (ND K)} {a b r : Coef K} {R : List ℕ}
    (ha : a.WF) (hb : b.WF)
    (hR : ∀ x y s, x.shape = a.shape → y.shape = b.shape → op x y = .ok s → s.shape = R)
    (h : arbitraryBilinear a b op false = .ok r) :
    r.WF ∧ r.shape = R ∧ r.isArr = (a.isArr && b.isArr) ∧
    ∀ (L : List ℕ) (T : List (BTerm K)), R.length ≤ L.length →
      (∀ x y s, x.shape = a.shape → y.shape = b.shape → op x y = .ok s →
        s.bget L = (T.map fun t => t.1 * (x.bget t.2.1 * y.bget t.2.2)).sum) →
      (a.isArr = true → b.isArr = true → r.lo.bget L =
          (T.map fun t => t.1 * (a.lo.bget t.2.1 * b.lo.bget t.2.2)).sum ∧ r.hi.bget L =
          (T.map fun t => t.1 * (a.lo.bget t.2.1 * b.lo.bget t.2.2)).sum) ∧
      r.lo.bget L = (T.map fun t => t.1 * glo (a.lo.bget t.2.1) (a.hi.bget t.2.1)
        (b.lo.bget t.2.2) (b.hi.bget t.2.2)).sum ∧
      r.hi.bget L = (T.map fun t => t.1 * ghi (a.lo.bget t.2.1) (a.hi.bget t.2.1)
        (b.lo.bget t.2.2) (b.hi.bget t.2.2)).sum := by
  have red4 : ∀ {f : K → K → K} {x y z w m : ND K}, x.shape = R → y.shape = R → z.shape = R →
      w.shape = R → reduce (ND.map2 f) [x, y, z, w] = .ok m → m.shape = R ∧
      ∀ L, R.length ≤ L.length → m.bget L = f (f (f (x.bget L) (y.bget L)) (z.bget L)) (w.bget L) := by
    intro f x y z w m hx hy hz hw h
    simp [reduce] at h
    obtain ⟨m1, h1, m2, h2, h3⟩ := h
    have e1 := bilinear_shape_wf hx hy h1
    have e2 := bilinear_shape_wf e1.1 hz h2
    have e3 := bilinear_shape_wf e2.1 hw h3
    exact ⟨e3.1, fun L hL => by rw [e3.2 L hL, e2.2 L hL, e1.2 L hL]⟩
  have hR' : ∀ {x y s : ND K}, op x y = .ok s → x.shape = a.shape → y.shape = b.shape →
      s.shape = R := fun h1 h2 h3 => hR _ _ _ h2 h3 h1
  have pS : ∀ x : ND K, (posPart x).shape = x.shape := fun _ => rfl
  have nS : ∀ x : ND K, (negPart x).shape = x.shape := fun _ => rfl
  have pB : ∀ (x : ND K) L, (posPart x).bget L = max 0 (x.bget L) := fun _ _ => rfl
  have nB : ∀ (x : ND K) L, (negPart x).bget L = min 0 (x.bget L) := fun _ _ => rfl
  cases a with
  | arr a => cases b with
    | arr b =>
      simp only [arbitraryBilinear, py_bind_ok, py_pure] at h
      obtain ⟨s, hs, rfl⟩ := h
      refine ⟨trivial, hR' hs rfl rfl, rfl, fun L T hL hop => ?_⟩
      have e := hop _ _ _ (by first | exact rfl | rfl) (by first | exact rfl | rfl) hs
      have hh : ∀ u v : K, u * max 0 v + u * min 0 v = u * v := by
        intro u v; rw [← mul_add, posneg]
      simp only [lo_arr, hi_arr, glo_self', ghi_self']
      rw [e]
      simp only [hh]
      exact ⟨fun _ _ => ⟨trivial, trivial⟩, trivial, trivial⟩
    | ivl b0 b1 =>
      simp only [arbitraryBilinear, bilinearGeneral, py_bind_ok, py_pure, Bool.false_eq_true,
        if_false] at h
      obtain ⟨p, hp, q, hq, m, hm, p', hp', q', hq', M, hM, rfl⟩ := h
      have hb' : b1.shape = (Coef.ivl b0 b1).shape := (WF_ivl.1 hb).symm
      have s1 := hR' hp rfl rfl
      have s2 := hR' hq rfl hb'
      have s3 := hR' hp' rfl hb'
      have s4 := hR' hq' rfl rfl
      have em := bilinear_shape_wf s1 s2 hm
      have eM := bilinear_shape_wf s3 s4 hM
      refine ⟨WF_ivl.2 (em.1.trans eM.1.symm), em.1, rfl, fun L T hL hop => ?_⟩
      have o1 := hop _ _ _ (by first | exact rfl | rfl) (by first | exact rfl | rfl) hp
      have o2 := hop _ _ _ (by first | exact rfl | rfl) (by first | exact hb' | rfl) hq
      have o3 := hop _ _ _ (by first | exact rfl | rfl) (by first | exact hb' | rfl) hp'
      have o4 := hop _ _ _ (by first | exact rfl | rfl) (by first | exact rfl | rfl) hq'
      refine ⟨by intro _ hb; simp [isArr] at hb, ?_, ?_⟩
      · rw [lo_ivl, em.2 L hL, o1, o2, list_sum_add]
        simp only [pB, nB, lo_arr, hi_arr, lo_ivl, hi_ivl, glo_self, mul_add]
      · rw [hi_ivl, eM.2 L hL, o3, o4, list_sum_add]
        simp only [pB, nB, lo_arr, hi_arr, lo_ivl, hi_ivl, ghi_self, mul_add]
  | ivl a0 a1 =>
    have ha' : a1.shape = (Coef.ivl a0 a1).shape := (WF_ivl.1 ha).symm
    cases b with
    | arr b =>
      simp only [arbitraryBilinear, bilinearGeneral, py_bind_ok, py_pure, Bool.false_eq_true,
        if_false] at h
      obtain ⟨p, hp, q, hq, m, hm, p', hp', q', hq', M, hM, rfl⟩ := h
      have s1 := hR' hp rfl rfl
      have s2 := hR' hq ha' rfl
      have s3 := hR' hp' ha' rfl
      have s4 := hR' hq' rfl rfl
      have em := bilinear_shape_wf s1 s2 hm
      have eM := bilinear_shape_wf s3 s4 hM
      refine ⟨WF_ivl.2 (em.1.trans eM.1.symm), em.1, rfl, fun L T hL hop => ?_⟩
      have o1 := hop _ _ _ (by first | exact rfl | rfl) (by first | exact rfl | rfl) hp
      have o2 := hop _ _ _ (by first | exact ha' | rfl) (by first | exact rfl | rfl) hq
      have o3 := hop _ _ _ (by first | exact ha' | rfl) (by first | exact rfl | rfl) hp'
      have o4 := hop _ _ _ (by first | exact rfl | rfl) (by first | exact rfl | rfl) hq'
      refine ⟨by intro ha; simp [isArr] at ha, ?_, ?_⟩
      · rw [lo_ivl, em.2 L hL, o1, o2, list_sum_add]
        simp only [pB, nB, lo_arr, hi_arr, lo_ivl, hi_ivl, glo_self', mul_add]
      · rw [hi_ivl, eM.2 L hL, o3, o4, list_sum_add]
        simp only [pB, nB, lo_arr, hi_arr, lo_ivl, hi_ivl, ghi_self', mul_add]
    | ivl b0 b1 =>
      have hb' : b1.shape = (Coef.ivl b0 b1).shape := (WF_ivl.1 hb).symm
      simp only [arbitraryBilinear, bilinearGeneral, Bool.false_eq_true, if_false] at h
      simp only [List.mapM_cons, List.mapM_nil, py_bind_ok, py_pure] at h
      obtain ⟨ps, ⟨p0, hp0, _, ⟨p1, hp1, _, ⟨p2, hp2, _, ⟨p3, hp3, _, rfl, rfl⟩, rfl⟩, rfl⟩,
        rfl⟩, m, hm, qs, ⟨q0, hq0, _, ⟨q1, hq1, _, ⟨q2, hq2, _, ⟨q3, hq3, _, rfl, rfl⟩, rfl⟩,
        rfl⟩, rfl⟩, M, hM, rfl⟩ := h
      have s0 := hR' hp0 rfl rfl
      have s1 := hR' hp1 ha' rfl
      have s2 := hR' hp2 rfl hb'
      have s3 := hR' hp3 ha' hb'
      have t0 := hR' hq0 ha' hb'
      have t1 := hR' hq1 ha' rfl
      have t2 := hR' hq2 rfl hb'
      have t3 := hR' hq3 rfl rfl
      have em := red4 s0 s1 s2 s3 hm
      have eM := red4 t0 t1 t2 t3 hM
      refine ⟨WF_ivl.2 (em.1.trans eM.1.symm), em.1, rfl, fun L T hL hop => ?_⟩
      have o0 := hop _ _ _ (by first | exact rfl | rfl) (by first | exact rfl | rfl) hp0
      have o1 := hop _ _ _ (by first | exact ha' | rfl) (by first | exact rfl | rfl) hp1
      have o2 := hop _ _ _ (by first | exact rfl | rfl) (by first | exact hb' | rfl) hp2
      have o3 := hop _ _ _ (by first | exact ha' | rfl) (by first | exact hb' | rfl) hp3
      have u0 := hop _ _ _ (by first | exact ha' | rfl) (by first | exact hb' | rfl) hq0
      have u1 := hop _ _ _ (by first | exact ha' | rfl) (by first | exact rfl | rfl) hq1
      have u2 := hop _ _ _ (by first | exact rfl | rfl) (by first | exact hb' | rfl) hq2
      have u3 := hop _ _ _ (by first | exact rfl | rfl) (by first | exact rfl | rfl) hq3
      refine ⟨by intro ha; simp [isArr] at ha, ?_, ?_⟩
      · rw [lo_ivl, em.2 L hL, o0, o1, o2, o3, list_sum_add, list_sum_add, list_sum_add]
        simp only [pB, nB, lo_ivl, hi_ivl, glo, mul_add]
      · rw [hi_ivl, eM.2 L hL, u0, u1, u2, u3, list_sum_add, list_sum_add, list_sum_add]
        simp only [pB, nB, lo_ivl, hi_ivl, ghi, mul_add]

theorem bilinearFalse_mem {op : ND K → ND K → Py (ND K)} {a b r : Coef K} {R : List ℕ}
    (ha : a.WF) (hb : b.WF)
    (hR : ∀ x y s, x.shape = a.shape → y.shape = b.shape → op x y = .ok s → s.shape = R)
    (h : arbitraryBilinear a b op false = .ok r) {L : List ℕ} {T : List (BTerm K)}
    (hL : R.length ≤ L.length)
    (hop : ∀ x y s, x.shape = a.shape → y.shape = b.shape → op x y = .ok s →
        s.bget L = (T.map fun t => t.1 * (x.bget t.2.1 * y.bget t.2.2)).sum)
    (hw : (a.isArr = true ∧ b.isArr = true) ∨ ∀ t ∈ T, 0 ≤ t.1)
    {s t : List ℕ → K} (hs : ∀ τ ∈ T, a.Mem τ.2.1 (s τ.2.1)) (ht : ∀ τ ∈ T, b.Mem τ.2.2 (t τ.2.2)) :
    r.Mem L (T.map fun τ => τ.1 * (s τ.2.1 * t τ.2.2)).sum := by
  obtain ⟨hA, h1, h2⟩ := (bilinearFalse_ok ha hb hR h).2.2.2 L T hL hop
  unfold Mem
  rcases hw with ⟨hw1, hw2⟩ | hw
  · rw [(hA hw1 hw2).1, (hA hw1 hw2).2]
    have : ∀ τ ∈ T, τ.1 * (a.lo.bget τ.2.1 * b.lo.bget τ.2.2) = τ.1 * (s τ.2.1 * t τ.2.2) := by
      intro τ hτ
      have e1 := hs τ hτ
      have e2 := ht τ hτ
      cases a with
      | ivl => simp [isArr] at hw1
      | arr a => cases b with
        | ivl => simp [isArr] at hw2
        | arr b =>
          rw [mem_arr] at e1 e2
          rw [e1, e2]; rfl
    rw [List.map_congr_left this]
    exact ⟨le_rfl, le_rfl⟩
  · rw [h1, h2]
    constructor
    · apply List.sum_le_sum
      intro τ hτ
      exact mul_le_mul_of_nonneg_left (gbounds (hs τ hτ).1 (hs τ hτ).2 (ht τ hτ).1 (ht τ hτ).2).1
        (hw τ hτ)
    · apply List.sum_le_sum
      intro τ hτ
      exact mul_le_mul_of_nonneg_left (gbounds (hs τ hτ).1 (hs τ hτ).2 (ht τ hτ).1 (ht τ hτ).2).2
        (hw τ hτ)

/-! ### tensordot -/

theorem _root_.AB.ND.tensordot_ok {a b r : ND K} {n : ℕ} (h : ND.tensordot a b n = .ok r) :
    n ≤ a.ndim ∧ n ≤ b.ndim ∧ a.shape.drop (a.ndim - n) = b.shape.take n ∧
    r.shape = a.shape.take (a.ndim - n) ++ b.shape.drop n ∧
    ∀ L1 L2, a.ndim - n ≤ L1.length → L2.length = b.ndim - n →
      r.bget (L1 ++ L2) = ((idx (b.shape.take n)).map fun J =>
        a.bget (L1 ++ J) * b.bget (J ++ L2)).sum := by
  unfold ND.tensordot at h
  split_ifs at h with h1 h2
  push Not at h1 h2
  cases h
  refine ⟨h1.1, h1.2, h2, rfl, fun L1 L2 hL1 hL2 => ?_⟩
  rw [ND.bget_def]
  simp only
  rw [bidx_append (by simp [hL2, ND.ndim])]
  apply congrArg List.sum
  apply List.map_congr_left
  intro J hJ
  rw [mem_idx] at hJ
  have hJl := hJ.length
  have e1 : (bidx (a.shape.take (a.ndim - n)) L1).length = a.ndim - n := by
    rw [bidx_length, List.length_take]
    unfold ND.ndim at *; omega
  rw [List.take_left' e1, List.drop_left' e1, ND.bget_def, ND.bget_def]
  congr 2
  · conv_rhs => rw [← List.take_append_drop (a.ndim - n) a.shape]
    rw [h2, bidx_append hJl, bidx_valid hJ]
  · conv_rhs => rw [← List.take_append_drop n b.shape]
    rw [bidx_append (by simp [hL2, ND.ndim]), bidx_valid hJ]

theorem tensordot_mem {a b r : Coef K} {n : ℕ} (ha : a.WF) (hb : b.WF)
    (h : tensordot a b n = .ok r) :
    r.WF ∧ n ≤ a.ndim ∧ n ≤ b.ndim ∧ a.shape.drop (a.ndim - n) = b.shape.take n ∧
    r.shape = a.shape.take (a.ndim - n) ++ b.shape.drop n ∧ r.isArr = (a.isArr && b.isArr) ∧
    ∀ L1 L2, a.ndim - n ≤ L1.length → L2.length = b.ndim - n → ∀ s t : List ℕ → K,
      (∀ J ∈ idx (b.shape.take n), a.Mem (L1 ++ J) (s J)) →
      (∀ J ∈ idx (b.shape.take n), b.Mem (J ++ L2) (t J)) →
      r.Mem (L1 ++ L2) ((idx (b.shape.take n)).map fun J => s J * t J).sum := by
  have hsh : ∀ (x y s : ND K), x.shape = a.shape → y.shape = b.shape →
      (fun x y => ND.tensordot x y n) x y = .ok s →
      s.shape = a.shape.take (a.ndim - n) ++ b.shape.drop n := by
    intro x y s hx hy hs
    have := (ND.tensordot_ok hs).2.2.2.1
    rwa [hx, hy, show x.ndim = a.ndim by unfold ND.ndim Coef.ndim; rw [hx]] at this
  have hex : ∃ x y s : ND K, x.shape = a.shape ∧ y.shape = b.shape ∧ ND.tensordot x y n = .ok s := by
    unfold tensordot at h
    cases a with
    | arr a => cases b with
      | arr b =>
        simp only [arbitraryBilinear, py_bind_ok] at h
        obtain ⟨s, hs, -⟩ := h
        exact ⟨a, b, s, rfl, rfl, hs⟩
      | ivl b0 b1 =>
        simp only [arbitraryBilinear] at h
        split_ifs at h
        · simp only [bilinearProduct, endpoints, List.flatMap_cons, List.map_cons,
            List.cons_append, List.mapM_cons, py_bind_ok] at h
          obtain ⟨_, ⟨s, hs, -⟩, -⟩ := h
          exact ⟨a, b0, s, rfl, rfl, hs⟩
        · simp only [bilinearGeneral, py_bind_ok] at h
          obtain ⟨s, hs, -⟩ := h
          exact ⟨posPart a, b0, s, rfl, rfl, hs⟩
    | ivl a0 a1 => cases b with
      | arr b =>
        simp only [arbitraryBilinear] at h
        split_ifs at h
        · simp only [bilinearProduct, endpoints, List.flatMap_cons, List.map_cons,
            List.cons_append, List.mapM_cons, py_bind_ok] at h
          obtain ⟨_, ⟨s, hs, -⟩, -⟩ := h
          exact ⟨a0, b, s, rfl, rfl, hs⟩
        · simp only [bilinearGeneral, py_bind_ok] at h
          obtain ⟨s, hs, -⟩ := h
          exact ⟨a0, posPart b, s, rfl, rfl, hs⟩
      | ivl b0 b1 =>
        simp only [arbitraryBilinear] at h
        split_ifs at h
        · simp only [bilinearProduct, endpoints, List.flatMap_cons, List.map_cons,
            List.cons_append, List.mapM_cons, py_bind_ok] at h
          obtain ⟨_, ⟨s, hs, -⟩, -⟩ := h
          exact ⟨a0, b0, s, rfl, rfl, hs⟩
        · simp only [bilinearGeneral, List.mapM_cons, py_bind_ok] at h
          obtain ⟨_, ⟨s, hs, -⟩, -⟩ := h
          exact ⟨posPart a0, posPart b0, s, rfl, rfl, hs⟩
  obtain ⟨x, y, s', hx, hy, hs'⟩ := hex
  have hx' : x.ndim = a.ndim := by unfold ND.ndim Coef.ndim; rw [hx]
  have hy' : y.ndim = b.ndim := by unfold ND.ndim Coef.ndim; rw [hy]
  have hxy := ND.tensordot_ok hs'
  rw [hx, hy, hx', hy'] at hxy
  obtain ⟨hn1, hn2, hn3, -, -⟩ := hxy
  by_cases hn : n = 0
  · subst hn
    have h' : arbitraryBilinear a b (fun x y => ND.tensordot x y 0) true = .ok r := by
      simpa [tensordot] using h
    have ok := bilinearTrue_ok ha hb hsh h'
    refine ⟨ok.1, hn1, hn2, hn3, ok.2.1, ok.2.2.1, fun L1 L2 hL1 hL2 s t hs ht => ?_⟩
    simp only [List.take_zero, idx, List.map_cons, List.map_nil, List.sum_cons, List.sum_nil,
      add_zero, List.mem_singleton, forall_eq, List.append_nil, List.nil_append] at hs ht ⊢
    refine bilinearTrue_mem ha hb hsh h' ?_ ?_ hs ht
    · simp only [List.length_append, List.length_take, List.length_drop]
      unfold Coef.ndim at *; omega
    · intro x y s hx hy hs
      have := (ND.tensordot_ok hs).2.2.2.2 L1 L2 (by unfold ND.ndim; rw [hx]; exact hL1)
        (by unfold ND.ndim; rw [hy]; exact hL2)
      simpa [idx] using this
  · have h' : arbitraryBilinear a b (fun x y => ND.tensordot x y n) false = .ok r := by
      have : (n == 0) = false := by simpa using hn
      unfold tensordot at h; rwa [this] at h
    have ok := bilinearFalse_ok ha hb hsh h'
    refine ⟨ok.1, hn1, hn2, hn3, ok.2.1, ok.2.2.1, fun L1 L2 hL1 hL2 s t hs ht => ?_⟩
    have hb2 : (b.shape.take n).length = n := by
      rw [List.length_take]; unfold Coef.ndim at *; omega
    have := bilinearFalse_mem (L := L1 ++ L2) (R := a.shape.take (a.ndim - n) ++ b.shape.drop n)
      (T := (idx (b.shape.take n)).map fun J => ((1 : K), L1 ++ J, J ++ L2))
      (s := fun L => s (L.drop L1.length)) (t := fun L => t (L.take n)) ha hb hsh h' ?_ ?_ ?_ ?_ ?_
    · convert this using 2
      rw [List.map_map]
      apply List.map_congr_left
      intro J hJ
      rw [mem_idx] at hJ
      have hJl := hJ.length
      simp only [Function.comp, one_mul, List.drop_left]
      rw [List.take_left' (by omega)]
    · simp only [List.length_append, List.length_take, List.length_drop]
      unfold Coef.ndim at *; omega
    · intro x y s hx hy hs
      have := (ND.tensordot_ok hs).2.2.2.2 L1 L2 (by unfold ND.ndim; rw [hx]; exact hL1)
        (by unfold ND.ndim; rw [hy]; exact hL2)
      rw [this, hy, List.map_map]
      simp [Function.comp_def]
    · right; intro t ht
      simp only [List.mem_map] at ht
      obtain ⟨J, -, rfl⟩ := ht
      exact zero_le_one
    · intro τ hτ
      simp only [List.mem_map] at hτ
      obtain ⟨J, hJ, rfl⟩ := hτ
      simpa using hs J hJ
    · intro τ hτ
      simp only [List.mem_map] at hτ
      obtain ⟨J, hJ, rfl⟩ := hτ
      have hJl := (mem_idx.1 hJ).length
      simp only
      rw [List.take_left' (by omega)]
      exact ht J hJ

/-! ### power -/

/-- lower end of `[u,v]^k` as computed -/
def powLo (k : ℤ) (u v : K) : K := min (min (u ^ k) (v ^ k)) (zeroedPow k u v)
/-- upper end of `[u,v]^k` as computed -/
def powHi (k : ℤ) (u v : K) : K := max (u ^ k) (v ^ k)

theorem pow_bounds {k : ℕ} (_hk : k ≠ 0) {u v x : K} (h1 : u ≤ x) (h2 : x ≤ v) :
    powLo k u v ≤ x ^ k ∧ x ^ k ≤ powHi k u v := by
  unfold powLo powHi zeroedPow
  simp only [zpow_natCast]
  rcases Nat.even_or_odd k with he | ho
  · constructor
    · by_cases hc : u < 0 ∧ v > 0
      · rw [if_pos hc]
        refine (min_le_right _ _).trans ?_
        simp only [sub_self, zero_mul]
        exact he.pow_nonneg x
      · refine (min_le_left _ _).trans ?_
        rw [not_and_or] at hc; push Not at hc
        rcases hc with hc | hc
        · exact (min_le_left _ _).trans (pow_le_pow_left₀ hc h1 k)
        · refine (min_le_right _ _).trans ?_
          rw [← he.neg_pow v, ← he.neg_pow x]
          exact pow_le_pow_left₀ (by linarith) (by linarith) k
    · rcases le_total 0 x with hx | hx
      · exact (pow_le_pow_left₀ hx h2 k).trans (le_max_right _ _)
      · refine le_trans ?_ (le_max_left _ _)
        rw [← he.neg_pow u, ← he.neg_pow x]
        exact pow_le_pow_left₀ (by linarith) (by linarith) k
  · have hm := ho.strictMono_pow (R := K)
    exact ⟨(min_le_left _ _).trans ((min_le_left _ _).trans (hm.monotone h1)),
      (hm.monotone h2).trans (le_max_right _ _)⟩

theorem powLo_attained {k : ℕ} (hk : k ≠ 0) {u v : K} (h : u ≤ v) :
    ∃ x, u ≤ x ∧ x ≤ v ∧ powLo k u v = x ^ k := by
  unfold powLo zeroedPow
  simp only [zpow_natCast]
  rcases min_choice (min (u ^ k) (v ^ k)) ((1 - if u < 0 ∧ v > 0 then 1 else 0) * u ^ k) with e | e
  · rw [e]
    rcases min_choice (u ^ k) (v ^ k) with e | e <;> rw [e]
    · exact ⟨u, le_rfl, h, rfl⟩
    · exact ⟨v, h, le_rfl, rfl⟩
  · rw [e]
    split_ifs with hc
    · exact ⟨0, hc.1.le, hc.2.le, by simp [hk]⟩
    · exact ⟨u, le_rfl, h, by simp⟩

theorem powHi_attained {k : ℕ} {u v : K} (h : u ≤ v) :
    ∃ x, u ≤ x ∧ x ≤ v ∧ powHi k u v = x ^ k := by
  unfold powHi
  simp only [zpow_natCast]
  rcases max_choice (u ^ k) (v ^ k) with e | e <;> rw [e]
  · exact ⟨u, le_rfl, h, rfl⟩
  · exact ⟨v, h, le_rfl, rfl⟩

/-- `power` with a natural exponent never raises on well-formed arguments. -/
theorem power_total {a : Coef K} (ha : a.WF) (k : ℕ) : ∃ r, power a (k : ℤ) = .ok r := by
  cases a with
  | arr a => exact ⟨_, rfl⟩
  | ivl a0 a1 =>
    have hs := WF_ivl.1 ha
    unfold power
    by_cases hk : k = 0
    · subst hk; exact ⟨.arr a0.onesLike, by simp⟩
    · have h1 : ¬ ((k : ℤ) < 0) := by omega
      have h2 : ¬ ((k : ℤ) = 0) := by omega
      simp only [h1, h2, if_false]
      rw [ND.map2_same _ hs]
      simp only [py_ok_bind, reduce, List.foldlM_cons, List.foldlM_nil]
      rw [ND.map2_same _ (by simpa using hs)]
      simp only [py_ok_bind]
      rw [ND.map2_same _ (by simp), ND.map2_same max (by simpa using hs)]
      exact ⟨_, rfl⟩

theorem power_ok {a r : Coef K} {k : ℕ} (ha : a.WF) (h : power a (k : ℤ) = .ok r) :
    r.WF ∧ r.shape = a.shape ∧ (a.isArr = true ∨ k = 0 → r.isArr = true) ∧
    (a.isArr = false → k ≠ 0 → r.isArr = false) ∧
    ∀ L, a.shape.length ≤ L.length →
      (a.isArr = true ∨ k = 0 → r.lo.bget L = a.lo.bget L ^ k ∧ r.hi.bget L = a.hi.bget L ^ k) ∧
      (a.isArr = false → k ≠ 0 → r.lo.bget L = powLo k (a.lo.bget L) (a.hi.bget L) ∧
        r.hi.bget L = powHi k (a.lo.bget L) (a.hi.bget L)) := by
  unfold power at h
  cases a with
  | arr a =>
    cases h
    exact ⟨trivial, rfl, fun _ => rfl, by simp [isArr], fun L hL => ⟨fun _ => by simp,
      by simp [isArr]⟩⟩
  | ivl a0 a1 =>
    have hs := WF_ivl.1 ha
    have h1 : ¬ ((k : ℤ) < 0) := by omega
    simp only [h1, if_false] at h
    by_cases hk : k = 0
    · subst hk
      simp at h; subst h
      exact ⟨trivial, rfl, fun _ => rfl, by simp, fun L hL => ⟨fun _ => by simp, by simp⟩⟩
    · have h2 : ¬ ((k : ℤ) = 0) := by omega
      simp only [h2, if_false, py_bind_ok, py_pure, reduce, List.foldlM_cons, List.foldlM_nil] at h
      obtain ⟨z, hz, m, ⟨m1, hm1, m2, hm, rfl⟩, M, hM, rfl⟩ := h
      have ez := bilinear_shape_wf (R := a0.shape) rfl hs.symm hz
      have e1 := bilinear_shape_wf (R := a0.shape) (by simp) (by simpa using hs.symm) hm1
      have e2 := bilinear_shape_wf e1.1 ez.1 hm
      have e3 := bilinear_shape_wf (R := a0.shape) (by simp) (by simpa using hs.symm) hM
      refine ⟨WF_ivl.2 (e2.1.trans e3.1.symm), e2.1, by simp [isArr, hk], fun _ _ => rfl,
        fun L hL => ⟨by simp [isArr, hk], fun _ _ => ?_⟩⟩
      simp only [lo_ivl, hi_ivl]
      rw [e2.2 L hL, e1.2 L hL, ez.2 L hL, e3.2 L hL]
      exact ⟨rfl, rfl⟩

theorem power_mem {a r : Coef K} {k : ℕ} (ha : a.WF) (h : power a (k : ℤ) = .ok r) {L : List ℕ}
    (hL : a.shape.length ≤ L.length) {x : K} (hx : a.Mem L x) : r.Mem L (x ^ k) := by
  have ok := (power_ok ha h).2.2.2.2 L hL
  unfold Mem
  by_cases h1 : a.isArr = true
  · have := ok.1 (Or.inl h1)
    cases a with
    | ivl => simp [isArr] at h1
    | arr a =>
      rw [mem_arr] at hx
      rw [this.1, this.2, hx]; exact ⟨le_rfl, le_rfl⟩
  · by_cases h2 : k = 0
    · have := ok.1 (Or.inr h2)
      rw [this.1, this.2, h2]; simp
    · have := ok.2 (by simpa using h1) h2
      rw [this.1, this.2]
      exact pow_bounds h2 hx.1 hx.2

end IA
end AB
