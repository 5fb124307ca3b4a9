import Verif.Proofs.EncArith
import Mathlib.Tactic.FieldSimp
import Mathlib.Tactic.Ring
import Mathlib.Tactic.Linarith

set_option linter.unusedSectionVars false

/-! The converse of `eval_mem`: at a point, every value between the endpoints of the evaluated
enclosure comes from a choice of coefficients, when the coefficients are ordered. -/

namespace AB
variable {K : Type}

open IA (repS repS_succ repS_succ' repS_zero repS_length repS_add repS_one)

section
variable [Field K] [LinearOrder K] [IsStrictOrderedRing K]

theorem tensordot_attain {a r : Coef K} {y : ND K} (ha : a.WF)
    (h : IA.tensordot a (.arr y) y.ndim = .ok r) {L : List ℕ} (hL : a.ndim - y.ndim ≤ L.length)
    (hord : ∀ J ∈ idx y.shape, a.lo.bget (L ++ J) ≤ a.hi.bget (L ++ J)) :
    (∃ s : List ℕ → K, (∀ J ∈ idx y.shape, a.Mem (L ++ J) (s J)) ∧
      r.lo.bget L = ((idx y.shape).map fun J => s J * y.bget J).sum) ∧
    (∃ s : List ℕ → K, (∀ J ∈ idx y.shape, a.Mem (L ++ J) (s J)) ∧
      r.hi.bget L = ((idx y.shape).map fun J => s J * y.bget J).sum) := by
  obtain ⟨-, t2, -, t4, t5, -, -⟩ := IA.tensordot_mem ha (Coef.WF_arr _) h
  have htake : (Coef.arr y).shape.take y.ndim = y.shape := by simp [ND.ndim]
  have hdrop : (Coef.arr y).shape.drop y.ndim = [] := by simp [ND.ndim]
  have hsh : ∀ (x y' s : ND K), x.shape = a.shape → y'.shape = (Coef.arr y).shape →
      (fun x y' => ND.tensordot x y' y.ndim) x y' = .ok s →
      s.shape = a.shape.take (a.ndim - y.ndim) := by
    intro x y' s hx hy hs
    have := (ND.tensordot_ok hs).2.2.2.1
    rw [hx, hy, hdrop, List.append_nil,
      show x.ndim = a.ndim by unfold ND.ndim Coef.ndim; rw [hx]] at this
    exact this
  have hval : ∀ (x y' s : ND K), x.shape = a.shape → y'.shape = (Coef.arr y).shape →
      ND.tensordot x y' y.ndim = .ok s →
      s.bget L = ((idx y.shape).map fun J => x.bget (L ++ J) * y'.bget J).sum := by
    intro x y' s hx hy hs
    have := (ND.tensordot_ok hs).2.2.2.2 L [] (by unfold ND.ndim; rw [hx]; exact hL)
      (by unfold ND.ndim; rw [hy]; simp)
    rw [hy, htake] at this
    simpa using this
  have hlen : (a.shape.take (a.ndim - y.ndim)).length ≤ L.length := by
    simp only [List.length_take]; omega
  by_cases hn : y.ndim = 0
  · have hy0 : y.shape = [] := List.length_eq_zero_iff.1 hn
    have h' : IA.arbitraryBilinear a (.arr y) (fun x y' => ND.tensordot x y' y.ndim) true = .ok r := by
      simpa [IA.tensordot, hn] using h
    obtain ⟨-, -, -, ok⟩ := IA.bilinearTrue_ok ha (Coef.WF_arr _) hsh h'
    have := ok L L [] hlen (by
      intro x y' s hx hy hs
      have := hval x y' s hx hy hs
      simpa [hy0, idx] using this)
    simp only [hy0, idx, List.map_cons, List.map_nil, List.sum_cons, List.sum_nil, add_zero,
      List.mem_singleton, forall_eq, List.append_nil] at hord ⊢
    have mem : ∀ b ∈ [a.lo.bget L, a.hi.bget L], a.Mem L b := by
      intro b hb
      rcases List.mem_pair.1 hb with rfl | rfl
      · exact ⟨le_rfl, hord⟩
      · exact ⟨hord, le_rfl⟩
    constructor
    · obtain ⟨b, hb, c, hc, e⟩ := plo_mem (a.lo.bget L) (a.hi.bget L) (y.bget []) (y.bget [])
      have hc' : c = y.bget [] := by simpa using hc
      exact ⟨fun _ => b, mem b hb, by rw [this.1]; show plo _ _ (y.bget []) (y.bget []) = b * y.bget []; rw [e, hc']⟩
    · obtain ⟨b, hb, c, hc, e⟩ := phi_mem (a.lo.bget L) (a.hi.bget L) (y.bget []) (y.bget [])
      have hc' : c = y.bget [] := by simpa using hc
      exact ⟨fun _ => b, mem b hb, by rw [this.2]; show phi _ _ (y.bget []) (y.bget []) = b * y.bget []; rw [e, hc']⟩
  · have h' : IA.arbitraryBilinear a (.arr y) (fun x y' => ND.tensordot x y' y.ndim) false = .ok r := by
      have : (y.ndim == 0) = false := by simpa using hn
      unfold IA.tensordot at h; rwa [this] at h
    obtain ⟨-, -, -, ok⟩ := IA.bilinearFalse_ok ha (Coef.WF_arr _) hsh h'
    obtain ⟨-, e1, e2⟩ := ok L ((idx y.shape).map fun J => ((1 : K), L ++ J, J)) hlen (by
      intro x y' s hx hy hs
      rw [hval x y' s hx hy hs, List.map_map]
      congr 1
      apply List.map_congr_left
      intro J _; simp)
    rw [List.map_map] at e1 e2
    constructor
    · refine ⟨fun J => if 0 ≤ y.bget J then a.lo.bget (L ++ J) else a.hi.bget (L ++ J), ?_, ?_⟩
      · intro J hJ
        have := hord J hJ
        simp only
        split_ifs
        · exact ⟨le_rfl, this⟩
        · exact ⟨this, le_rfl⟩
      · rw [e1]
        congr 1
        apply List.map_congr_left
        intro J _
        simp only [Function.comp, Coef.lo, Coef.hi, one_mul, glo_self']
        split_ifs with h0
        · rw [max_eq_right h0, min_eq_left h0]; ring
        · rw [max_eq_left (le_of_lt (not_le.1 h0)), min_eq_right (le_of_lt (not_le.1 h0))]; ring
    · refine ⟨fun J => if 0 ≤ y.bget J then a.hi.bget (L ++ J) else a.lo.bget (L ++ J), ?_, ?_⟩
      · intro J hJ
        have := hord J hJ
        simp only
        split_ifs
        · exact ⟨this, le_rfl⟩
        · exact ⟨le_rfl, this⟩
      · rw [e2]
        congr 1
        apply List.map_congr_left
        intro J _
        simp only [Function.comp, Coef.lo, Coef.hi, one_mul, ghi_self']
        split_ifs with h0
        · rw [max_eq_right h0, min_eq_left h0]; ring
        · rw [max_eq_left (le_of_lt (not_le.1 h0)), min_eq_right (le_of_lt (not_le.1 h0))]; ring

theorem valFrom_congr {xs : List ℕ} {z : List ℕ → K} {w w' : ℕ → List ℕ → K} {i0 n : ℕ}
    (h : ∀ i, i0 ≤ i → w i = w' i) : valFrom xs z w i0 n = valFrom xs z w' i0 n := by
  induction n generalizing i0 with
  | zero => rfl
  | succ n ih => rw [valFrom, valFrom, h i0 le_rfl, ih fun i hi => h i (by omega)]

theorem eval_fold_attain {x : ND K} {E : Encl K} (hE : WFE E) {i0 : ℕ} {s0 : Coef K}
    (hs0 : s0.WF) {n : ℕ} {r : Coef K}
    (h : E.foldlM (Poly.evalStep (.arr x) (fun a b => IA.tensordot a b b.ndim)
      (fun a k => IA.outerPower a k) IA.add (.arr (ND.scalar 1))) (i0, s0) = .ok (n, r))
    {L : List ℕ} (hL : r.shape.length ≤ L.length)
    (hord : ∀ j c, E[j]? = some c → ∀ J, ValidIdx (repS (i0 + j) x.shape) J →
      c.lo.bget (L ++ J) ≤ c.hi.bget (L ++ J)) :
    (∃ w : ℕ → List ℕ → K, (∀ j c, E[j]? = some c → ∀ J, ValidIdx (repS (i0 + j) x.shape) J →
        c.Mem (L ++ J) (w (i0 + j) J)) ∧
      r.lo.bget L = s0.lo.bget L + valFrom x.shape x.get w i0 E.length) ∧
    (∃ w : ℕ → List ℕ → K, (∀ j c, E[j]? = some c → ∀ J, ValidIdx (repS (i0 + j) x.shape) J →
        c.Mem (L ++ J) (w (i0 + j) J)) ∧
      r.hi.bget L = s0.hi.bget L + valFrom x.shape x.get w i0 E.length) := by
  have hz : ZMem (.arr x) x.get := by
    intro J hJ; rw [Coef.mem_arr]; exact (ND.bget_valid _ hJ).symm
  induction E generalizing i0 s0 with
  | nil =>
    simp only [List.foldlM_nil, py_pure, Prod.mk.injEq] at h
    obtain ⟨-, rfl⟩ := h
    exact ⟨⟨fun _ _ => 0, by simp, by simp [valFrom]⟩, ⟨fun _ _ => 0, by simp, by simp [valFrom]⟩⟩
  | cons c E ih =>
    have hfull := eval_fold (Coef.WF_arr _) hz hE hs0 h
    rw [List.foldlM_cons, evalStep_eq] at h
    simp only [py_bind_ok, py_pure] at h
    obtain ⟨-, ⟨zi, hzi, term, hterm, s1, hs1, rfl⟩, h⟩ := h
    have hc : c.WF := hE c (by simp)
    obtain ⟨zw, zs, za, zm⟩ := outerPower_point (Coef.WF_arr _) hzi hz
    have hzarr := za (Or.inl rfl)
    cases zi with
    | ivl _ _ => cases hzarr
    | arr y =>
    simp only [Coef.shape_arr] at zs zm hterm
    have hzv : ∀ J, ValidIdx (repS i0 x.shape) J → y.bget J = zp x.shape.length x.get i0 J := by
      intro J hJ
      have := zm J hJ
      rw [Coef.mem_arr] at this
      exact this.symm
    have hterm' : IA.tensordot c (.arr y) y.ndim = .ok term := hterm
    obtain ⟨t1, t2, -, -, t5, -, -⟩ := IA.tensordot_mem hc (Coef.WF_arr _) hterm'
    obtain ⟨a1, a2, a3, a4⟩ := IA.add_ok hs0 t1 hs1
    have hle := bshape_le a2
    have hs1r := (eval_fold (Coef.WF_arr _) hz (fun c hc => hE c (by simp [hc])) a1 h).2.1
    have hs1L : s1.shape.length ≤ L.length := (ble_length hs1r).trans hL
    have htL : term.shape.length ≤ L.length := (ble_length hle.2).trans hs1L
    have hts : term.shape = c.shape.take (c.ndim - y.ndim) := by
      rw [t5]; simp [ND.ndim]
    have hidx : ∀ J, J ∈ idx y.shape ↔ ValidIdx (repS i0 x.shape) J := by
      intro J; rw [mem_idx, zs]
    obtain ⟨at1, at2⟩ := tensordot_attain hc hterm' (L := L)
      (by rw [hts, List.length_take] at htL; unfold Coef.ndim at *; omega)
      (fun J hJ => by
        have := hord 0 c (by simp) J (by simpa using (hidx J).1 hJ)
        exact this)
    obtain ⟨ih1, ih2⟩ := ih (fun c hc => hE c (by simp [hc])) a1 h (by
      intro j c' hj J hJ
      rw [show i0 + 1 + j = i0 + (j + 1) by ring] at hJ
      exact hord (j + 1) c' (by simpa using hj) J hJ)
    have fin : ∀ (s : List ℕ → K) (w : ℕ → List ℕ → K),
        (∀ J ∈ idx y.shape, c.Mem (L ++ J) (s J)) →
        (∀ j c, E[j]? = some c → ∀ J, ValidIdx (repS (i0 + 1 + j) x.shape) J →
          c.Mem (L ++ J) (w (i0 + 1 + j) J)) →
        ∃ w' : ℕ → List ℕ → K, (∀ j c', (c :: E)[j]? = some c' → ∀ J,
          ValidIdx (repS (i0 + j) x.shape) J → c'.Mem (L ++ J) (w' (i0 + j) J)) ∧
          valFrom x.shape x.get w' i0 (c :: E).length =
            ((idx y.shape).map fun J => s J * y.bget J).sum +
              valFrom x.shape x.get w (i0 + 1) E.length := by
      intro s w hs hw
      refine ⟨fun i => if i = i0 then s else w i, ?_, ?_⟩
      · intro j c' hj J hJ
        cases j with
        | zero =>
          simp at hj; subst hj
          simp only [add_zero, if_true] at hJ ⊢
          exact hs J ((hidx J).2 hJ)
        | succ j =>
          show c'.Mem (L ++ J) ((if i0 + (j + 1) = i0 then s else w (i0 + (j + 1))) J)
          rw [if_neg (by omega)]
          have := hw j c' (by simpa using hj)
          rw [show i0 + 1 + j = i0 + (j + 1) by ring] at this
          exact this J hJ
      · rw [List.length_cons, valFrom]
        congr 1
        · simp only [if_true]
          unfold pair
          rw [zs]
          congr 1
          apply List.map_congr_left
          intro J hJ
          rw [hzv J (mem_idx.1 hJ)]
        · apply valFrom_congr
          intro i hi
          show (if i = i0 then s else w i) = w i
          rw [if_neg (by omega)]
    have ha := a4 L hs1L
    constructor
    · obtain ⟨s, hs, es⟩ := at1
      obtain ⟨w, hw, ew⟩ := ih1
      obtain ⟨w', hw', e'⟩ := fin s w hs hw
      exact ⟨w', hw', by rw [ew, ha.1, es, e']; ring⟩
    · obtain ⟨s, hs, es⟩ := at2
      obtain ⟨w, hw, ew⟩ := ih2
      obtain ⟨w', hw', e'⟩ := fin s w hs hw
      exact ⟨w', hw', by rw [ew, ha.2, es, e']; ring⟩

theorem Coef.Mem.convex {c : Coef K} {L : List ℕ} {u v θ : K} (hu : c.Mem L u) (hv : c.Mem L v)
    (h0 : 0 ≤ θ) (h1 : θ ≤ 1) : c.Mem L ((1 - θ) * u + θ * v) := by
  have h1' : 0 ≤ 1 - θ := by linarith
  refine ⟨?_, ?_⟩
  · have := mul_le_mul_of_nonneg_left hu.1 h1'
    have := mul_le_mul_of_nonneg_left hv.1 h0
    nlinarith
  · have := mul_le_mul_of_nonneg_left hu.2 h1'
    have := mul_le_mul_of_nonneg_left hv.2 h0
    nlinarith

theorem exists_convex {a b v : K} (h1 : a ≤ v) (h2 : v ≤ b) :
    ∃ θ, 0 ≤ θ ∧ θ ≤ 1 ∧ v = (1 - θ) * a + θ * b := by
  by_cases h : a = b
  · subst h; exact ⟨0, le_rfl, zero_le_one, by have := le_antisymm h1 h2; rw [← this]; ring⟩
  · have hab : a < b := lt_of_le_of_ne (h1.trans h2) h
    have hne : b - a ≠ 0 := sub_ne_zero.2 (Ne.symm h)
    refine ⟨(v - a) / (b - a), div_nonneg (by linarith) (by linarith),
      (div_le_one (by linarith)).2 (by linarith), ?_⟩
    field_simp
    ring

/-- converse of `eval_mem` at a point -/
theorem eval_conv {x : ND K} {E : Encl K} (hE : WFE E) {r : Coef K}
    (h : Poly.evalTaylorEnclosure E (.arr x) = .ok r) {L : List ℕ}
    (hL : r.shape.length ≤ L.length)
    (hord : ∀ j c, E[j]? = some c → ∀ J, ValidIdx (repS j x.shape) J →
      c.lo.bget (L ++ J) ≤ c.hi.bget (L ++ J)) {v : K} (hv : r.Mem L v) :
    InEnc x.shape E x.get L v := by
  unfold Poly.evalTaylorEnclosure Poly.evalPolynomial at h
  simp only [py_bind_ok, py_pure] at h
  obtain ⟨⟨n, r'⟩, h, rfl⟩ := h
  obtain ⟨⟨w1, m1, e1⟩, ⟨w2, m2, e2⟩⟩ := eval_fold_attain hE (Coef.WF_arr _) h hL
    (by simpa using hord)
  simp only [zero_add] at m1 m2
  have z0 : (Coef.arr (ND.scalar (0 : K))).lo.bget L = 0 := rfl
  have z1 : (Coef.arr (ND.scalar (0 : K))).hi.bget L = 0 := rfl
  rw [z0, zero_add, valFrom_eq] at e1
  rw [z1, zero_add, valFrom_eq] at e2
  simp only [zero_add] at e1 e2
  obtain ⟨θ, t0, t1, e⟩ := exists_convex hv.1 hv.2
  refine ⟨fun i J => if i < E.length then (1 - θ) * w1 i J + θ * w2 i J else 0, ?_, ?_⟩
  · intro i
    constructor
    · intro c hc J hJ
      have := (List.getElem?_eq_some_iff.1 hc).1
      simp only [if_pos this]
      exact Coef.Mem.convex (m1 i c hc J hJ) (m2 i c hc J hJ) t0 t1
    · intro hn J
      have := List.getElem?_eq_none_iff.1 hn
      show (if i < E.length then _ else _) = (0 : K)
      rw [if_neg (by omega)]
  · rw [e, e1, e2]
    unfold selVal
    rw [Finset.mul_sum, Finset.mul_sum, ← Finset.sum_add_distrib]
    apply Finset.sum_congr rfl
    intro i hi
    simp only [if_pos (Finset.mem_range.1 hi)]
    rw [pair_add, pair_smul, pair_smul]

end
end AB
