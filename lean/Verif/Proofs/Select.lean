import Verif.Model.Enclosure
import Verif.Proofs.Interval3
import Mathlib.Algebra.BigOperators.Ring.Finset

set_option linter.unusedSectionVars false

namespace AB
variable {K : Type}

open IA (repS repS_succ repS_succ' repS_zero repS_length repS_add repS_one)

/-! ### chunks of a flattened multi-index -/

/-- cut `J` into `i` chunks of length `k` -/
def chunks (k : ℕ) : ℕ → List ℕ → List (List ℕ)
  | 0, _ => []
  | i + 1, J => J.take k :: chunks k i (J.drop k)

@[simp] theorem chunks_length (k i : ℕ) (J : List ℕ) : (chunks k i J).length = i := by
  induction i generalizing J with
  | zero => rfl
  | succ i ih => simp [chunks, ih]

theorem chunks_flatten {k i : ℕ} {J : List ℕ} (h : J.length = i * k) :
    (chunks k i J).flatten = J := by
  induction i generalizing J with
  | zero => simp at h; subst h; rfl
  | succ i ih =>
    simp only [chunks, List.flatten_cons]
    rw [ih (by rw [List.length_drop, h]; rw [Nat.succ_mul]; omega)]
    exact List.take_append_drop _ _

theorem chunks_append {k i j : ℕ} {A B : List ℕ} (h : A.length = i * k) :
    chunks k (i + j) (A ++ B) = chunks k i A ++ chunks k j B := by
  induction i generalizing A with
  | zero => simp at h; subst h; simp [chunks]
  | succ i ih =>
    rw [Nat.succ_mul] at h
    rw [show i + 1 + j = (i + j) + 1 by ring]
    simp only [chunks, List.cons_append]
    rw [List.take_append_of_le_length (by omega), List.drop_append_of_le_length (by omega),
      ih (by rw [List.length_drop]; omega)]

theorem chunks_valid {C : List ℕ} {i : ℕ} {J : List ℕ} (h : ValidIdx (repS i C) J) :
    ∀ c ∈ chunks C.length i J, ValidIdx C c := by
  induction i generalizing J with
  | zero => simp [chunks]
  | succ i ih =>
    rw [repS_succ] at h
    obtain ⟨A, B, rfl, hA, hB⟩ := validIdx_split h
    intro c hc
    have hl := hA.length
    simp only [chunks, List.mem_cons] at hc
    rw [List.take_left' hl.symm, List.drop_left' hl.symm] at hc
    rcases hc with rfl | hc
    · exact hA
    · exact ih hB c hc

section
variable [Field K]

/-- the monomial `z^i` at flattened index `J` -/
def zp (k : ℕ) (z : List ℕ → K) (i : ℕ) (J : List ℕ) : K := ((chunks k i J).map z).prod

@[simp] theorem zp_zero (k : ℕ) (z : List ℕ → K) (J : List ℕ) : zp k z 0 J = 1 := rfl

theorem zp_append {k i j : ℕ} {z : List ℕ → K} {A B : List ℕ} (h : A.length = i * k) :
    zp k z (i + j) (A ++ B) = zp k z i A * zp k z j B := by
  simp [zp, chunks_append h]

/-- inner product of a coefficient selection with `z^i` -/
def pair (xs : List ℕ) (z : List ℕ → K) (i : ℕ) (w : List ℕ → K) : K :=
  ((idx (repS i xs)).map fun J => w J * zp xs.length z i J).sum

theorem pair_congr {xs : List ℕ} {z : List ℕ → K} {i : ℕ} {w w' : List ℕ → K}
    (h : ∀ J, ValidIdx (repS i xs) J → w J = w' J) : pair xs z i w = pair xs z i w' := by
  unfold pair
  congr 1
  apply List.map_congr_left
  intro J hJ
  rw [h J (mem_idx.1 hJ)]

theorem pair_zero_deg (xs : List ℕ) (z : List ℕ → K) (w : List ℕ → K) : pair xs z 0 w = w [] := by
  simp [pair, idx]

theorem pair_add (xs : List ℕ) (z : List ℕ → K) (i : ℕ) (w w' : List ℕ → K) :
    pair xs z i (fun J => w J + w' J) = pair xs z i w + pair xs z i w' := by
  unfold pair
  rw [← List.sum_map_add]
  simp only [add_mul]

theorem pair_smul (xs : List ℕ) (z : List ℕ → K) (i : ℕ) (c : K) (w : List ℕ → K) :
    pair xs z i (fun J => c * w J) = c * pair xs z i w := by
  unfold pair
  rw [← List.sum_map_mul_left]
  simp only [mul_assoc]

theorem pair_neg (xs : List ℕ) (z : List ℕ → K) (i : ℕ) (w : List ℕ → K) :
    pair xs z i (fun J => - w J) = - pair xs z i w := by
  have := pair_smul xs z i (-1) w
  simpa using this

@[simp] theorem pair_zero (xs : List ℕ) (z : List ℕ → K) (i : ℕ) :
    pair xs z i (fun _ => (0 : K)) = 0 := by
  unfold pair; simp

/-- product of selections -/
def selMul (n : ℕ) (w w' : List ℕ → K) : List ℕ → K := fun J => w (J.take n) * w' (J.drop n)

theorem pair_mul (xs : List ℕ) (z : List ℕ → K) (i j : ℕ) (w w' : List ℕ → K) :
    pair xs z i w * pair xs z j w' = pair xs z (i + j) (selMul (i * xs.length) w w') := by
  unfold pair
  rw [repS_add, idx_sum_append, ← List.sum_map_mul_right]
  congr 1
  apply List.map_congr_left
  intro A hA
  have hl : A.length = i * xs.length := by
    have := (mem_idx.1 hA).length; simpa using this.symm
  rw [← List.sum_map_mul_left]
  congr 1
  apply List.map_congr_left
  intro B _
  rw [zp_append hl]
  unfold selMul
  rw [List.take_left' hl, List.drop_left' hl]
  ring

/-- power of a selection -/
def selPow (n : ℕ) (p : ℕ) (w : List ℕ → K) : List ℕ → K := fun J => ((chunks n p J).map w).prod

theorem selPow_succ (n p : ℕ) (w : List ℕ → K) :
    selPow n (p + 1) w = selMul n w (selPow n p w) := by
  funext J; simp [selPow, selMul, chunks]

theorem pair_pow (xs : List ℕ) (z : List ℕ → K) (i p : ℕ) (w : List ℕ → K) :
    pair xs z i w ^ p = pair xs z (i * p) (selPow (i * xs.length) p w) := by
  induction p with
  | zero => simp [pair_zero_deg, selPow, chunks]
  | succ p ih =>
    rw [pow_succ', ih, pair_mul, selPow_succ, Nat.mul_succ, add_comm]

/-- splitting the contraction: degree `d+t` is degree `d` with coefficients contracted over the
last `t` -/
theorem pair_split (xs : List ℕ) (z : List ℕ → K) (d t : ℕ) (w : List ℕ → K) :
    pair xs z (d + t) w = pair xs z d (fun A => pair xs z t (fun B => w (A ++ B))) := by
  unfold pair
  rw [repS_add, idx_sum_append]
  congr 1
  apply List.map_congr_left
  intro A hA
  have hl : A.length = d * xs.length := by
    have := (mem_idx.1 hA).length; simpa using this.symm
  rw [← List.sum_map_mul_right]
  congr 1
  apply List.map_congr_left
  intro B _
  rw [zp_append hl]
  ring
end

section
variable [Field K] [LinearOrder K] [IsStrictOrderedRing K]

/-- `w` is an admissible choice of coefficient arrays for the enclosure at batch index `I`
(and 0 beyond its degree) -/
def Sel (xs : List ℕ) (E : Encl K) (I : List ℕ) (w : ℕ → List ℕ → K) : Prop :=
  ∀ i, (∀ c, E[i]? = some c → ∀ J, ValidIdx (repS i xs) J → c.Mem (I ++ J) (w i J)) ∧
    (E[i]? = none → ∀ J, w i J = 0)

/-- value of a selection up to degree `< n` -/
def selVal (xs : List ℕ) (z : List ℕ → K) (n : ℕ) (w : ℕ → List ℕ → K) : K :=
  ∑ i ∈ Finset.range n, pair xs z i (w i)

/-- `v` is a value of the enclosure at `z` and batch index `I` -/
def InEnc (xs : List ℕ) (E : Encl K) (z : List ℕ → K) (I : List ℕ) (v : K) : Prop :=
  ∃ w, Sel xs E I w ∧ v = selVal xs z E.length w

theorem selVal_extend {xs : List ℕ} {E : Encl K} {I : List ℕ} {w : ℕ → List ℕ → K}
    (h : Sel xs E I w) (z : List ℕ → K) {n : ℕ} (hn : E.length ≤ n) :
    selVal xs z n w = selVal xs z E.length w := by
  unfold selVal
  symm
  apply Finset.sum_subset
  · intro i; simp; omega
  · intro i _ hi
    have : E[i]? = none := by
      rw [List.getElem?_eq_none_iff]; simpa using hi
    rw [pair_congr (w' := fun _ => 0) fun J _ => (h i).2 this J, pair_zero]

/-- `c` is a legal degree-`d` coefficient whose batch shape broadcasts to `R` -/
def VC (xs R : List ℕ) (d : ℕ) (c : Coef K) : Prop :=
  c.WF ∧ ∃ B, c.shape = B ++ repS d xs ∧ ble B R

/-- every coefficient is legal and its batch shape broadcasts to `R` -/
def VE (xs R : List ℕ) (E : Encl K) : Prop := ∀ i c, E[i]? = some c → VC xs R i c

/-- all coefficients have endpoints of equal shapes -/
def WFE (E : Encl K) : Prop := ∀ c ∈ E, c.WF

theorem VE.wfe {xs R : List ℕ} {E : Encl K} (h : VE xs R E) : WFE E := by
  intro c hc
  obtain ⟨i, hi⟩ := List.mem_iff_getElem?.1 hc
  exact (h i c hi).1

/-- `Z` (an array or interval of shape `xs`) contains the point `z` -/
def ZMem (Z : Coef K) (z : List ℕ → K) : Prop := ∀ J, ValidIdx Z.shape J → Z.Mem J (z J)

/-! ### evaluation -/

theorem outerPower_zero (Z : Coef K) : IA.outerPower Z 0 0 = .ok (.arr (ND.scalar 1)) := by
  simp [IA.outerPower]

/-- the loop body of `eval_taylor_enclosure` with the redundant special case removed -/
theorem evalStep_eq (Z c s : Coef K) (i : ℕ) :
    Poly.evalStep Z (fun a b => IA.tensordot a b b.ndim) (fun a k => IA.outerPower a k) IA.add
      (.arr (ND.scalar 1)) (i, s) c = (do
        let zi ← IA.outerPower Z i
        let term ← IA.tensordot c zi zi.ndim
        return (i + 1, ← IA.add s term)) := by
  unfold Poly.evalStep
  by_cases h : i = 0
  · subst h; simp [outerPower_zero]
  · simp [Nat.pos_of_ne_zero h]

theorem outerPower_point {Z : Coef K} (hZ : Z.WF) {i : ℕ} {r : Coef K}
    (h : IA.outerPower Z i = .ok r) {z : List ℕ → K} (hz : ZMem Z z) :
    r.WF ∧ r.shape = repS i Z.shape ∧ (Z.isArr = true ∨ i = 0 → r.isArr = true) ∧
      ∀ J, ValidIdx (repS i Z.shape) J → r.Mem J (zp Z.shape.length z i J) := by
  have := IA.outerPower_mem (B := []) (C := Z.shape) hZ rfl h
  obtain ⟨h1, h2, h3, h4, h5⟩ := this
  refine ⟨h1, ?_, h4, ?_⟩
  · by_cases hi : i = 0
    · subst hi; rw [h3 rfl]; rfl
    · simpa using h2 hi
  · intro J hJ
    have hc := chunks_valid hJ
    have := h5 [] (by simp) z (chunks Z.shape.length i J) (by simp) fun c hc' =>
      ⟨hc c hc', by simpa using hz c (hc c hc')⟩
    rw [chunks_flatten (by have := hJ.length; simpa using this.symm)] at this
    simpa [zp] using this

/-- partial sums of degrees `i0, ..., i0+n-1` -/
def valFrom (xs : List ℕ) (z : List ℕ → K) (w : ℕ → List ℕ → K) : ℕ → ℕ → K
  | _, 0 => 0
  | i0, n + 1 => pair xs z i0 (w i0) + valFrom xs z w (i0 + 1) n

theorem valFrom_eq (xs : List ℕ) (z : List ℕ → K) (w : ℕ → List ℕ → K) (i0 n : ℕ) :
    valFrom xs z w i0 n = ∑ j ∈ Finset.range n, pair xs z (i0 + j) (w (i0 + j)) := by
  induction n generalizing i0 with
  | zero => rfl
  | succ n ih =>
    rw [valFrom, ih, Finset.sum_range_succ' _ n]
    simp only [add_zero]
    rw [add_comm]
    congr 1
    apply Finset.sum_congr rfl
    intro j _
    rw [show i0 + 1 + j = i0 + (j + 1) by ring]

theorem eval_fold {Z : Coef K} (hZ : Z.WF) {z₀ : List ℕ → K} (hz₀ : ZMem Z z₀) {E : Encl K}
    (hE : WFE E) {i0 : ℕ} {s0 : Coef K} (hs0 : s0.WF) {n : ℕ} {r : Coef K}
    (h : E.foldlM (Poly.evalStep Z (fun a b => IA.tensordot a b b.ndim)
      (fun a k => IA.outerPower a k) IA.add (.arr (ND.scalar 1))) (i0, s0) = .ok (n, r)) :
    r.WF ∧ ble s0.shape r.shape ∧
    (∀ j c, E[j]? = some c → ∃ B, c.shape = B ++ repS (i0 + j) Z.shape ∧ ble B r.shape) ∧
    (∀ R, ble s0.shape R → (∀ j c, E[j]? = some c → ∀ B, c.shape = B ++ repS (i0 + j) Z.shape →
      ble B R) → ble r.shape R) ∧
    ((s0.isArr = true ∧ Z.isArr = true ∧ ∀ c ∈ E, c.isArr = true) → r.isArr = true) ∧
    ∀ L, r.shape.length ≤ L.length → ∀ z, ZMem Z z → ∀ v0, s0.Mem L v0 →
      ∀ w : ℕ → List ℕ → K,
      (∀ j c, E[j]? = some c → ∀ J, ValidIdx (repS (i0 + j) Z.shape) J →
        c.Mem (L ++ J) (w (i0 + j) J)) →
      r.Mem L (v0 + valFrom Z.shape z w i0 E.length) := by
  induction E generalizing i0 s0 with
  | nil =>
    simp only [List.foldlM_nil, py_pure, Prod.mk.injEq] at h
    obtain ⟨-, rfl⟩ := h
    exact ⟨hs0, ble_refl _, by simp, fun R h _ => h, fun h => h.1, fun L _ z _ v0 hv0 w _ => by
      simpa [valFrom] using hv0⟩
  | cons c E ih =>
    rw [List.foldlM_cons, evalStep_eq] at h
    simp only [py_bind_ok, py_pure] at h
    obtain ⟨-, ⟨zi, hzi, term, hterm, s1, hs1, rfl⟩, h⟩ := h
    have hc : c.WF := hE c (by simp)
    obtain ⟨zw, zs, -, -⟩ := outerPower_point hZ hzi hz₀
    have zarr := (IA.outerPower_mem (B := []) (C := Z.shape) hZ rfl hzi).2.2.2.1
    obtain ⟨t1, t2, t3, t4, t5, t6, t7⟩ := IA.tensordot_mem hc zw hterm
    have hzn : zi.ndim = i0 * Z.shape.length := by rw [Coef.ndim_def, zs]; simp
    have hts : term.shape = c.shape.take (c.ndim - zi.ndim) := by
      rw [t5]; simp [Coef.ndim]
    have hcs : c.shape = term.shape ++ repS i0 Z.shape := by
      rw [hts]
      conv_lhs => rw [← List.take_append_drop (c.ndim - zi.ndim) c.shape]
      rw [t4, zs]
      congr 1
      rw [hzn]; simp
    obtain ⟨a1, a2, a3, a4⟩ := IA.add_ok hs0 t1 hs1
    have hle := bshape_le a2
    obtain ⟨i1, i2, i3, i4, i5, i6⟩ := ih (fun c hc => hE c (by simp [hc])) a1 h
    refine ⟨i1, ble_trans hle.1 i2, ?_, ?_, ?_, ?_⟩
    · intro j c' hj
      cases j with
      | zero =>
        simp at hj; subst hj
        exact ⟨term.shape, hcs, ble_trans hle.2 i2⟩
      | succ j =>
        have := i3 j c' (by simpa using hj)
        rwa [show i0 + 1 + j = i0 + (j + 1) by ring] at this
    · intro R hR hall
      apply i4 R
      · have hb := hall 0 c (by simp) term.shape (by simpa using hcs)
        obtain ⟨R', h1, h2⟩ := bshape_lub hR hb
        rw [a2] at h1; cases h1; exact h2
      · intro j c' hj B hB
        exact hall (j + 1) c' (by simpa using hj) B (by rw [hB]; congr 2; ring)
    · rintro ⟨h1, h2, h3⟩
      refine i5 ⟨?_, h2, fun c hc => h3 c (by simp [hc])⟩
      rw [a3, h1, t6, h3 c (by simp), zarr (Or.inl h2)]; rfl
    · intro L hL z hz v0 hv0 w hw
      have hs1L : s1.shape.length ≤ L.length := (ble_length i2).trans hL
      have htL : term.shape.length ≤ L.length := (ble_length hle.2).trans hs1L
      obtain ⟨-, -, -, zm⟩ := outerPower_point hZ hzi hz
      have hmt : term.Mem L (pair Z.shape z i0 (w i0)) := by
        have htake : zi.shape.take zi.ndim = repS i0 Z.shape := by
          rw [zs, hzn]; apply List.take_of_length_le; simp
        have := t7 L [] (by rw [hts, List.length_take] at htL; unfold Coef.ndim at *; omega)
          (by simp) (fun J => w i0 J) (fun J => zp Z.shape.length z i0 J)
          (fun J hJ => by
            rw [htake] at hJ
            have := hw 0 c (by simp) J (by simpa using mem_idx.1 hJ)
            simpa using this)
          (fun J hJ => by
            rw [htake] at hJ
            simpa using zm J (mem_idx.1 hJ))
        rw [htake] at this
        simpa [pair] using this
      have hms : s1.Mem L (v0 + pair Z.shape z i0 (w i0)) := by
        have := a4 L hs1L
        unfold Coef.Mem at hv0 hmt ⊢
        rw [this.1, this.2]
        exact ⟨add_le_add hv0.1 hmt.1, add_le_add hv0.2 hmt.2⟩
      have := i6 L hL z hz _ hms w (by
        intro j c' hj J hJ
        rw [show i0 + 1 + j = i0 + (j + 1) by ring] at hJ ⊢
        exact hw (j + 1) c' (by simpa using hj) J hJ)
      rw [List.length_cons, valFrom, ← add_assoc]
      exact this

theorem zmem_exists {Z : Coef K} {z : List ℕ → K} (h : ZMem Z z) : ∃ z, ZMem Z z := ⟨z, h⟩

/-- full statement for `eval_taylor_enclosure` -/
theorem eval_ok {Z : Coef K} (hZ : Z.WF) {z₀ : List ℕ → K} (hz₀ : ZMem Z z₀) {E : Encl K}
    (hE : WFE E) {r : Coef K} (h : Poly.evalTaylorEnclosure E Z = .ok r) :
    r.WF ∧ VE Z.shape r.shape E ∧ (∀ R, VE Z.shape R E → ble r.shape R) ∧
    ((Z.isArr = true ∧ ∀ c ∈ E, c.isArr = true) → r.isArr = true) ∧
    ∀ L, r.shape.length ≤ L.length → ∀ z, ZMem Z z → ∀ w : ℕ → List ℕ → K,
      (∀ j c, E[j]? = some c → ∀ J, ValidIdx (repS j Z.shape) J → c.Mem (L ++ J) (w j J)) →
      r.Mem L (selVal Z.shape z E.length w) := by
  unfold Poly.evalTaylorEnclosure Poly.evalPolynomial at h
  simp only [py_bind_ok, py_pure] at h
  obtain ⟨⟨n, r'⟩, h, rfl⟩ := h
  obtain ⟨h1, -, h3, h4, h5, h6⟩ := eval_fold hZ hz₀ hE (Coef.WF_arr _) h
  refine ⟨h1, ?_, ?_, fun hh => h5 ⟨rfl, hh⟩, ?_⟩
  · intro i c hc
    refine ⟨hE c (List.mem_of_getElem? hc), ?_⟩
    simpa using h3 i c hc
  · intro R hR
    apply h4 R (ble_nil _)
    intro j c hc B hB
    obtain ⟨-, B', hB', hle⟩ := hR j c hc
    rw [zero_add] at hB
    have : B = B' := List.append_cancel_right (hB.symm.trans hB')
    rw [this]; exact hle
  · intro L hL z hz w hw
    have := h6 L hL z hz 0 (by rw [Coef.mem_arr]; simp) w (by simpa using hw)
    rw [valFrom_eq] at this
    simpa [selVal] using this

/-- membership part, in terms of `InEnc` -/
theorem eval_mem {Z : Coef K} (hZ : Z.WF) {E : Encl K} (hE : WFE E) {r : Coef K}
    (h : Poly.evalTaylorEnclosure E Z = .ok r) {z : List ℕ → K} (hz : ZMem Z z) {L : List ℕ}
    (hL : r.shape.length ≤ L.length) {v : K} (hv : InEnc Z.shape E z L v) : r.Mem L v := by
  obtain ⟨w, hw, rfl⟩ := hv
  exact (eval_ok hZ hz hE h).2.2.2.2 L hL z hz w fun j c hc J hJ => (hw j).1 c hc J hJ

/-! ### totality of evaluation -/

theorem running_total {a : Coef K} (ha : a.WF) (m : ℕ) :
    ∃ r, IA.runningOuterProduct a 0 m = .ok r := by
  induction m with
  | zero => exact ⟨a, rfl⟩
  | succ m ih =>
    obtain ⟨r, hr⟩ := ih
    have ok := IA.running_ok (B := []) (C := a.shape) ha rfl hr
    simp only [IA.runningOuterProduct, hr, py_ok_bind, IA.outerProduct]
    simp only [gt_iff_lt, not_lt_zero, or_self, if_false]
    refine IA.bilinear_total (R := r.shape ++ a.shape) _ ok.1 ha ?_
    intro x y hx hy
    have := ND.tensordot_total (a := x) (b := y) (n := 0) (Nat.zero_le _) (Nat.zero_le _) (by
      simp [ND.ndim])
    simpa [IA.ndarrayOuterProduct, ND.ndim, hx, hy] using this

theorem outerPower_total {a : Coef K} (ha : a.WF) (k : ℕ) :
    ∃ r, IA.outerPower a (k : ℤ) 0 = .ok r := by
  unfold IA.outerPower
  rw [if_neg (by omega : ¬ ((k : ℤ) < 0))]
  by_cases hk : k = 0
  · subst hk; exact ⟨_, if_pos rfl⟩
  rw [if_neg (by omega : ¬ ((k : ℤ) = 0))]
  by_cases hn : a.ndim = 0
  · rw [if_pos hn]; exact IA.power_total ha k
  rw [if_neg hn]
  obtain ⟨rop, hrop⟩ := running_total ha ((k : ℤ).toNat - 1)
  rw [hrop]
  simp only [py_ok_bind, ne_eq, not_true_eq_false, if_false]
  obtain ⟨r1, r2, -, -⟩ := IA.running_ok (B := []) (C := a.shape) ha rfl hrop
  rw [show ((k : ℤ).toNat - 1) + 1 = k by omega] at r2
  simp only [List.nil_append] at r2
  have hfs : (IA.firstEndpoint a).shape = a.shape := by cases a <;> rfl
  obtain ⟨pw, hpw⟩ := IA.power_total ha k
  have pk := IA.power_ok ha hpw
  -- the diagonal step
  have fin : ∀ eye : ND K, eye.shape = repS k a.shape → (∀ x : ND K, x.shape = a.shape →
      ∃ y, IA.generalizedDiagNdarray x k = .ok y ∧ y.shape = repS k a.shape) →
      ∃ r, (do
        let diagonalElements ← IA.power a k
        let diag ← IA.generalizedDiagInterval diagonalElements k
        let __do_lift ← IA.multiply rop (.arr (eye.map (1 - ·)))
        IA.add __do_lift diag) = (.ok r : Py (Coef K)) := by
    intro eye heye hdiag
    rw [hpw]
    simp only [py_ok_bind]
    have hdg : ∃ dg, IA.generalizedDiagInterval pw k = .ok dg ∧ dg.WF ∧
        dg.shape = repS k a.shape := by
      cases pw with
      | arr x =>
        obtain ⟨y, hy, hy'⟩ := hdiag x (by simpa using pk.2.1)
        exact ⟨.arr y, by simp [IA.generalizedDiagInterval, hy], trivial, hy'⟩
      | ivl x x' =>
        have hx := pk.2.1
        simp only [Coef.shape_ivl] at hx
        obtain ⟨y, hy, hy'⟩ := hdiag x hx
        obtain ⟨y2, hy2, hy2'⟩ := hdiag x' (by rw [← Coef.WF_ivl.1 pk.1]; exact hx)
        exact ⟨.ivl y y2, by simp [IA.generalizedDiagInterval, hy, hy2],
          Coef.WF_ivl.2 (hy'.trans hy2'.symm), hy'⟩
    obtain ⟨dg, hdg, dw, ds⟩ := hdg
    rw [hdg]
    simp only [py_ok_bind]
    have hm : ∀ (x y : ND K), x.shape = rop.shape →
        y.shape = (Coef.arr (eye.map (1 - ·))).shape → ∃ s, ND.map2 (· * ·) x y = .ok s ∧
        s.shape = repS k a.shape := by
      intro x y hx hy
      exact IA.map2_total_R _ (hx.trans r2) (hy.trans heye)
    obtain ⟨pr, hpr⟩ := IA.bilinear_total true r1 (Coef.WF_arr _) hm
    have mk := IA.bilinearTrue_ok (R := repS k a.shape) r1 (Coef.WF_arr _) (by
      intro x y s hx hy hs
      obtain ⟨s', hs', e⟩ := hm x y hx hy
      rw [hs] at hs'; cases hs'; exact e) hpr
    have hpr' : IA.multiply rop (.arr (eye.map (1 - ·))) = .ok pr := hpr
    rw [hpr']
    simp only [py_ok_bind]
    refine IA.add_lub mk.1 dw (R := repS k a.shape) (by rw [mk.2.1]; exact ble_refl _)
      (by rw [ds]; exact ble_refl _)
  by_cases hk1 : k = 1
  · subst hk1
    have : IA.generalizedDiagNdarray (IA.firstEndpoint a).onesLike ((1 : ℕ) : ℤ) =
        .ok (IA.firstEndpoint a).onesLike := by simp [IA.generalizedDiagNdarray]
    rw [this]
    exact fin _ (by simp [hfs]) fun x hx => ⟨x, by simp [IA.generalizedDiagNdarray], by simp [hx]⟩
  by_cases hk2 : k = 2
  · subst hk2
    by_cases h1 : a.shape.length = 1
    · have hdiag : ∀ x : ND K, x.shape = a.shape → IA.generalizedDiagNdarray x ((2 : ℕ) : ℤ) =
          .ok x.diag := by
        intro x hx; simp [IA.generalizedDiagNdarray, ND.ndim, hx, h1]
      rw [hdiag _ (by simp [hfs])]
      exact fin _ (by simp [ND.diag, hfs, repS_succ]) fun x hx =>
        ⟨x.diag, hdiag x hx, by simp [ND.diag, hx, repS_succ]⟩
    · have : IA.generalizedDiagNdarray (IA.firstEndpoint a).onesLike ((2 : ℕ) : ℤ) =
          .error .notImplemented := by simp [IA.generalizedDiagNdarray, ND.ndim, hfs, h1]
      rw [this]
      exact ⟨rop, rfl⟩
  · have : IA.generalizedDiagNdarray (IA.firstEndpoint a).onesLike (k : ℤ) =
        .error .notImplemented := by
      unfold IA.generalizedDiagNdarray
      rw [if_neg (by omega), if_neg (by omega)]
    rw [this]
    exact ⟨rop, rfl⟩

theorem eval_fold_total {Z : Coef K} (hZ : Z.WF) {z₀ : List ℕ → K} (hz₀ : ZMem Z z₀) {E : Encl K}
    {R : List ℕ} {i0 : ℕ} {s0 : Coef K} (hs0 : s0.WF) (hs0R : ble s0.shape R)
    (hE : ∀ j c, E[j]? = some c → VC Z.shape R (i0 + j) c) :
    ∃ nr, E.foldlM (Poly.evalStep Z (fun a b => IA.tensordot a b b.ndim)
      (fun a k => IA.outerPower a k) IA.add (.arr (ND.scalar 1))) (i0, s0) = .ok nr := by
  induction E generalizing i0 s0 with
  | nil => exact ⟨_, rfl⟩
  | cons c E ih =>
    rw [List.foldlM_cons, evalStep_eq]
    obtain ⟨zi, hzi⟩ := outerPower_total hZ i0
    obtain ⟨zw, zs, -, -⟩ := outerPower_point hZ hzi hz₀
    obtain ⟨cw, B, hB, hBR⟩ := hE 0 c (by simp)
    simp only [add_zero] at hB
    have hzn : zi.ndim = i0 * Z.shape.length := by rw [Coef.ndim_def, zs]; simp
    have hcn : c.ndim = B.length + i0 * Z.shape.length := by rw [Coef.ndim_def, hB]; simp
    have e0 : c.ndim - zi.ndim = B.length := by omega
    obtain ⟨term, hterm⟩ := IA.tensordot_total (n := zi.ndim) cw zw (by omega) le_rfl (by
      rw [e0, hB, List.drop_left, zs, hzn]
      exact (List.take_of_length_le (by simp)).symm)
    obtain ⟨t1, -, -, -, t5, -, -⟩ := IA.tensordot_mem cw zw hterm
    have hts : term.shape = B := by
      rw [t5, e0, hB, List.take_left]; simp [Coef.ndim]
    obtain ⟨s1, hs1⟩ := IA.add_lub hs0 t1 hs0R (by rw [hts]; exact hBR)
    obtain ⟨a1, a2, -, -⟩ := IA.add_ok hs0 t1 hs1
    have hs1R : ble s1.shape R := by
      obtain ⟨R', h1, h2⟩ := bshape_lub hs0R (show ble term.shape R by rw [hts]; exact hBR)
      rw [a2] at h1; cases h1; exact h2
    have hgoal := ih (i0 := i0 + 1) a1 hs1R (by
      intro j c' hj
      have := hE (j + 1) c' (by simpa using hj)
      rwa [show i0 + (j + 1) = i0 + 1 + j by ring] at this)
    obtain ⟨nr, hnr⟩ := hgoal
    refine ⟨nr, ?_⟩
    have hzi' : IA.outerPower Z (i0 : ℤ) = .ok zi := hzi
    simp only [hzi', hterm, hs1, py_ok_bind]
    exact hnr

theorem eval_total {Z : Coef K} (hZ : Z.WF) {z₀ : List ℕ → K} (hz₀ : ZMem Z z₀) {E : Encl K}
    {R : List ℕ} (hE : VE Z.shape R E) :
    ∃ r, Poly.evalTaylorEnclosure E Z = .ok r ∧ ble r.shape R := by
  obtain ⟨nr, hnr⟩ := eval_fold_total hZ hz₀ (R := R) (i0 := 0) (s0 := .arr (ND.scalar 0))
    (E := E) (Coef.WF_arr _) (ble_nil _) (by simpa [VE] using hE)
  have h : Poly.evalTaylorEnclosure E Z = .ok nr.2 := by
    simp only [Poly.evalTaylorEnclosure, Poly.evalPolynomial, hnr, py_ok_bind]
    rfl
  exact ⟨nr.2, h, (eval_ok hZ hz₀ hE.wfe h).2.2.1 R hE⟩

end
end AB
