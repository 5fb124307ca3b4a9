/-
Widths: bilinear and linear primitives, element-wise functions.
-/
import Verif.Proofs.Thin3

set_option linter.unusedSectionVars false

namespace AB
variable {K : Type} [Field K] [LinearOrder K] [IsStrictOrderedRing K]
open IA (repS)

section
variable {ι : Type} {w : ι → K} {i0 : ι} (hw : ∀ i, 0 ≤ w i)
include hw

namespace TEA
variable {T : ι → TEA K}

theorem thin_termCoef (hT : ThinT w i0 T) {pbb : ND K → ND K → ℕ → ℕ → Py (ND K)} (hp : FormedAll pbb)
    {A B r : ι → Coef K} (hA : Thin w i0 A) (hB : Thin w i0 B) {p q : ℕ}
    (h : ∀ i, (T i).termEnclosureCoefficient pbb (A i) (B i) p q = .ok (r i)) : Thin w i0 r := by
  unfold termEnclosureCoefficient at h
  simp only [hT.deg, hT.xNdim] at h
  by_cases hd : p + q ≤ (T i0).maxDegree
  · simp only [if_pos hd] at h
    obtain ⟨R, hR⟩ := hp (p * (T i0).xNdim) (q * (T i0).xNdim) (A i0).shape (B i0).shape
    exact IA.thin_bilinear hw hA hB hR h
  · simp only [if_neg hd] at h
    by_cases hne : (p - min p (p + q - (T i0).maxDegree)) +
        (q - (p + q - (T i0).maxDegree - min p (p + q - (T i0).maxDegree))) ≠ (T i0).maxDegree
    · have := h i0
      rw [if_pos hne] at this; cases this
    simp only [if_neg hne] at h
    by_cases hj : p + q - (T i0).maxDegree - min p (p + q - (T i0).maxDegree) > 0
    · simp only [if_pos hj, py_bind_ok] at h
      choose pw hpw c0 hc0 q' hq c1 hc1 h using h
      have n0 := IA.thin_tensordot hw hA (IA.thin_outerPower hw hT.region hpw) hc0
      have n1 := IA.thin_tensordot hw hB (IA.thin_outerPower hw hT.region hq) hc1
      obtain ⟨R, hR⟩ := hp ((p - min p (p + q - (T i0).maxDegree)) * (T i0).xNdim)
        ((q - (p + q - (T i0).maxDegree - min p (p + q - (T i0).maxDegree))) * (T i0).xNdim) (c0 i0).shape (c1 i0).shape
      exact IA.thin_bilinear hw n0 n1 hR h
    · simp only [if_neg hj, py_bind_ok] at h
      choose pw hpw c0 hc0 c1 hc1 h using h
      have n0 := IA.thin_tensordot hw hA (IA.thin_outerPower hw hT.region hpw) hc0
      obtain ⟨R, hR⟩ := hp ((p - min p (p + q - (T i0).maxDegree)) * (T i0).xNdim)
        ((q - (p + q - (T i0).maxDegree - min p (p + q - (T i0).maxDegree))) * (T i0).xNdim) (c0 i0).shape (B i0).shape
      have e := okEq hc1
      subst e
      exact IA.thin_bilinear hw n0 hB hR h

theorem thin_arbitraryBilinear (hT : ThinT w i0 T) {pbb : ND K → ND K → ℕ → ℕ → Py (ND K)} (hp : FormedAll pbb)
    {a b r : ι → Encl K} (ha : ThinE w i0 a) (hb : ThinE w i0 b)
    (h : ∀ i, (T i).arbitraryBilinear (a i) (b i) pbb = .ok (r i)) : ThinE w i0 r := by
  unfold arbitraryBilinear at h
  simp only [hT.deg, ha.length _ i0, hb.length _ i0] at h
  refine fam_foldlM (Q := ThinE w i0) ?_ (fam_pairs (fam_enum ha) (fam_enum hb)) ?_ h
  · rintro s x t hs ⟨_, _, ⟨p, A, hA, rfl⟩, ⟨q, B, hB, rfl⟩, rfl⟩ h
    simp only [bilinearStep, py_bind_ok] at h
    choose c hc h using h
    refine Poly.thin_store hs (thin_termCoef hw hT hp hA hB hc) (n := min (p + q) (T i0).maxDegree) fun i => ?_
    have := h i
    rw [hT.deg] at this
    rw [← this]
    cases (s i)[min (p + q) (T i0).maxDegree]? <;> rfl
  · exact .const _ fun x hx => by rw [List.eq_of_mem_replicate hx]; exact .arr hw _

end TEA

/-! ### operations on one array -/

/-- operations that preserve the order and are Lipschitz -/
theorem thin_op {f : ND K → Py (ND K)} (hf : MonotoneOp f) (hl : LipschitzOp f) {c r : ι → Coef K} (hc : Thin w i0 c)
    (h : ∀ i, (match c i with
      | .arr a => do return .arr (← f a)
      | .ivl a b => do return .ivl (← f a) (← f b) : Py (Coef K)) = .ok (r i)) : Thin w i0 r := by
  cases h0 : c i0 with
  | arr a =>
    have e : ∀ i, c i = .arr a := fun i => by rw [← h0]; exact (hc.nest i).eq_of_arr (by rw [h0]; rfl)
    simp only [e, py_bind_ok, py_pure] at h
    choose s hs h using h
    have : r = fun _ => .arr (s i0) := funext fun i => by
      rw [← h i]
      have := hs i
      rw [hs i0] at this
      rw [Except.ok.inj this]
    rw [this]; exact .arr hw _
  | ivl l u =>
    have e : ∀ i, ∃ l u, c i = .ivl l u := by
      intro i
      have := (hc.nest i).isArr
      cases hi : c i with
      | arr b => rw [h0, hi] at this; cases this
      | ivl l u => exact ⟨l, u, rfl⟩
    choose L U e using e
    obtain rfl : c = fun i => .ivl (L i) (U i) := funext e
    simp only [py_bind_ok, py_pure] at h
    choose s hs t ht h using h
    obtain rfl : r = fun i => .ivl (s i) (t i) := funext fun i => (h i).symm
    have hn : ∀ i, Nest (Coef.ivl (s i) (t i)) (.ivl (s i0) (t i0)) := by
      intro i
      have := hc.nest i
      cases this with
      | ivl w1 w2 hin => exact mono_ivl hf w1 w2 hin (hs i) (ht i) (hs i0) (ht i0)
    refine ⟨hn, fun I hI => ?_⟩
    obtain ⟨C, c0, hC⟩ := hl (L i0).shape
    obtain ⟨D, d0, hD⟩ := hc.uniform hw
    refine ⟨C * D, mul_nonneg c0 d0, fun i => ?_⟩
    have sL : ∀ i, (L i).shape = (L i0).shape := fun i => hc.shape i
    have sU : ∀ i, (U i).shape = (L i0).shape := fun i => by
      have : (L i).shape = (U i).shape := (hc.nest i).wf'.1
      rw [← this, sL]
    have ss : (s i).shape = (s i0).shape := (hn i).shape
    have st : (s i).shape = (t i).shape := (hn i).wf'.1
    have hI : ValidIdx (s i).shape I := ss ▸ (show ValidIdx (s i0).shape I from hI)
    have := hC (L i) (U i) (s i) (t i) (D * w i) (mul_nonneg d0 (hw i)) (sL i) (sU i) (fun J hJ => ?_) (hs i) (ht i) I hI
    · simp only [Coef.lo, Coef.hi]
      rw [ND.bget_valid _ hI, ND.bget_valid _ (st ▸ hI), mul_assoc]
      exact (le_abs_self _).trans this
    · have h1 := hD i J hJ
      simp only [Coef.lo, Coef.hi] at h1
      rw [ND.bget_valid (L i) (by rw [sL i]; exact hJ), ND.bget_valid (U i) (by rw [sU i]; exact hJ)] at h1
      have h2 := (hc.nest i).entries (ble_refl _) hJ
      simp only [Coef.lo, Coef.hi] at h2
      rw [ND.bget_valid (L i) (by rw [sL i]; exact hJ), ND.bget_valid (U i) (by rw [sU i]; exact hJ)] at h2
      rw [abs_of_nonneg (by linarith [h2.2.1])]
      exact h1

theorem thin_mapOver {f : ND K → Py (ND K)} (hf : MonotoneOp f) (hl : LipschitzOp f) {E r : ι → Encl K} (hE : ThinE w i0 E)
    (h : ∀ i, mapOverEnclosure (E i) f = .ok (r i)) : ThinE w i0 r := by
  unfold mapOverEnclosure at h
  refine fam_mapM (fun c t hc h => thin_op hw hf hl hc fun i => ?_) hE h
  rw [← h i]
  cases c i <;> rfl

end

/-! ### Lipschitz operations -/

/-- an operation whose result's entries are sums of at most `n` entries of its operand -/
theorem lipschitz_of {f : ND K → Py (ND K)}
    (h : ∀ S, ∃ (R : List ℕ) (n : ℕ) (terms : List ℕ → List (Option (List ℕ))), (∀ L, (terms L).length ≤ n) ∧
      ∀ x s : ND K, x.shape = S → f x = .ok s → s.shape = R ∧ ∀ L, ValidIdx R L →
        s.get L = ((terms L).map fun o => o.elim 0 fun J => x.canon.get J).sum) : LipschitzOp f := by
  intro S
  obtain ⟨R, n, terms, hn, h⟩ := h S
  refine ⟨n, Nat.cast_nonneg n, fun x y s t ww h0 hx hy hxy hs ht I hI => ?_⟩
  obtain ⟨s1, s2⟩ := h x s hx hs
  obtain ⟨t1, t2⟩ := h y t hy ht
  rw [s1] at hI
  rw [s2 I hI, t2 I hI]
  have one : ∀ o : Option (List ℕ), |(o.elim 0 fun J => y.canon.get J) - (o.elim 0 fun J => x.canon.get J)| ≤ ww := by
    intro o
    cases o with
    | none => simpa using h0
    | some J =>
      simp only [Option.elim, ND.canon, hx, hy]
      by_cases hJ : J ∈ idx S
      · rw [if_pos hJ, if_pos hJ]; exact hxy J (mem_idx.1 hJ)
      · rw [if_neg hJ, if_neg hJ]; simpa using h0
  have key : ∀ l : List (Option (List ℕ)), |(l.map fun o => o.elim 0 fun J => y.canon.get J).sum -
        (l.map fun o => o.elim 0 fun J => x.canon.get J).sum| ≤ l.length * ww := by
      intro l
      induction l with
      | nil => simp
      | cons o l ih =>
        simp only [List.map_cons, List.sum_cons, List.length_cons, Nat.cast_add, Nat.cast_one]
        have e : ∀ a b c d : K, a + b - (c + d) = (a - c) + (b - d) := fun a b c d => by ring
        rw [e, add_mul, one_mul, add_comm (_ * ww)]
        exact (abs_add_le _ _).trans (add_le_add (one o) ih)
  refine (key _).trans (mul_le_mul_of_nonneg_right ?_ h0)
  exact_mod_cast hn I

open Lax in
theorem lipschitz_bind1 (sem : Sem K) {p : Prim K}
    (hp : match p with
      | .reshape _ | .reduceSum _ | .reduceWindowSum _ | .squeeze _ | .transpose _ => True
      | .jit body => LipschitzOp body
      | .convertElementType round => ∃ C, 0 ≤ C ∧ ∀ s t, |round t - round s| ≤ C * |t - s|
      | _ => False) : LipschitzOp (p.bind1 sem) := by
  cases p with
  | convertElementType round =>
    intro S
    obtain ⟨C, c0, hC⟩ := hp
    refine ⟨C, c0, fun x y s t ww h0 hx hy hxy hs ht => ?_⟩
    rw [bind1_convert'] at hs ht
    cases hs; cases ht
    intro I hI
    have hI' : ValidIdx S I := hx ▸ hI
    refine (hC _ _).trans (mul_le_mul_of_nonneg_left ?_ c0)
    rw [ND.canon_get x (hx ▸ hI'), ND.canon_get y (hy ▸ hI')]
    exact hxy I hI'
  | reshape n =>
    refine lipschitz_of fun S => ⟨n, 1, fun L => [some (unravel S (ravel n L))], fun L => le_rfl, fun x s hx h => ?_⟩
    rw [bind1_reshape] at h
    unfold Lax.reshape at h
    split_ifs at h
    cases h
    exact ⟨rfl, fun L _ => by simp [ND.canon_shape, hx]⟩
  | reduceSum axes =>
    refine lipschitz_of fun S => ⟨dropAxes axes S, (idx (axes.map fun d => S.getD d 0)).length, fun L =>
      (idx (axes.map fun d => S.getD d 0)).map fun J => some (assemble S.length axes L J), fun L => by simp,
      fun x s hx h => ?_⟩
    rw [bind1_reduceSum] at h
    unfold Lax.reduceSum at h
    split_ifs at h
    cases h
    refine ⟨by simp only [ND.canon_shape, hx], fun L _ => ?_⟩
    simp only [ND.canon_shape, ND.ndim, hx, List.map_map]
    rfl
  | reduceWindowSum ws =>
    refine lipschitz_of fun S => ⟨List.zipWith WinAxis.outSize ws S, (idx (ws.map (·.size))).length, fun L =>
      (idx (ws.map (·.size))).map fun J => winIdx ws S L J, fun L => by simp, fun x s hx h => ?_⟩
    rw [bind1_reduceWindowSum] at h
    unfold Lax.reduceWindowSum at h
    split_ifs at h
    cases h
    refine ⟨by simp only [ND.canon_shape, hx], fun L _ => ?_⟩
    simp only [ND.canon_shape, hx, List.map_map]
    congr 1
    refine List.map_congr_left fun J _ => ?_
    simp only [Function.comp]
    cases winIdx ws S L J <;> rfl
  | squeeze dims =>
    refine lipschitz_of fun S => ⟨dropAxes dims S, 1, fun L => [some (assemble S.length dims L [])], fun L => le_rfl,
      fun x s hx h => ?_⟩
    rw [bind1_squeeze] at h
    unfold Lax.squeeze at h
    split_ifs at h
    cases h
    refine ⟨by simp only [ND.canon_shape, hx], fun L _ => ?_⟩
    simp [ND.canon_shape, ND.ndim, hx]
  | transpose perm =>
    refine lipschitz_of fun S => ⟨perm.map fun p => S.getD p 0, 1, fun L =>
      [some ((List.range S.length).map fun k => L.getD (perm.idxOf k) 0)], fun L => le_rfl, fun x s hx h => ?_⟩
    rw [bind1_transpose] at h
    unfold Lax.transpose at h
    split_ifs at h
    cases h
    refine ⟨by simp only [ND.canon_shape, hx], fun L _ => ?_⟩
    simp [ND.canon_shape, ND.ndim, hx]
  | jit body =>
    intro S
    obtain ⟨C, c0, hC⟩ := hp S
    refine ⟨C, c0, fun x y s t ww h0 hx hy hxy hs ht => ?_⟩
    rw [bind1_jit] at hs ht
    refine hC x.canon y.canon s t ww h0 hx hy (fun I hI => ?_) hs ht
    rw [ND.canon_get x (hx ▸ hI), ND.canon_get y (hy ▸ hI)]
    exact hxy I hI
  | _ => exact hp.elim

theorem lipschitz_broadcastInDim (shape dims : List ℕ) : LipschitzOp (fun a : ND K => Lax.broadcastInDim shape dims a) := by
  intro S
  refine ⟨1, zero_le_one, fun x y s t ww h0 hx hy hxy hs ht I hI => ?_⟩
  rw [one_mul]
  have en : x.ndim = S.length := by unfold ND.ndim; rw [hx]
  have en' : y.ndim = S.length := by unfold ND.ndim; rw [hy]
  simp only [Lax.broadcastInDim, Lax.broadcastInDimP, en, en', hx, hy] at hs ht
  by_cases h1 : S.length = shape.length ∧ dims = []
  · rw [if_pos h1] at hs ht
    cases hs; cases ht
    exact hxy I (hx ▸ hI)
  · rw [if_neg h1] at hs ht
    by_cases h2 : dims.length = S.length ∧ dims.Pairwise (· < ·) ∧ (∀ d ∈ dims, d < shape.length) ∧
      ∀ k < S.length, S.getD k 0 = 1 ∨ S.getD k 0 = shape.getD (dims.getD k 0) 0
    · rw [if_pos h2] at hs ht
      cases hs; cases ht
      obtain ⟨q1, q2, q3, q4⟩ := h2
      exact hxy _ (bidIdx_valid (Ra := S) q3 q1 q4 hI)
    · rw [if_neg h2] at hs; cases hs

end AB
