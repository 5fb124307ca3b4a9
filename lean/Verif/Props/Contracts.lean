/-
C49, C50: the linear and bilinear primitives that /repo/autobound/jax/jax_bound.py applies to the
coefficients of an enclosure (jax_bound.py:333-430, 447-453) satisfy the contracts under which that is
sound.
-/
import Verif.Proofs.Lax
import Verif.Props.PassThru

set_option linter.unusedSectionVars false

namespace AB
variable {K : Type} [Field K]
open Lax JB

/-! ### primitives applied to one array -/

theorem bind1_one (r : Py (ND K)) :
    (do match ← r.one with
      | [r] => .ok r
      | _ => (.error .typeError : Py (ND K))) = r := by
  cases r <;> rfl

variable (sem : Sem K)

theorem bind1_reduceSum (axes : List ℕ) (a : ND K) :
    (Prim.reduceSum axes).bind1 sem a = reduceSum axes a.canon := bind1_one _
theorem bind1_squeeze (dims : List ℕ) (a : ND K) :
    (Prim.squeeze dims).bind1 sem a = squeeze dims a.canon := bind1_one _
theorem bind1_transpose (perm : List ℕ) (a : ND K) :
    (Prim.transpose perm).bind1 sem a = transpose perm a.canon := bind1_one _
theorem bind1_reshape (s : List ℕ) (a : ND K) :
    (Prim.reshape s).bind1 sem a = reshape s a.canon := bind1_one _
theorem bind1_reduceWindowSum (ws : List WinAxis) (a : ND K) :
    (Prim.reduceWindowSum ws).bind1 sem a = reduceWindowSum ws a.canon := bind1_one _
theorem bind1_jit (body : ND K → Py (ND K)) (a : ND K) :
    (Prim.jit body).bind1 sem a = body a.canon := bind1_one _
theorem bind1_broadcastInDim (shape dims : List ℕ) (a : ND K) :
    (Prim.broadcastInDim shape dims).bind1 sem a = broadcastInDimP shape dims a.canon := bind1_one _
theorem bind1_convert' (round : K → K) (a : ND K) :
    (Prim.convertElementType round : Prim K).bind1 sem a = .ok (a.canon.map round) := rfl
theorem bind1_convert {round : K → K} (h : ∀ t, round t = t) (a : ND K) :
    (Prim.convertElementType round : Prim K).bind1 sem a = .ok a.canon := by
  rw [bind1_convert', show round = id from funext h]
  rfl
theorem bind2_dotGeneral (lc rc lb rb : List ℕ) (a b : ND K) :
    (Prim.dotGeneral lc rc lb rb).bind2 sem a b = dotGeneral lc rc lb rb a.canon b.canon := bind1_one _
theorem bind2_conv (op : ND K → ND K → Py (ND K)) (a b : ND K) :
    (Prim.conv op).bind2 sem a b = op a.canon b.canon := bind1_one _

/-! ### C50: linear primitives -/

theorem getD_append_left' {A B : List ℕ} {k : ℕ} (h : k < A.length) : (A ++ B).getD k 0 = A.getD k 0 :=
  Lax.getD_append_left h

/-- **C50 (reduce_sum).** Summing over axes of the value acts on the leading axes of a coefficient. -/
theorem C50_reduce_sum (xs : List ℕ) {Ra axes : List ℕ} (h0 : AxesOk Ra.length axes) :
    LinearContract xs Ra (dropAxes axes Ra)
      (fun L => (idx (axes.map fun d => Ra.getD d 0)).map fun J => ((1 : K), assemble Ra.length axes L J))
      ((Prim.reduceSum axes).bind1 sem) := by
  refine ⟨?_, ?_⟩
  · intro L hL t ht
    obtain ⟨J, hJ, rfl⟩ := List.mem_map.1 ht
    exact assemble_valid hL (mem_idx.1 hJ)
  · intro i u s hu h
    rw [bind1_reduceSum] at h
    unfold reduceSum at h
    split_ifs at h with hc
    cases h
    have hd : ∀ d ∈ axes, d < Ra.length := h0.2
    have hsh : u.canon.shape = Ra ++ (List.replicate i xs).flatten := hu
    refine ⟨?_, ?_⟩
    · show dropAxes axes u.canon.shape = _
      rw [hsh, dropAxes_append hd]
    · intro L J hL hJ
      show ((idx _).map _).sum = _
      rw [hsh, dims_append hd, List.map_map]
      congr 1
      apply List.map_congr_left
      intro J' hJ'
      have hl : u.canon.ndim = Ra.length + J.length := by
        show u.canon.shape.length = _
        rw [hsh, List.length_append, hJ.length]
      show u.canon.get _ = 1 * u.get (assemble Ra.length axes L J' ++ J)
      rw [hl, assemble_append hd (by rw [← hL.length, dropAxes_length]), one_mul]
      apply ND.canon_get
      rw [hu]
      exact validIdx_append (assemble_valid hL (mem_idx.1 hJ')) hJ

/-- **C50 (squeeze).** -/
theorem C50_squeeze (xs : List ℕ) {Ra dims : List ℕ} (h0 : AxesOk Ra.length dims)
    (h1 : ∀ d ∈ dims, Ra.getD d 0 = 1) :
    LinearContract xs Ra (dropAxes dims Ra)
      (fun L => [((1 : K), assemble Ra.length dims L [])]) ((Prim.squeeze dims).bind1 sem) := by
  have hval : ∀ L, ValidIdx (dropAxes dims Ra) L → ValidIdx Ra (assemble Ra.length dims L []) := by
    intro L hL
    have := assemble_valid (S := Ra) (D := dims) (J := dims.map fun _ => 0) hL (by
      rw [validIdx_iff_getD]
      refine ⟨by simp, fun k hk => ?_⟩
      have hk : k < dims.length := by simpa using hk
      have := h1 dims[k] (List.getElem_mem hk)
      simp only [List.getD_eq_getElem?_getD, List.getElem?_map, List.getElem?_eq_getElem hk,
        Option.map_some, Option.getD_some]
      rw [← List.getD_eq_getElem?_getD, this]
      exact one_pos)
    have e : assemble Ra.length dims L (dims.map fun _ => 0) = assemble Ra.length dims L [] := by
      unfold assemble
      apply List.map_congr_left
      intro j _
      by_cases hj : j ∈ dims
      · rw [if_pos hj, if_pos hj]
        have : dims.idxOf j < dims.length := List.idxOf_lt_length_iff.2 hj
        simp [List.getD_eq_getElem?_getD, this]
      · rw [if_neg hj, if_neg hj]
    rwa [e] at this
  refine ⟨?_, ?_⟩
  · intro L hL t ht
    rw [List.mem_singleton] at ht
    subst ht
    exact hval L hL
  · intro i u s hu h
    rw [bind1_squeeze] at h
    unfold squeeze at h
    split_ifs at h with hc
    cases h
    have hd : ∀ d ∈ dims, d < Ra.length := h0.2
    have hsh : u.canon.shape = Ra ++ (List.replicate i xs).flatten := hu
    refine ⟨?_, ?_⟩
    · show dropAxes dims u.canon.shape = _
      rw [hsh, dropAxes_append hd]
    · intro L J hL hJ
      have hl : u.canon.ndim = Ra.length + J.length := by
        show u.canon.shape.length = _
        rw [hsh, List.length_append, hJ.length]
      show u.canon.get (assemble u.canon.ndim dims (L ++ J) []) = _
      rw [hl, assemble_append hd (by rw [← hL.length, dropAxes_length])]
      simp only [List.map_cons, List.map_nil, List.sum_cons, List.sum_nil, one_mul, add_zero]
      apply ND.canon_get
      rw [hu]
      exact validIdx_append (hval L hL) hJ

theorem rep_nil_of_length {xs : List ℕ} {i n : ℕ} (h : n = n + (List.replicate i xs).flatten.length) :
    (List.replicate i xs).flatten = [] := List.eq_nil_of_length_eq_zero (by omega)

theorem rep_nil_of_ndim {xs Ra : List ℕ} {i : ℕ} {u : ND K}
    (hu : u.shape = Ra ++ (List.replicate i xs).flatten) (h : Ra.length = u.ndim) :
    (List.replicate i xs).flatten = [] := by
  have : u.ndim = Ra.length + (List.replicate i xs).flatten.length := by
    show u.shape.length = _
    rw [hu, List.length_append]
  exact List.eq_nil_of_length_eq_zero (by omega)

/-- **C50 (transpose).** With a vector `x`, coefficients of positive degree have more axes than the
permutation and the primitive raises, so the contract only speaks about coefficients it accepts. -/
theorem C50_transpose (xs : List ℕ) {Ra perm : List ℕ} (hl : perm.length = Ra.length) (hn : perm.Nodup)
    (hlt : ∀ p ∈ perm, p < Ra.length) :
    LinearContract xs Ra (perm.map fun p => Ra.getD p 0)
      (fun L => [((1 : K), permIdx perm Ra.length L)]) ((Prim.transpose perm).bind1 sem) := by
  refine ⟨?_, ?_⟩
  · intro L hL t ht
    rw [List.mem_singleton] at ht
    subst ht
    exact permIdx_valid hl hn hlt hL
  · intro i u s hu h
    rw [bind1_transpose] at h
    unfold transpose at h
    split_ifs at h with hc
    cases h
    have hP := rep_nil_of_ndim hu (hl.symm.trans hc.1)
    rw [hP, List.append_nil] at hu
    rw [hP]
    refine ⟨?_, ?_⟩
    · show perm.map _ = _
      rw [List.append_nil]
      show perm.map (fun p => u.shape.getD p 0) = _
      rw [hu]
    · intro L J hL hJ
      cases hJ
      simp only [List.append_nil, List.map_cons, List.map_nil, List.sum_cons, List.sum_nil, one_mul, add_zero]
      have : u.canon.ndim = Ra.length := by show u.shape.length = _; rw [hu]
      rw [this]
      apply ND.canon_get
      rw [hu]
      exact permIdx_valid hl hn hlt hL

/-- **C50 (reduce_window_sum).** -/
theorem C50_reduce_window_sum (xs : List ℕ) {Ra : List ℕ} {ws : List WinAxis} (hl : ws.length = Ra.length) :
    LinearContract xs Ra (List.zipWith WinAxis.outSize ws Ra)
      (fun L => (idx (ws.map (·.size))).filterMap fun J => (winIdx ws Ra L J).map fun α => ((1 : K), α))
      ((Prim.reduceWindowSum ws).bind1 sem) := by
  refine ⟨?_, ?_⟩
  · intro L hL t ht
    obtain ⟨J, hJ, h⟩ := List.mem_filterMap.1 ht
    obtain ⟨α, hα, rfl⟩ := Option.map_eq_some_iff.1 h
    exact winIdx_valid hα
  · intro i u s hu h
    rw [bind1_reduceWindowSum] at h
    unfold reduceWindowSum at h
    split_ifs at h with hc
    cases h
    have hP := rep_nil_of_ndim hu (hl.symm.trans hc)
    rw [hP, List.append_nil] at hu
    rw [hP]
    refine ⟨?_, ?_⟩
    · rw [List.append_nil]
      show List.zipWith WinAxis.outSize ws u.shape = _
      rw [hu]
    · intro L J hL hJ
      cases hJ
      simp only [List.append_nil]
      have hs : u.canon.shape = Ra := hu
      rw [hs]
      generalize idx (ws.map (·.size)) = l
      induction l with
      | nil => rfl
      | cons J l ih =>
        rw [List.map_cons, List.sum_cons, ih, List.filterMap_cons]
        cases hα : winIdx ws Ra L J with
        | none => simp
        | some α =>
          simp only [Option.map_some, List.map_cons, List.sum_cons, one_mul]
          rw [ND.canon_get _ (by rw [hu]; exact winIdx_valid hα)]

/-- **C50 (reshape).** For a vector `x` the number of entries of a coefficient of positive degree differs
from that of the value unless `x` has exactly one entry. -/
theorem C50_reshape {xs : List ℕ} (hxs : xs = [] ∨ xs.prod ≠ 1) {Ra newSizes : List ℕ}
    (h0 : newSizes.prod = Ra.prod) (hne : Ra.prod ≠ 0) :
    LinearContract xs Ra newSizes
      (fun L => [((1 : K), unravel Ra (ravel newSizes L))]) ((Prim.reshape newSizes).bind1 sem) := by
  refine ⟨?_, ?_⟩
  · intro L hL t ht
    rw [List.mem_singleton] at ht
    subst ht
    exact unravel_valid (h0 ▸ ravel_lt' hL)
  · intro i u s hu h
    rw [bind1_reshape] at h
    unfold reshape at h
    split_ifs at h with hc
    cases h
    have hP : (List.replicate i xs).flatten = [] := by
      have hc : newSizes.prod = u.shape.prod := hc
      rw [hu, List.prod_append, h0] at hc
      have h1 : (List.replicate i xs).flatten.prod = 1 := by
        have := hc.symm
        rw [Nat.mul_eq_left hne] at this
        exact this
      rcases hxs with rfl | hxs
      · simp
      · cases i with
        | zero => rfl
        | succ i =>
          rw [List.replicate_succ, List.flatten_cons, List.prod_append] at h1
          exact absurd (Nat.eq_one_of_mul_eq_one_right h1) hxs
    rw [hP, List.append_nil] at hu
    rw [hP]
    refine ⟨by rw [List.append_nil], ?_⟩
    intro L J hL hJ
    cases hJ
    simp only [List.append_nil, List.map_cons, List.map_nil, List.sum_cons, List.sum_nil, one_mul, add_zero]
    have hs : u.canon.shape = Ra := hu
    rw [hs]
    apply ND.canon_get
    rw [hu]
    exact unravel_valid (h0 ▸ ravel_lt' hL)

/-- **C50 (jit).** A jitted function is passed through; that is right if the function is linear in this
sense. -/
theorem C50_jit {xs Ra Rc : List ℕ} {terms : List ℕ → List (K × List ℕ)} {body : ND K → Py (ND K)}
    (h : LinearContract xs Ra Rc terms body) : LinearContract xs Ra Rc terms ((Prim.jit body).bind1 sem) := by
  refine ⟨h.1, ?_⟩
  intro i u s hu hs
  rw [bind1_jit] at hs
  obtain ⟨k1, k2⟩ := h.2 i u.canon s hu hs
  refine ⟨k1, fun L J hL hJ => ?_⟩
  rw [k2 L J hL hJ]
  congr 1
  apply List.map_congr_left
  intro t ht
  rw [ND.canon_get _ (by rw [hu]; exact validIdx_append (h.1 L hL t ht) hJ)]

/-- the index that `broadcast_in_dim` reads -/
def bidIdx (dims Ra L : List ℕ) : List ℕ :=
  (List.range Ra.length).map fun k => if Ra.getD k 0 = 1 then 0 else L.getD (dims.getD k 0) 0

theorem bidIdx_valid {shape dims Ra L : List ℕ} (hlt : ∀ d ∈ dims, d < shape.length)
    (hl : dims.length = Ra.length)
    (hd : ∀ k < Ra.length, Ra.getD k 0 = 1 ∨ Ra.getD k 0 = shape.getD (dims.getD k 0) 0)
    (hL : ValidIdx shape L) : ValidIdx Ra (bidIdx dims Ra L) := by
  rw [validIdx_iff_getD] at hL ⊢
  refine ⟨by simp [bidIdx], fun k hk => ?_⟩
  unfold bidIdx
  rw [List.getD_eq_getElem?_getD (l := List.map _ _), List.getElem?_map, List.getElem?_range hk]
  simp only [Option.map_some, Option.getD_some]
  by_cases h1 : Ra.getD k 0 = 1
  · rw [if_pos h1, h1]; exact one_pos
  · rw [if_neg h1]
    rcases hd k hk with h | h
    · exact absurd h h1
    · rw [h]
      apply hL.2
      have hk' : k < dims.length := by omega
      rw [List.getD_eq_getElem?_getD, List.getElem?_eq_getElem hk']
      exact hlt _ (List.getElem_mem hk')

/-- **C50 (broadcast_in_dim).** The pushforward function broadcasts the leading axes of a coefficient and
keeps the trailing ones. -/
theorem C50_broadcast_in_dim (xs : List ℕ) {shape dims Ra : List ℕ} (hl : dims.length = Ra.length)
    (hlt : ∀ d ∈ dims, d < shape.length)
    (hd : ∀ k < Ra.length, Ra.getD k 0 = 1 ∨ Ra.getD k 0 = shape.getD (dims.getD k 0) 0) :
    LinearContract xs Ra shape (fun L => [((1 : K), bidIdx dims Ra L)])
      (fun u => Lax.broadcastInDim (shape ++ u.shape.drop Ra.length) dims u) := by
  refine ⟨?_, ?_⟩
  · intro L hL t ht
    rw [List.mem_singleton] at ht
    subst ht
    exact bidIdx_valid hlt hl hd hL
  · intro i u s hu h
    have hdrop : u.shape.drop Ra.length = (List.replicate i xs).flatten := by rw [hu]; simp
    simp only [hdrop] at h
    unfold Lax.broadcastInDim at h
    split_ifs at h with hc
    · cases h
      obtain ⟨h1, rfl⟩ := hc
      have hRa : Ra = [] := List.eq_nil_of_length_eq_zero (by simpa using hl.symm)
      subst hRa
      have hshape : shape = [] := by
        have : u.ndim = (List.replicate i xs).flatten.length := by show u.shape.length = _; rw [hu]; simp
        rw [this, List.length_append] at h1
        exact List.eq_nil_of_length_eq_zero (by omega)
      subst hshape
      refine ⟨hu, fun L J hL _ => ?_⟩
      cases hL
      simp [bidIdx]
    · unfold broadcastInDimP at h
      split_ifs at h with hc'
      cases h
      have hP := rep_nil_of_ndim hu (hl.symm.trans hc'.1)
      rw [hP, List.append_nil] at hu
      rw [hP]
      refine ⟨rfl, ?_⟩
      intro L J hL hJ
      cases hJ
      simp only [List.append_nil, List.map_cons, List.map_nil, List.sum_cons, List.sum_nil, one_mul, add_zero]
      have hn : u.ndim = Ra.length := by show u.shape.length = _; rw [hu]
      rw [hn, hu]
      rfl

end AB
