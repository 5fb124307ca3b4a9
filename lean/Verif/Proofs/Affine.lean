/-
Enclosures whose coefficients are an affine function of those of another one: evaluation, and the operations that give
such enclosures (negation, adding a constant, multiplying by a number).
-/
import Verif.Props.Gap
import Verif.Proofs.PolyExact
import Verif.Proofs.Counts

set_option linter.unusedSectionVars false
set_option linter.unusedSimpArgs false

namespace AB
variable {K : Type} [Field K] [LinearOrder K] [IsStrictOrderedRing K]

/-- the end points of a coefficient at an index -/
def cLo (c : Coef K) (L : List ℕ) : K := (TEA.toInterval c).1.get L
def cHi (c : Coef K) (L : List ℕ) : K := (TEA.toInterval c).2.get L

/-- `c'` is `k * c + s` -/
structure AffC (k : K) (s : List ℕ → K) (c c' : Coef K) : Prop where
  shape : c'.shape = c.shape
  wf : c'.WellFormed
  lo : ∀ L, ValidIdx c.shape L → cLo c' L = min (k * cLo c L) (k * cHi c L) + s L
  hi : ∀ L, ValidIdx c.shape L → cHi c' L = max (k * cLo c L) (k * cHi c L) + s L

/-- `E'` is `k * E + s`: the constant `s` is added to the first coefficient -/
structure AffE (k : K) (s : ND K) (E E' : Encl K) : Prop where
  len : E'.length = E.length
  head : ∀ c c', E[0]? = some c → E'[0]? = some c' → ble s.shape c.shape ∧ AffC k s.bget c c'
  tail : ∀ i c c', i ≠ 0 → E[i]? = some c → E'[i]? = some c' → AffC k (fun _ => 0) c c'

theorem cLo_le_cHi {c : Coef K} (h : c.WellFormed) {L : List ℕ} (hL : ValidIdx c.shape L) : cLo c L ≤ cHi c L := by
  cases c with
  | arr a => exact le_rfl
  | ivl l u => exact h.2 L hL

theorem AffE.coef {k : K} {s : ND K} {E E' : Encl K} (h : AffE k s E E') {i : ℕ} {c c' : Coef K} (hc : E[i]? = some c)
    (hc' : E'[i]? = some c') : AffC k (fun L => if i = 0 then s.bget L else 0) c c' := by
  by_cases hi : i = 0
  · subst hi
    simpa using (h.head c c' hc hc').2
  · simpa [hi] using h.tail i c c' hi hc hc'

theorem AffE.get {k : K} {s : ND K} {E E' : Encl K} (h : AffE k s E E') {i : ℕ} {c : Coef K} (hc : E[i]? = some c) :
    ∃ c', E'[i]? = some c' := by
  have := (List.getElem?_eq_some_iff.1 hc).1
  exact ⟨_, List.getElem?_eq_getElem (by rw [h.len]; exact this)⟩

theorem AffE.get' {k : K} {s : ND K} {E E' : Encl K} (h : AffE k s E E') {i : ℕ} {c : Coef K} (hc : E'[i]? = some c) :
    ∃ c', E[i]? = some c' := by
  have := (List.getElem?_eq_some_iff.1 hc).1
  exact ⟨_, List.getElem?_eq_getElem (by rw [← h.len]; exact this)⟩

theorem AffE.wf {k : K} {s : ND K} {E E' : Encl K} (h : AffE k s E E') : WellFormedEncl E' := by
  intro c' hc'
  obtain ⟨i, hi⟩ := List.mem_iff_getElem?.1 hc'
  obtain ⟨c, hc⟩ := h.get' hi
  exact (h.coef hc hi).wf

theorem AffE.ve {k : K} {s : ND K} {E E' : Encl K} (h : AffE k s E E') {xs R : List ℕ} (hV : VE xs R E) : VE xs R E' := by
  intro i c' hc'
  obtain ⟨c, hc⟩ := h.get' hc'
  obtain ⟨-, B, hB, hle⟩ := hV i c hc
  exact ⟨h.wf.wfe c' (List.mem_of_getElem? hc'), B, by rw [(h.coef hc hc').shape]; exact hB, hle⟩

theorem AffE.ve' {k : K} {s : ND K} {E E' : Encl K} (hE : WellFormedEncl E) (h : AffE k s E E') {xs R : List ℕ}
    (hV : VE xs R E') : VE xs R E := by
  intro i c hc
  obtain ⟨c', hc'⟩ := h.get hc
  obtain ⟨-, B, hB, hle⟩ := hV i c' hc'
  exact ⟨hE.wfe c (List.mem_of_getElem? hc), B, by rw [← (h.coef hc hc').shape]; exact hB, hle⟩

/-! ### evaluation -/

theorem list_sum_ite {α : Type} (l : List α) (f g : α → K) (k : K) (h : ∀ a ∈ l, f a = k * g a) :
    (l.map f).sum = k * (l.map g).sum := by
  induction l with
  | nil => simp
  | cons a l ih =>
    simp only [List.map_cons, List.sum_cons]
    rw [h a (List.mem_cons_self ..), ih fun b hb => h b (List.mem_cons_of_mem _ hb)]
    ring

theorem sumOver_affine {E E' : Encl K} {z : ND K} {g g' : Coef K → List ℕ → K → K} {k s : K} (hne : E ≠ [])
    (hlen : E'.length = E.length)
    (h0 : ∀ c c', E[0]? = some c → E'[0]? = some c' → g' c' [] 1 = k * g c [] 1 + s)
    (h : ∀ i c c', i ≠ 0 → E[i]? = some c → E'[i]? = some c' → ∀ J, ValidIdx (List.replicate i z.shape).flatten J →
      g' c' J (monomialAt z i J) = k * g c J (monomialAt z i J)) : sumOver E' z g' = k * sumOver E z g + s := by
  obtain ⟨n, hn⟩ : ∃ n, E.length = n + 1 := Nat.exists_eq_succ_of_ne_zero fun h => hne (List.length_eq_zero_iff.1 h)
  unfold sumOver
  rw [hlen, hn, List.range_succ_eq_map, List.map_cons, List.map_cons, List.sum_cons, List.sum_cons, List.map_map, List.map_map]
  have hg : ∀ {l : Encl K} {i : ℕ}, i < l.length → ∃ c, l[i]? = some c := fun hi => ⟨_, List.getElem?_eq_getElem hi⟩
  have e0 : ∀ f : List ℕ → K, ((idx (List.replicate 0 z.shape).flatten).map f).sum = f [] := by
    intro f
    simp [idx]
  have e1 : monomialAt z 0 [] = 1 := by simp [monomialAt, groups]
  rw [e0, e0, e1]
  obtain ⟨c, hc⟩ := hg (l := E) (i := 0) (by omega)
  obtain ⟨c', hc'⟩ := hg (l := E') (i := 0) (by omega)
  rw [hc, hc', Option.getD_some, Option.getD_some, h0 c c' hc hc']
  have : (List.map ((fun i => ((idx (List.replicate i z.shape).flatten).map fun J =>
      g' (E'[i]?.getD (.arr (ND.scalar 0))) J (monomialAt z i J)).sum) ∘ Nat.succ) (List.range n)).sum =
      k * (List.map ((fun i => ((idx (List.replicate i z.shape).flatten).map fun J =>
      g (E[i]?.getD (.arr (ND.scalar 0))) J (monomialAt z i J)).sum) ∘ Nat.succ) (List.range n)).sum := by
    refine list_sum_ite _ _ _ _ fun i hi => ?_
    have hi := List.mem_range.1 hi
    obtain ⟨c, hc⟩ := hg (l := E) (i := i + 1) (by omega)
    obtain ⟨c', hc'⟩ := hg (l := E') (i := i + 1) (by omega)
    refine list_sum_ite _ _ _ _ fun J hJ => ?_
    show g' (E'[i + 1]?.getD _) J _ = _
    rw [hc, hc', Option.getD_some, Option.getD_some]
    exact h _ c c' (by omega) hc hc' J (mem_idx.1 hJ)
  rw [this]
  ring

theorem mul_max_of_nonpos' {k a b : K} (hk : k ≤ 0) : k * max a b = min (k * a) (k * b) := by
  rcases le_total a b with h | h
  · rw [max_eq_right h, min_eq_right (mul_le_mul_of_nonpos_left h hk)]
  · rw [max_eq_left h, min_eq_left (mul_le_mul_of_nonpos_left h hk)]

theorem mul_min_of_nonpos' {k a b : K} (hk : k ≤ 0) : k * min a b = max (k * a) (k * b) := by
  rcases le_total a b with h | h
  · rw [min_eq_left h, max_eq_left (mul_le_mul_of_nonpos_left h hk)]
  · rw [min_eq_right h, max_eq_right (mul_le_mul_of_nonpos_left h hk)]

theorem affine_eval {k : K} {s : ND K} {E E' : Encl K} (hE : WellFormedEncl E) (hne : E ≠ []) (h : AffE k s E E') {z : ND K}
    {r : Coef K} (hr : Poly.evalTaylorEnclosure E (.arr z) = .ok r) (hs : ∀ c, E[0]? = some c → c.shape = r.shape) :
    ∃ r', Poly.evalTaylorEnclosure E' (.arr z) = .ok r' ∧ AffC k s.bget r r' := by
  obtain ⟨-, hV, hmin, -, -⟩ := eval_ok (Coef.WF_arr _) (zmem_self z) hE.wfe hr
  obtain ⟨r', hr', hle⟩ := eval_total (Z := .arr z) (Coef.WF_arr _) (zmem_self z) (h.ve hV)
  obtain ⟨-, hV', hmin', -, -⟩ := eval_ok (Coef.WF_arr _) (zmem_self z) h.wf.wfe hr'
  have hsh : r'.shape = r.shape := ble_antisymm (hmin' _ (h.ve hV)) (hmin _ (h.ve' hE hV'))
  have hwf' := eval_ordered h.wf hr'
  have hwf := eval_ordered hE hr
  obtain ⟨c0, hc0⟩ : ∃ c, E[0]? = some c := by
    cases E with
    | nil => exact absurd rfl hne
    | cons c l => exact ⟨c, rfl⟩
  obtain ⟨c0', hc0'⟩ := h.get hc0
  -- the end points of a coefficient at an index of the evaluation
  have ends : ∀ i c c', E[i]? = some c → E'[i]? = some c' → ∀ I J, ValidIdx r.shape I →
      ValidIdx (List.replicate i z.shape).flatten J →
      ∃ a b t : K, a ≤ b ∧ loAt c (I ++ J) = a ∧ hiAt c (I ++ J) = b ∧ (t = if i = 0 then s.bget I else 0) ∧
        loAt c' (I ++ J) = min (k * a) (k * b) + t ∧ hiAt c' (I ++ J) = max (k * a) (k * b) + t := by
    intro i c c' hc hc' I J hI hJ
    obtain ⟨-, B, hB, hle⟩ := hV i c hc
    have hv : ValidIdx c.shape (bidx c.shape (I ++ J)) := by
      refine validIdx_bidx (R := r.shape ++ IA.repS i z.shape) ?_ (validIdx_append hI hJ)
      rw [show c.shape = B ++ IA.repS i z.shape from hB]
      exact ble_append hle (ble_refl _) rfl
    have ha := h.coef hc hc'
    refine ⟨_, _, (fun L => if i = 0 then s.bget L else 0) (bidx c.shape (I ++ J)),
      cLo_le_cHi (hE c (List.mem_of_getElem? hc)) hv, rfl, rfl, ?_, ?_, ?_⟩
    · by_cases hi : i = 0
      · subst hi
        have hJ0 : J = [] := List.length_eq_zero_iff.1 (by simpa using hJ.length.symm)
        subst hJ0
        simp only [if_pos, List.append_nil]
        rw [hc0] at hc; cases hc
        exact ND.bget_bidx s (h.head c0 c' hc0 hc').1 (by rw [hs c0 hc0]; exact hI.length.le)
      · simp only [if_neg hi]
    · unfold loAt
      rw [ha.shape]
      exact ha.lo _ hv
    · unfold hiAt
      rw [ha.shape]
      exact ha.hi _ hv
  refine ⟨r', hr', hsh, hwf', fun I hI => ?_, fun I hI => ?_⟩
  all_goals
    have hI' : ValidIdx r'.shape I := by rw [hsh]; exact hI
    obtain ⟨p1, p2, -⟩ := C62_point_value hE hr hI
    obtain ⟨q1, q2, -⟩ := C62_point_value h.wf hr' hI'
    have hord := cLo_le_cHi hwf hI
    unfold cLo cHi at hord ⊢
    first | rw [q1] | rw [q2]
    rcases le_total 0 k with hk | hk
  · rw [min_eq_left (mul_le_mul_of_nonneg_left hord hk), p1]
    refine sumOver_affine hne h.len (fun c c' hc hc' => ?_) (fun i c c' hi hc hc' J hJ => ?_)
    · obtain ⟨a, b, t, hab, e1, e2, et, e3, e4⟩ := ends 0 c c' hc hc' I [] hI .nil
      rw [e1, e2, e3, e4, et, if_pos rfl, min_eq_left (mul_le_mul_of_nonneg_left hab hk),
        max_eq_right (mul_le_mul_of_nonneg_left hab hk)]
      simp only [mul_one]
      rw [min_eq_left hab, min_eq_left (add_le_add_left (mul_le_mul_of_nonneg_left hab hk) _)]
    · obtain ⟨a, b, t, hab, e1, e2, et, e3, e4⟩ := ends i c c' hc hc' I J hI hJ
      rw [e1, e2, e3, e4, et, if_neg hi, min_eq_left (mul_le_mul_of_nonneg_left hab hk),
        max_eq_right (mul_le_mul_of_nonneg_left hab hk), add_zero, add_zero, mul_assoc, mul_assoc, ← mul_min_of_nonneg _ _ hk]
  · rw [min_eq_right (mul_le_mul_of_nonpos_left hord hk), p2]
    refine sumOver_affine hne h.len (fun c c' hc hc' => ?_) (fun i c c' hi hc hc' J hJ => ?_)
    · obtain ⟨a, b, t, hab, e1, e2, et, e3, e4⟩ := ends 0 c c' hc hc' I [] hI .nil
      rw [e1, e2, e3, e4, et, if_pos rfl, min_eq_right (mul_le_mul_of_nonpos_left hab hk),
        max_eq_left (mul_le_mul_of_nonpos_left hab hk)]
      simp only [mul_one]
      rw [max_eq_right hab, min_eq_left (add_le_add_left (mul_le_mul_of_nonpos_left hab hk) _)]
    · obtain ⟨a, b, t, hab, e1, e2, et, e3, e4⟩ := ends i c c' hc hc' I J hI hJ
      rw [e1, e2, e3, e4, et, if_neg hi, min_eq_right (mul_le_mul_of_nonpos_left hab hk),
        max_eq_left (mul_le_mul_of_nonpos_left hab hk), add_zero, add_zero, mul_assoc, mul_assoc,
        min_comm, mul_max_of_nonpos' hk]
  · rw [max_eq_right (mul_le_mul_of_nonneg_left hord hk), p2]
    refine sumOver_affine hne h.len (fun c c' hc hc' => ?_) (fun i c c' hi hc hc' J hJ => ?_)
    · obtain ⟨a, b, t, hab, e1, e2, et, e3, e4⟩ := ends 0 c c' hc hc' I [] hI .nil
      rw [e1, e2, e3, e4, et, if_pos rfl, min_eq_left (mul_le_mul_of_nonneg_left hab hk),
        max_eq_right (mul_le_mul_of_nonneg_left hab hk)]
      simp only [mul_one]
      rw [max_eq_right hab, max_eq_right (add_le_add_left (mul_le_mul_of_nonneg_left hab hk) _)]
    · obtain ⟨a, b, t, hab, e1, e2, et, e3, e4⟩ := ends i c c' hc hc' I J hI hJ
      rw [e1, e2, e3, e4, et, if_neg hi, min_eq_left (mul_le_mul_of_nonneg_left hab hk),
        max_eq_right (mul_le_mul_of_nonneg_left hab hk), add_zero, add_zero, mul_assoc, mul_assoc, ← mul_max_of_nonneg _ _ hk]
  · rw [max_eq_left (mul_le_mul_of_nonpos_left hord hk), p1]
    refine sumOver_affine hne h.len (fun c c' hc hc' => ?_) (fun i c c' hi hc hc' J hJ => ?_)
    · obtain ⟨a, b, t, hab, e1, e2, et, e3, e4⟩ := ends 0 c c' hc hc' I [] hI .nil
      rw [e1, e2, e3, e4, et, if_pos rfl, min_eq_right (mul_le_mul_of_nonpos_left hab hk),
        max_eq_left (mul_le_mul_of_nonpos_left hab hk)]
      simp only [mul_one]
      rw [min_eq_left hab, max_eq_right (add_le_add_left (mul_le_mul_of_nonpos_left hab hk) _)]
    · obtain ⟨a, b, t, hab, e1, e2, et, e3, e4⟩ := ends i c c' hc hc' I J hI hJ
      rw [e1, e2, e3, e4, et, if_neg hi, min_eq_right (mul_le_mul_of_nonpos_left hab hk),
        max_eq_left (mul_le_mul_of_nonpos_left hab hk), add_zero, add_zero, mul_assoc, mul_assoc,
        max_comm, mul_min_of_nonpos' hk]

/-! ### the operations -/

theorem map2_into {f : K → K → K} {a s : ND K} (hs : ble s.shape a.shape) :
    ND.map2 f a s = .ok ⟨a.shape, fun I => f (a.bget I) (s.bget I)⟩ ∧
      ND.map2 f s a = .ok ⟨a.shape, fun I => f (s.bget I) (a.bget I)⟩ := by
  simp only [ND.map2, bshape_eq_of_ble hs, bshape_eq_of_ble' hs, and_self]

theorem arr_wellFormed (b : ND K) : (Coef.arr b).WellFormed := ⟨trivial, trivial⟩

theorem AffC.negative {c : Coef K} (h : c.WellFormed) : AffC (-1) (fun _ => 0) c (IA.negative c) := by
  cases c with
  | arr a =>
    refine ⟨rfl, arr_wellFormed _, fun L _ => ?_, fun L _ => ?_⟩ <;> simp [cLo, cHi, IA.negative, TEA.toInterval, ND.map]
  | ivl l u =>
    have hsh : l.shape = u.shape := h.1
    refine ⟨hsh.symm, ⟨hsh.symm, fun L hL => neg_le_neg (h.2 L (show ValidIdx l.shape L by rw [hsh]; exact hL))⟩, fun L hL => ?_, fun L hL => ?_⟩
    · have := h.2 L hL
      simp only [cLo, cHi, IA.negative, TEA.toInterval, ND.map, neg_one_mul, add_zero]
      rw [min_eq_right (neg_le_neg this)]
    · have := h.2 L hL
      simp only [cLo, cHi, IA.negative, TEA.toInterval, ND.map, neg_one_mul, add_zero]
      rw [max_eq_left (neg_le_neg this)]

theorem AffC.add {c : Coef K} (h : c.WellFormed) {s : ND K} (hs : ble s.shape c.shape) :
    (∃ c', IA.add c (.arr s) = .ok c' ∧ AffC 1 s.bget c c') ∧ ∃ c', IA.add (.arr s) c = .ok c' ∧ AffC 1 s.bget c c' := by
  cases c with
  | arr a =>
    have hs : ble s.shape a.shape := hs
    have h' : ∀ b : ND K, (Coef.arr b).WellFormed := fun b => arr_wellFormed b
    refine ⟨⟨.arr ⟨a.shape, fun I => a.bget I + s.bget I⟩, by simp only [IA.add, (map2_into hs).1]; rfl, rfl, h' _, fun L hL => ?_, fun L hL => ?_⟩,
      ⟨.arr ⟨a.shape, fun I => s.bget I + a.bget I⟩, by simp only [IA.add, (map2_into hs).2]; rfl, rfl, h' _, fun L hL => ?_, fun L hL => ?_⟩⟩
    all_goals
      have hL : ValidIdx a.shape L := hL
      simp only [cLo, cHi, TEA.toInterval, one_mul, min_self, max_self, ND.bget_valid _ hL]
    all_goals ring
  | ivl l u =>
    have hsh : l.shape = u.shape := h.1
    have hs : ble s.shape l.shape := hs
    have hs' : ble s.shape u.shape := hsh ▸ hs
    have hord := h.2
    refine ⟨⟨.ivl ⟨l.shape, fun I => l.bget I + s.bget I⟩ ⟨u.shape, fun I => u.bget I + s.bget I⟩, by simp only [IA.add, (map2_into hs).1, (map2_into hs').1]; rfl, rfl, ⟨hsh, fun L hL => ?_⟩, fun L hL => ?_, fun L hL => ?_⟩,
      ⟨.ivl ⟨l.shape, fun I => s.bget I + l.bget I⟩ ⟨u.shape, fun I => s.bget I + u.bget I⟩, by simp only [IA.add, (map2_into hs).2, (map2_into hs').2]; rfl, rfl, ⟨hsh, fun L hL => ?_⟩, fun L hL => ?_, fun L hL => ?_⟩⟩
    all_goals
      have hL : ValidIdx l.shape L := hL
      have hL' : ValidIdx u.shape L := hsh ▸ hL
      have := hord L hL
      simp only [cLo, cHi, TEA.toInterval, one_mul, min_eq_left this, max_eq_right this, ND.bget_valid _ hL, ND.bget_valid _ hL']
    all_goals linarith

theorem AffC.trans {k : K} {s : List ℕ → K} {c d e : Coef K} (h1 : AffC k (fun _ => 0) c d) (hd : d.WellFormed) (h2 : AffC 1 s d e) :
    AffC k s c e := by
  refine ⟨h2.shape.trans h1.shape, h2.wf, fun L hL => ?_, fun L hL => ?_⟩
  all_goals
    have hL' : ValidIdx d.shape L := by rw [h1.shape]; exact hL
    have := cLo_le_cHi hd hL'
  · rw [h2.lo L hL', one_mul, one_mul, min_eq_left this, h1.lo L hL, add_zero]
  · rw [h2.hi L hL', one_mul, one_mul, max_eq_right this, h1.hi L hL, add_zero]

theorem AffC.one {c : Coef K} (h : c.WellFormed) : AffC 1 (fun _ => 0) c c :=
  ⟨rfl, h, fun L hL => by rw [one_mul, one_mul, min_eq_left (cLo_le_cHi h hL), add_zero],
    fun L hL => by rw [one_mul, one_mul, max_eq_right (cLo_le_cHi h hL), add_zero]⟩

variable {T : TEA K}

theorem AffE.negative {E E' : Encl K} (hE : WellFormedEncl E) (hl : E.length ≤ T.maxDegree + 1) (h : T.negative E = .ok E') :
    AffE (-1) (ND.scalar 0) E E' := by
  unfold TEA.negative TEA.truncateIfNecessary at h
  rw [TEA.encloseEnclosure_short (by rw [List.length_map]; exact hl)] at h
  cases h
  have key : ∀ (i : ℕ) (c c' : Coef K), E[i]? = some c → (E.map IA.negative)[i]? = some c' → AffC (-1) (fun _ => 0) c c' := by
    intro i c c' h1 h2
    rw [List.getElem?_map, h1] at h2
    cases h2
    exact AffC.negative (hE c (List.mem_of_getElem? h1))
  exact ⟨List.length_map .., fun c c' h1 h2 => ⟨ble_nil _, key 0 c c' h1 h2⟩, fun i c c' _ h1 h2 => key i c c' h1 h2⟩

theorem AffE.addCoeffs {E E' : Encl K} (hE : WellFormedEncl E) {s : ND K} (hne : E ≠ [])
    (hs : ∀ c, E[0]? = some c → ble s.shape c.shape) (h : TEA.addCoeffs E [.arr s] = .ok E' ∨ TEA.addCoeffs [.arr s] E = .ok E') :
    AffE 1 s E E' := by
  have hpos : 0 < E.length := List.length_pos_iff.2 hne
  have key : E'.length = E.length ∧ ∀ i : ℕ, (i ≠ 0 → E'[i]? = E[i]?) ∧ ∀ c c', E[0]? = some c → E'[0]? = some c' →
      AffC 1 s.bget c c' := by
    rcases h with h | h
    all_goals
      obtain ⟨h1, h2⟩ := addCoeffs_get h
      refine ⟨by simp only [List.length_cons, List.length_nil] at h1; omega, fun i => ⟨fun hi => ?_, fun c c' hc hc' => ?_⟩⟩
    · exact (h2 i).2.2 (by simp; omega)
    · obtain ⟨r, hr, hr'⟩ := (h2 0).1 c (.arr s) hc rfl
      obtain ⟨c1, hc1, ha⟩ := (AffC.add (hE c (List.mem_of_getElem? hc)) (hs c hc)).1
      rw [hc'] at hr
      cases hr
      rw [hc1] at hr'
      cases hr'
      exact ha
    · exact (h2 i).2.1 (by simp; omega)
    · obtain ⟨r, hr, hr'⟩ := (h2 0).1 (.arr s) c rfl hc
      obtain ⟨c1, hc1, ha⟩ := (AffC.add (hE c (List.mem_of_getElem? hc)) (hs c hc)).2
      rw [hc'] at hr
      cases hr
      rw [hc1] at hr'
      cases hr'
      exact ha
  refine ⟨key.1, fun c c' hc hc' => ⟨hs c hc, (key.2 0).2 c c' hc hc'⟩, fun i c c' hi hc hc' => ?_⟩
  rw [(key.2 i).1 hi, hc] at hc'
  cases hc'
  exact AffC.one (hE c (List.mem_of_getElem? hc))

theorem AffE.add {E E' : Encl K} (hE : WellFormedEncl E) (hl : E.length ≤ T.maxDegree + 1) {s : ND K} (hne : E ≠ [])
    (hs : ∀ c, E[0]? = some c → ble s.shape c.shape) (h : T.add E [.arr s] = .ok E' ∨ T.add [.arr s] E = .ok E') :
    AffE 1 s E E' := by
  have hpos : 0 < E.length := List.length_pos_iff.2 hne
  refine AffE.addCoeffs hE hne hs ?_
  unfold TEA.add TEA.truncateIfNecessary at h
  simp only [py_bind_ok] at h
  rcases h with ⟨F, hF, h⟩ | ⟨F, hF, h⟩
  all_goals
    have := TEA.addCoeffs_length hF
    rw [TEA.encloseEnclosure_short (by rw [this]; simp only [List.length_cons, List.length_nil]; omega)] at h
    cases h
  · exact Or.inl hF
  · exact Or.inr hF

theorem AffE.trans {k : K} {s s0 : ND K} {E F G : Encl K} (hs0 : ∀ I, s0.bget I = 0) (h1 : AffE k s0 E F) (h2 : AffE 1 s F G) : AffE k s E G := by
  have hz : s0.bget = fun _ => 0 := funext hs0
  refine ⟨h2.len.trans h1.len, fun c e hc he => ?_, fun i c e hi hc he => ?_⟩
  · obtain ⟨d, hd⟩ := h1.get hc
    have a := (h1.head c d hc hd).2
    obtain ⟨b1, b2⟩ := h2.head d e hd he
    rw [hz] at a
    exact ⟨by rw [← a.shape]; exact b1, a.trans a.wf b2⟩
  · obtain ⟨d, hd⟩ := h1.get hc
    have a := h1.tail i c d hi hc hd
    exact a.trans a.wf (h2.tail i d e hi hd he)

theorem AffE.sub {E E' : Encl K} (hE : WellFormedEncl E) (hl : E.length ≤ T.maxDegree + 1) {s : ND K} (hne : E ≠ [])
    (hs : ∀ c, E[0]? = some c → ble s.shape c.shape) (h : T.subtract E [.arr s] = .ok E') : AffE 1 (s.map (- ·)) E E' := by
  unfold TEA.subtract at h
  simp only [py_bind_ok] at h
  obtain ⟨N, hN, h⟩ := h
  have hN' : N = [.arr (s.map (- ·))] := by
    unfold TEA.negative TEA.truncateIfNecessary at hN
    rw [TEA.encloseEnclosure_short (by simp)] at hN
    cases hN
    rfl
  subst hN'
  exact AffE.add hE hl hne hs (Or.inl h)

theorem AffE.rsub {E E' : Encl K} (hE : WellFormedEncl E) (hl : E.length ≤ T.maxDegree + 1) {s : ND K} (hne : E ≠ [])
    (hs : ∀ c, E[0]? = some c → ble s.shape c.shape) (h : T.subtract [.arr s] E = .ok E') : AffE (-1) s E E' := by
  unfold TEA.subtract at h
  simp only [py_bind_ok] at h
  obtain ⟨N, hN, h⟩ := h
  have hA := AffE.negative hE hl hN
  refine AffE.trans (fun I => rfl) hA (AffE.add hA.wf (by rw [hA.len]; exact hl) ?_ ?_ (Or.inr h))
  · intro h0
    have := hA.len
    rw [h0] at this
    exact hne (List.length_eq_zero_iff.1 this.symm)
  · intro c hc
    obtain ⟨d, hd⟩ := hA.get' hc
    rw [(hA.head d c hd hc).2.shape]
    exact hs d hd

/-! ### multiplication by a number -/

/-- one step of a loop that adds `f i c` to the entry `i` -/
def mulStep {F : Type} (add : F → F → Py F) (f : ℕ → F → Py F) (out : List F) (x : ℕ × F) : Py (List F) := do
  let t ← f x.1 x.2
  match out[x.1]? with
  | none => .error .indexError
  | some o => return out.set x.1 (← add o t)

theorem enum_append_one {F : Type} (a : List F) (c : F) : Poly.enum (a ++ [c]) = Poly.enum a ++ [(a.length, c)] := by
  simp [Poly.enum, List.range_succ, List.zip_append]

theorem mulFold {F : Type} {add : F → F → Py F} {f : ℕ → F → Py F} {zero : F} {n : ℕ} (a : List F) {out : List F} (hn : a.length ≤ n)
    (h : (Poly.enum a).foldlM (mulStep add f) (List.replicate n zero) = .ok out) :
    out.length = n ∧ (∀ i, a.length ≤ i → out[i]? = (List.replicate n zero)[i]?) ∧
      ∀ i c, a[i]? = some c → ∃ t r, f i c = .ok t ∧ add zero t = .ok r ∧ out[i]? = some r := by
  induction a using List.reverseRecOn generalizing out with
  | nil =>
    cases h
    exact ⟨by simp, fun i _ => rfl, fun i c hc => by simp at hc⟩
  | append_singleton a c ih =>
    rw [enum_append_one, List.foldlM_append, py_bind_ok] at h
    obtain ⟨o1, h1, h2⟩ := h
    rw [List.length_append, List.length_singleton] at hn
    obtain ⟨i1, i2, i3⟩ := ih (by omega) h1
    simp only [List.foldlM_cons, List.foldlM_nil, mulStep, py_bind_ok] at h2
    obtain ⟨o2, ⟨t, ht, h3⟩, h2⟩ := h2
    have hz : o1[a.length]? = some zero := by
      rw [i2 _ le_rfl, List.getElem?_replicate, if_pos (by omega)]
    rw [hz] at h3
    simp only [py_bind_ok, py_pure] at h3
    obtain ⟨r, hr, h3⟩ := h3
    cases h2
    cases h3
    refine ⟨by rw [List.length_set, i1], fun i hi => ?_, fun i d hd => ?_⟩
    · rw [List.length_append, List.length_singleton] at hi
      rw [List.getElem?_set_ne (by omega)]
      exact i2 i (by omega)
    · rcases Nat.lt_trichotomy i a.length with hi | hi | hi
      · rw [List.getElem?_append_left hi] at hd
        obtain ⟨t', r', q1, q2, q3⟩ := i3 i d hd
        exact ⟨t', r', q1, q2, by rw [List.getElem?_set_ne (by omega)]; exact q3⟩
      · subst hi
        rw [List.getElem?_concat_length] at hd
        cases hd
        exact ⟨t, r, ht, hr, by rw [List.getElem?_set_self (by omega)]⟩
      · rw [List.getElem?_eq_none (by simp; omega)] at hd
        cases hd

theorem scaleOp {k : K} {n : ℕ} {u : ND K} (hn : n ≤ u.shape.length) :
    pairwiseBatchedMultiply u (ND.scalar k) n 0 = .ok ⟨u.shape, fun I => u.bget I * k⟩ ∧
      pairwiseBatchedMultiply (ND.scalar k) u 0 n = .ok ⟨u.shape, fun I => k * u.bget I⟩ := by
  have hv : ∀ m, ((ND.scalar k : ND K).expandDims n m).shape = List.replicate n 1 := fun m => by
    simp [ND.expandDims, ND.scalar]
  have hvg : ∀ m I, ((ND.scalar k : ND K).expandDims n m).bget I = k := fun m I => rfl
  have hus : ∀ m, (u.expandDims 0 m).shape = u.shape := fun m => by simp [ND.expandDims]
  have hug : ∀ m I, (u.expandDims 0 m).bget I = u.bget I := fun m I => by
    have := hus m
    rw [ND.bget_def, ND.bget_def, this]
    simp [ND.expandDims]
  have hb := ble_ones (T := u.shape) hn
  constructor
  · unfold pairwiseBatchedMultiply
    simp only [ND.map2, hv, hus, hvg, hug, bshape_eq_of_ble' hb]
  · unfold pairwiseBatchedMultiply
    simp only [ND.map2, hv, hus, hvg, hug, bshape_eq_of_ble hb]

theorem AffC.scale {k : K} {c : Coef K} (h : c.WellFormed) {n i : ℕ} (hn : i * n ≤ c.ndim) :
    (∃ t, elementwiseTermProductCoefficient n c (.arr (ND.scalar k)) i 0 = .ok t ∧ AffC k (fun _ => 0) c t) ∧
      ∃ t, elementwiseTermProductCoefficient n (.arr (ND.scalar k)) c 0 i = .ok t ∧ AffC k (fun _ => 0) c t := by
  cases c with
  | arr a =>
    have hn : i * n ≤ a.shape.length := hn
    obtain ⟨e1, e2⟩ := scaleOp (k := k) hn
    refine ⟨⟨.arr ⟨a.shape, fun I => a.bget I * k⟩, ?_, rfl, arr_wellFormed _, fun L hL => ?_, fun L hL => ?_⟩,
      ⟨.arr ⟨a.shape, fun I => k * a.bget I⟩, ?_, rfl, arr_wellFormed _, fun L hL => ?_, fun L hL => ?_⟩⟩
    · simp only [elementwiseTermProductCoefficient, IA.arbitraryBilinear, Nat.zero_mul, e1]; rfl
    rotate_left 2
    · simp only [elementwiseTermProductCoefficient, IA.arbitraryBilinear, Nat.zero_mul, e2]; rfl
    all_goals
      have hL : ValidIdx a.shape L := hL
      simp only [cLo, cHi, TEA.toInterval, min_self, max_self, ND.bget_valid _ hL, add_zero, mul_comm]
  | ivl l u =>
    have hsh : l.shape = u.shape := h.1
    have hn : i * n ≤ l.shape.length := hn
    obtain ⟨e1, e2⟩ := scaleOp (k := k) hn
    obtain ⟨e3, e4⟩ := scaleOp (k := k) (u := u) (n := i * n) (by rw [← hsh]; exact hn)
    have hm : ∀ (f : K → K → K) (p q : List ℕ → K), ND.map2 f ⟨l.shape, p⟩ ⟨u.shape, q⟩ =
        .ok ⟨l.shape, fun I => f ((⟨l.shape, p⟩ : ND K).bget I) ((⟨u.shape, q⟩ : ND K).bget I)⟩ := by
      intro f p q
      exact (map2_into (f := f) (a := ⟨l.shape, p⟩) (s := ⟨u.shape, q⟩) (by rw [show u.shape = l.shape from hsh.symm]; exact ble_refl _)).1
    refine ⟨⟨.ivl ⟨l.shape, fun I => min ((⟨l.shape, fun I => l.bget I * k⟩ : ND K).bget I) ((⟨u.shape, fun I => u.bget I * k⟩ : ND K).bget I)⟩
        ⟨l.shape, fun I => max ((⟨l.shape, fun I => l.bget I * k⟩ : ND K).bget I) ((⟨u.shape, fun I => u.bget I * k⟩ : ND K).bget I)⟩, ?_, rfl, ⟨rfl, fun L hL => ?_⟩, fun L hL => ?_, fun L hL => ?_⟩,
      ⟨.ivl ⟨l.shape, fun I => min ((⟨l.shape, fun I => k * l.bget I⟩ : ND K).bget I) ((⟨u.shape, fun I => k * u.bget I⟩ : ND K).bget I)⟩
        ⟨l.shape, fun I => max ((⟨l.shape, fun I => k * l.bget I⟩ : ND K).bget I) ((⟨u.shape, fun I => k * u.bget I⟩ : ND K).bget I)⟩, ?_, rfl, ⟨rfl, fun L hL => ?_⟩, fun L hL => ?_, fun L hL => ?_⟩⟩
    · simp only [elementwiseTermProductCoefficient, IA.arbitraryBilinear, IA.bilinearProduct, IA.endpoints, List.flatMap_cons, List.flatMap_nil,
        List.map_cons, List.map_nil, List.append_nil, List.cons_append, List.nil_append, List.mapM_cons, List.mapM_nil, Nat.zero_mul, e1, e3,
        py_ok_bind, IA.reduce, List.foldlM_cons, List.foldlM_nil, if_true]
      simp only [pure, Except.pure, py_ok_bind, IA.reduce, List.foldlM_cons, List.foldlM_nil, hm]
    rotate_left 3
    · simp only [elementwiseTermProductCoefficient, IA.arbitraryBilinear, IA.bilinearProduct, IA.endpoints, List.flatMap_cons, List.flatMap_nil,
        List.map_cons, List.map_nil, List.append_nil, List.cons_append, List.nil_append, List.mapM_cons, List.mapM_nil, Nat.zero_mul, e2, e4,
        py_ok_bind, IA.reduce, List.foldlM_cons, List.foldlM_nil, if_true]
      simp only [pure, Except.pure, py_ok_bind, IA.reduce, List.foldlM_cons, List.foldlM_nil, hm]
    all_goals
      have hL : ValidIdx l.shape L := hL
      have hL' : ValidIdx u.shape L := hsh ▸ hL
      have b : ∀ (S : List ℕ) (g : List ℕ → K), ValidIdx S L → (⟨S, g⟩ : ND K).bget L = g L := fun S g h => ND.bget_valid _ h
      simp only [cLo, cHi, TEA.toInterval, b _ _ hL, b _ _ hL', ND.bget_valid _ hL, ND.bget_valid _ hL', add_zero, mul_comm, min_le_max]

theorem AffE.scale {E E' : Encl K} (hE : WellFormedEncl E) (hl : E.length ≤ T.maxDegree + 1) {k : K}
    (h : T.multiply E [.arr (ND.scalar k)] = .ok E' ∨ T.multiply [.arr (ND.scalar k)] E = .ok E') :
    AffE k (ND.scalar 0) E E' := by
  -- the loop
  have key : ∃ f : ℕ → Coef K → Py (Coef K), (T.validate E = .ok ()) ∧
      (f = (fun i c => elementwiseTermProductCoefficient T.xNdim c (.arr (ND.scalar k)) i 0) ∨
        f = fun i c => elementwiseTermProductCoefficient T.xNdim (.arr (ND.scalar k)) c 0 i) ∧
      (Poly.enum E).foldlM (mulStep IA.add f) (List.replicate E.length (.arr (ND.scalar 0))) = .ok E' := by
    unfold TEA.multiply TEA.truncateIfNecessary at h
    simp only [py_bind_ok] at h
    rcases h with ⟨_, hv1, _, hv2, p, hp, h⟩ | ⟨_, hv1, _, hv2, p, hp, h⟩
    all_goals
      have hlen := JB.polyBilinear_length hp
      rw [List.length_replicate] at hlen
      rw [TEA.encloseEnclosure_short (by simp only [List.length_cons, List.length_nil] at hlen; omega)] at h
      cases h
      unfold Poly.arbitraryBilinear at hp
    · refine ⟨_, hv1, Or.inl rfl, ?_⟩
      have e : ((Poly.enum E).flatMap fun x => (Poly.enum [Coef.arr (ND.scalar k)]).map fun y => (x, y)) =
          (Poly.enum E).map fun x => (x, ((0 : ℕ), Coef.arr (ND.scalar k))) := by
        rw [← List.flatMap_singleton' ((Poly.enum E).map _), List.flatMap_map]
        rfl
      rw [e, List.foldlM_map, show E.length + [Coef.arr (ND.scalar k)].length - 1 = E.length from rfl] at hp
      exact hp
    · refine ⟨_, hv2, Or.inr rfl, ?_⟩
      have e : ((Poly.enum [Coef.arr (ND.scalar k)]).flatMap fun x => (Poly.enum E).map fun y => (x, y)) =
          (Poly.enum E).map fun x => (((0 : ℕ), Coef.arr (ND.scalar k)), x) := by
        show List.flatMap _ [((0 : ℕ), Coef.arr (ND.scalar k))] = _
        rw [List.flatMap_singleton]
      rw [e, List.foldlM_map, show [Coef.arr (ND.scalar k)].length + E.length - 1 = E.length by simp] at hp
      refine Eq.trans (congrArg (fun g => List.foldlM g _ (Poly.enum E)) ?_) hp
      funext out x
      unfold Poly.bilinearStep mulStep
      dsimp only
      rw [Nat.zero_add]
      cases elementwiseTermProductCoefficient T.xNdim (Coef.arr (ND.scalar k)) x.2 0 x.1 with
      | error e => rfl
      | ok t =>
        simp only [py_ok_bind]
        cases out[x.1]? <;> rfl
  obtain ⟨f, hv, hf, hfold⟩ := key
  obtain ⟨h1, -, h3⟩ := mulFold E le_rfl hfold
  have hnd : ∀ (i : ℕ) (c : Coef K), E[i]? = some c → i * T.xNdim ≤ c.ndim := by
    intro i c hc
    unfold TEA.validate at hv
    by_contra hlt
    split at hv
    · rename_i hall
      have := List.all_eq_true.1 hall (i, c) (Poly.mem_enum.2 hc)
      unfold TEA.coeffShapeOk at this
      have := congrArg List.length (eq_of_beq this)
      simp only [List.length_drop, TEA.rep, List.length_flatten, List.map_replicate, List.sum_replicate, smul_eq_mul] at this
      have e : T.xShape.length = T.xNdim := rfl
      have e' : c.shape.length = c.ndim := rfl
      rw [e, e'] at this
      omega
    · cases hv
  have hc : ∀ (i : ℕ) (c c' : Coef K), E[i]? = some c → E'[i]? = some c' → AffC k (fun _ => 0) c c' := by
    intro i c c' hc hc'
    have hcw := hE c (List.mem_of_getElem? hc)
    obtain ⟨t, r, q1, q2, q3⟩ := h3 i c hc
    rw [hc'] at q3
    cases q3
    have ha : AffC k (fun _ => 0) c t := by
      obtain ⟨⟨t1, w1, w2⟩, t2, w3, w4⟩ := AffC.scale (k := k) hcw (hnd i c hc)
      rcases hf with rfl | rfl
      · dsimp only at q1; rw [w1] at q1; cases q1; exact w2
      · dsimp only at q1; rw [w3] at q1; cases q1; exact w4
    obtain ⟨t', w1, w2⟩ := (AffC.add (s := ND.scalar 0) ha.wf (ble_nil _)).2
    rw [w1] at q2
    cases q2
    exact ha.trans ha.wf w2
  exact ⟨h1, fun c c' q1 q2 => ⟨ble_nil _, hc 0 c c' q1 q2⟩, fun i c c' _ q1 q2 => hc i c c' q1 q2⟩

end AB
