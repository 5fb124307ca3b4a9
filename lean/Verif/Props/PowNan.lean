/-
C75, continued: the identity argument, and what `taylor_bounds` returns for `x ** p` over a region on which
`pow_enclosure` answers (-inf, inf).
-/
import Verif.Props.EnclFloat
import Mathlib.Algebra.Polynomial.Coeff
import Mathlib.Data.List.GetD

set_option linter.unusedSectionVars false

namespace AB
open Flt FC PE
variable {K : Type} [Field K] [LinearOrder K] [IsStrictOrderedRing K]

namespace FT
open Polynomial

/-- coefficients of polynomials -/
noncomputable def polyG : Poly.Graded K K[X] where
  mul _ _ u v := u * v
  pow _ p u := u ^ p
  one := 1
  val i := (monomial i).toAddMonoidHom
  val_mul i j u v := by simp [monomial_mul_monomial]
  val_pow i p u := by simp [monomial_pow, mul_comm]
  val_one := by simp
  mul_zero := by simp
  zero_mul := by simp
  zero_pow := by simp

theorem pts_laws : Poly.Laws (polyG (K := K)) (fun _ c u => c = pt (fin u)) (fun _ c u => c = pt (fin u))
    (fun _ c u => c = pt (fin u)) (fun _ c u => c = pt (fin u)) (fun x y => .ok (x.add y)) (pt (fin 0))
    fun x y _ _ => .ok (x.multiply y) where
  hzero _ := rfl
  hsub h := h
  hadd h1 h2 h3 := by subst h1 h2; cases h3; rfl
  htpc h1 h2 h3 := by subst h1 h2; cases h3; rfl

theorem pts_powLaws : Poly.PowLaws (polyG (K := K)) (fun _ c u => c = pt (fin u)) (fun _ c u => c = pt (fin u))
    (fun _ c u => c = pt (fin u)) (pt (fin 1)) (fun c _ k => c.outerPower k)
    (fun n c => .ok ((pt (fin (n : K))).multiply c)) where
  hone := rfl
  htpow h1 h2 := by subst h1; rw [outerPower_fin] at h2; cases h2; rfl
  hsmul {i n x r u} h1 h2 := by subst h1; cases h2; rw [nsmul_eq_mul]; rfl

/-- the powers of `z` -/
theorem powerNat_id (t : FT K) {p : ℕ} (hp : p ≤ t.maxDegree) :
    t.powerNat [pt (fin 0), pt (fin 1)] p = .ok ((List.range (p + 1)).map fun i => pt (fin (if i = p then 1 else 0))) := by
  obtain ⟨q, hq, hl, -⟩ := Poly.integerPower_total (m := p) triv_laws (triv_powLaws (K := K) ((2 - 1) * p))
    (a := [pt (fin 0), pt (fin 1)]) (by simp) (fun _ _ _ => trivial)
  obtain ⟨-, u, u1, -, u3, -⟩ := Poly.integerPower_rel pts_laws pts_powLaws (a := [pt (fin (0 : K)), pt (fin 1)]) (by simp)
    (w := fun i => if i = 1 then 1 else 0) (fun j c hc => by
      match j with
      | 0 => simp at hc; subst hc; simp
      | 1 => simp at hc; subst hc; simp
      | j + 2 => simp at hc) hq
  have hl' : q.length = p + 1 := by rw [hl]; simp; omega
  have key : ∀ i < p + 1, u i = if i = p then 1 else 0 := by
    intro i hi
    have := congrArg (fun f => f.coeff i) u3
    simp only [polyG, hl', List.length_cons, List.length_nil, Finset.sum_range_succ, Finset.sum_range_zero, zero_add,
      LinearMap.toAddMonoidHom_coe, finset_sum_coeff, coeff_monomial, coeff_add] at this
    simp only [Nat.zero_ne_one, if_false, if_true, map_zero, zero_add, monomial_pow, one_pow, mul_one, coeff_monomial, one_mul] at this
    rw [← Finset.sum_range_succ (fun x => if x = i then u x else 0), Finset.sum_ite_eq' , if_pos (Finset.mem_range.2 hi)] at this
    rw [this]
    exact if_congr eq_comm rfl rfl
  have e : q = (List.range (p + 1)).map fun i => pt (fin (if i = p then 1 else 0)) := by
    apply List.ext_getElem?
    intro i
    by_cases hi : i < p + 1
    · have h1 : q[i]? = some q[i] := List.getElem?_eq_getElem (by omega)
      rw [h1, u1 i _ h1, key i hi]
      simp [hi]
    · rw [List.getElem?_eq_none (by omega), List.getElem?_eq_none (by simp; omega)]
  unfold FT.powerNat
  dsimp only
  rw [hq, py_ok_bind, e]
  unfold FT.enclose
  rw [if_pos (by simp; omega)]

theorem addCoeffs_shift {a : List (FC K)} {c : FC K} (ha : ∀ x ∈ a, ∃ v : K, x = pt (fin v)) :
    addCoeffs a ((List.replicate a.length (pt (fin 0))) ++ [c]) = a ++ [c] := by
  induction a with
  | nil => rfl
  | cons x a ih =>
    obtain ⟨v, rfl⟩ := ha x (by simp)
    show FC.add (pt (fin v)) (pt (fin 0)) :: addCoeffs a (List.replicate a.length (pt (fin 0)) ++ [c]) = _
    rw [ih fun y hy => ha y (by simp [hy])]
    show pt (fin (v + 0)) :: _ = _
    rw [add_zero]; rfl

/-- the interval `c` times 1 is `c` -/
def UnitOk (c : FC K) : Prop := c.multiply (pt (fin 1)) = c

theorem composeTerm_id (t : FT K) {p : ℕ} (hp0 : 0 < p) (hp : p ≤ t.maxDegree) {c : FC K} (hc : UnitOk c) :
    t.composeTerm [pt (fin 0), pt (fin 1)] p c = .ok (List.replicate p (pt (fin 0)) ++ [c]) := by
  unfold FT.composeTerm
  rw [if_neg (by omega), powerNat_id t hp, py_ok_bind]
  show Except.ok _ = Except.ok _
  congr 1
  apply List.ext_getElem?
  intro i
  rw [List.getElem?_map, Poly.enum_getElem?, List.getElem?_map]
  rcases lt_trichotomy i p with h | rfl | h
  · rw [List.getElem?_range (by omega), List.getElem?_append_left (by simpa using h), List.getElem?_replicate, if_pos h]
    simp [h]
  · rw [List.getElem?_range (by omega), List.getElem?_append_right (by simp)]
    simp
    exact hc
  · rw [List.getElem?_eq_none (by simp; omega), List.getElem?_eq_none (by simp; omega)]; rfl

theorem composeFold_id (t : FT K) (l : List (FC K)) (n : ℕ) (hn : 0 < n) (o : List (FC K)) (ho : o.length = n)
    (hpt : ∀ x ∈ o ++ l.dropLast, ∃ v : K, x = pt (fin v)) (hlen : n + l.length ≤ t.maxDegree + 1) (hu : ∀ c ∈ l, UnitOk c) :
    ((List.range' n l.length).zip l).foldlM (t.composeStep [pt (fin 0), pt (fin 1)]) o = .ok (o ++ l) := by
  induction l generalizing n o with
  | nil => simp
  | cons c l ih =>
    simp only [List.length_cons] at hlen
    have ho' : ∀ x ∈ o, ∃ v : K, x = pt (fin v) := fun x hx => hpt x (by simp [hx])
    rw [List.length_cons, List.range'_succ, List.zip_cons_cons, List.foldlM_cons]
    unfold FT.composeStep
    dsimp only
    rw [composeTerm_id t hn (by omega) (hu c (by simp)), py_ok_bind]
    unfold FT.add
    rw [show List.replicate n (pt (fin (0 : K))) = List.replicate o.length (pt (fin 0)) by rw [ho], addCoeffs_shift ho']
    unfold FT.enclose
    rw [if_pos (by simp; omega), py_ok_bind]
    cases l with
    | nil => simp
    | cons d l =>
      have := ih (n + 1) (by omega) (o ++ [c]) (by simp [ho]) (fun x hx => hpt x (by
        simp only [List.append_assoc, List.mem_append, List.mem_singleton, List.dropLast_cons_cons, List.mem_cons] at hx ⊢
        tauto)) (by omega) (fun x hx => hu x (by simp [hx]))
      rw [List.append_assoc] at this
      exact this

/-- composing with the identity changes nothing -/
theorem compose_id (t : FT K) (x0 : FC K) {cs : List K} {c : FC K} (hc : UnitOk c) (hne : cs ≠ [])
    (hlen : cs.length ≤ t.maxDegree) :
    t.compose (cs.map (fun v => pt (fin v)) ++ [c]) [x0, pt (fin 1)] = .ok (cs.map (fun v => pt (fin v)) ++ [c]) := by
  obtain ⟨a, cs, rfl⟩ := List.exists_cons_of_ne_nil hne
  simp only [List.length_cons] at hlen
  have hun : ∀ v : K, UnitOk (pt (fin v)) := fun v => by
    show pt (fin (v * 1)) = _; rw [mul_one]
  unfold FT.compose
  rw [if_neg (by simp)]
  have he : Poly.enum ((a :: cs).map (fun v => pt (fin v)) ++ [c]) =
      (0, pt (fin a)) :: (List.range' 1 (cs.map (fun v => pt (fin v)) ++ [c]).length).zip (cs.map (fun v => pt (fin v)) ++ [c]) := by
    unfold Poly.enum
    rw [List.range_eq_range']
    rfl
  rw [he, List.foldlM_cons]
  have h1 : t.composeStep (pt (fin 0) :: [x0, pt (fin 1)].drop 1) [pt (fin 0)] (0, pt (fin a)) = .ok [pt (fin a)] := by
    unfold FT.composeStep FT.composeTerm
    rw [if_pos rfl]
    show t.add [pt (fin 0)] [pt (fin a)] = _
    unfold FT.add FT.enclose
    rw [if_pos (by simp [addCoeffs])]
    show Except.ok [pt (fin (0 + a))] = _
    rw [zero_add]
  rw [h1, py_ok_bind]
  have := composeFold_id t (cs.map (fun v => pt (fin v)) ++ [c]) 1 one_pos [pt (fin a)] rfl (by
    intro x hx
    simp at hx
    rcases hx with rfl | ⟨v, -, rfl⟩
    · exact ⟨_, rfl⟩
    · exact ⟨_, rfl⟩) (by simp; omega) (by
    intro d hd
    rw [List.mem_append] at hd
    rcases hd with hd | hd
    · simp only [List.mem_map] at hd
      obtain ⟨v, -, rfl⟩ := hd; exact hun v
    · simp at hd; subst hd; exact hc)
  exact this

end FT
end AB

namespace AB
open Flt FC PE

/-- the region that `get_elementwise_fun` derives for the argument `x` itself is the trust region -/
theorem argRegion_id {k : ℕ} {x0 a b : ℝ} (hab : a ≤ b) :
    (FT.mk k (fin (a - x0)) (fin (b - x0))).argRegion [pt (fin x0), pt (fin 1)] = .ok (fin a, fin b) := by
  have hpow : ∀ u v : ℝ, u ≤ v → (iv (fin u) (fin v)).power 1 = iv (fin u) (fin v) := by
    intro u v huv
    show iv (fin (min (min (u ^ 1) (v ^ 1)) ((if (decide (u < 0) && decide (0 < v)) then 0 else 1) * u ^ 1))) (fin (max (u ^ 1) (v ^ 1))) = _
    rw [pow_one, pow_one, min_eq_left huv, max_eq_right huv]
    congr 2
    split_ifs with h
    · simp only [Bool.and_eq_true, decide_eq_true_eq] at h
      rw [zero_mul, min_eq_left h.1.le]
    · rw [one_mul, min_self]
  have hmul : ∀ u v : ℝ, u ≤ v → (pt (fin 1)).multiply (iv (fin u) (fin v)) = iv (fin u) (fin v) := by
    intro u v huv
    show iv (fin (min (1 * u) (1 * v))) (fin (max (1 * u) (1 * v))) = _
    rw [one_mul, one_mul, min_eq_left huv, max_eq_right huv]
  have h : (FT.mk k (fin (a - x0)) (fin (b - x0))).enclose [pt (fin x0), pt (fin 1)] 0 = .ok [iv (fin a) (fin b)] := by
    have hle : a - x0 ≤ b - x0 := by linarith
    have e2 : (pt (fin 0)).add ((pt (fin x0)).multiply (pt (fin 1))) = pt (fin x0) := by
      show pt (fin (0 + x0 * 1)) = _
      rw [mul_one, zero_add]
    have e4 : FC.add (pt (fin x0)) ((pt (fin 1)).multiply ((iv (fin (a - x0)) (fin (b - x0))).power 1)) = iv (fin a) (fin b) := by
      rw [hpow _ _ hle, hmul _ _ hle]
      show iv (fin (x0 + (a - x0))) (fin (x0 + (b - x0))) = _
      rw [add_sub_cancel, add_sub_cancel]
    show (Except.ok [FC.add ((pt (fin 0)).add ((pt (fin x0)).multiply (pt (fin 1))))
      ((pt (fin 1)).multiply ((iv (fin (a - x0)) (fin (b - x0))).power 1))] : Py _) = _
    rw [e2, e4]
  unfold FT.argRegion
  rw [h]; rfl

/-- The trust regions on which `pow_enclosure` says nothing: its answer is the interval (-inf, inf). -/
def PowUnbounded (p : Expo ℝ) (a b : ℝ) : Prop :=
  match p with
  | .int n => n < 0 ∧ a < 0 ∧ 0 < b
  | .frac _ => a < 0

/-- what `pow_enclosure` answers on them -/
theorem powEnclosureF_unbounded {p : Expo ℝ} {k : ℕ} {x0 a b : ℝ} (h : StartOk p k x0) (hu : PowUnbounded p a b) :
    powEnclosureF (fun x p : ℝ => x ^ p) p x0 a b k = .ok (((taylorCoeffs (powD p) k x0).take k).map fin, (ninf, pinf)) := by
  obtain ⟨rp, hrp⟩ := (C35_errors 1 p (k + 1)).2.2.1
  obtain ⟨e1, e2⟩ := powEnclosureF_eq h (a := a) (b := b) rfl rfl hrp
  cases p with
  | frac q => rw [e1 q rfl, if_neg (not_le.2 hu)]
  | int n =>
    obtain ⟨rn, hrn⟩ := (C35_errors 1 (.int n) (k + 1)).2.2.2 n
    rw [e2 n rn rfl hrn, if_neg (not_le.2 hu.2.1), if_neg (not_le.2 hu.2.2), if_pos hu.1]

theorem unitOk_unbounded : FT.UnitOk (iv (ninf : Flt ℝ) pinf) := by
  show FC.multiply (iv ninf pinf) (pt (fin 1)) = _
  rw [multiply_pt]
  show iv ((infMul false (1 : ℝ)).minimum (infMul true 1)) ((infMul false 1).maximum (infMul true 1)) = _
  simp [infMul, minimum, maximum]

/-- **C75 (`x ** p` over a region through 0).** `taylor_bounds` of `x ** p` for a scalar `x`, in every degree at least 1, over a
trust region `[a, b]` on which `pow_enclosure` says nothing (`1 / x` over a region around 0, say): it returns, both bounds are
infinite at every `x` other than `x0`, and both are NaN at `x0` itself, where the value `x0 ** p` is a number. -/
theorem C75_pow_nan {p : Expo ℝ} {k : ℕ} (hk : 0 < k) {x0 a b : ℝ} (hx0 : a ≤ x0 ∧ x0 ≤ b) (h : StartOk p k x0)
    (hu : PowUnbounded p a b) (other : Flt ℝ → Flt ℝ × Flt ℝ → ℕ → Py (List (FC ℝ))) :
    ∃ E, (FT.mk k (fin (a - x0)) (fin (b - x0))).elementwiseFun (powGenF (fun x p : ℝ => x ^ p) p other)
        [pt (fin x0), pt (fin 1)] = .ok E ∧ E.length = k + 1 ∧
      ∀ x, lowerAt E x0 x = .ok (if x = x0 then nan else ninf) ∧ upperAt E x0 x = .ok (if x = x0 then nan else pinf) := by
  have hl : ((taylorCoeffs (powD p) k x0).take k).length = k := by simp [taylorCoeffs]
  have hne : (taylorCoeffs (powD p) k x0).take k ≠ [] := by
    rw [← List.length_pos_iff, hl]; exact hk
  refine ⟨((taylorCoeffs (powD p) k x0).take k).map (fun v => pt (fin v)) ++ [iv ninf pinf], ?_,
    by rw [List.length_append, List.length_map, hl]; rfl, C75_unbounded hne x0⟩
  unfold FT.elementwiseFun
  rw [argRegion_id (hx0.1.trans hx0.2), py_ok_bind]
  show (powGenF _ p other (fin x0) (fin a, fin b) k >>= fun e => _) = _
  unfold powGenF
  dsimp only
  rw [powEnclosureF_unbounded h hu, py_ok_bind]
  show (FT.mk k _ _).compose _ _ = _
  rw [List.map_map]
  exact FT.compose_id _ _ unitOk_unbounded hne (by rw [hl])

/-- Reciprocals, the case met most often: `1 / x` bounded about `x0 ≠ 0` over any region around 0. -/
theorem C75_reciprocal {k : ℕ} (hk : 0 < k) {x0 a b : ℝ} (hx0 : a ≤ x0 ∧ x0 ≤ b) (h0 : x0 ≠ 0) (ha : a < 0) (hb : 0 < b)
    (other : Flt ℝ → Flt ℝ × Flt ℝ → ℕ → Py (List (FC ℝ))) :
    ∃ E, (FT.mk k (fin (a - x0)) (fin (b - x0))).elementwiseFun (powGenF (fun x p : ℝ => x ^ p) (.int (-1)) other)
        [pt (fin x0), pt (fin 1)] = .ok E ∧ lowerAt E x0 x0 = .ok nan ∧ upperAt E x0 x0 = .ok nan := by
  obtain ⟨E, h1, -, h2⟩ := C75_pow_nan (p := .int (-1)) hk hx0 (fun e => absurd e h0) ⟨by omega, ha, hb⟩ other
  refine ⟨E, h1, ?_⟩
  have := h2 x0
  simpa using this

theorem lowOk_of_below {l : Flt ℝ} {r : ℝ} (h : l.Below r) : l.LowOk r := by
  cases l <;> first | exact h | trivial
theorem highOk_of_above {l : Flt ℝ} {r : ℝ} (h : l.Above r) : l.HighOk r := by
  cases l <;> first | exact h | trivial

/-- **C75 (`x ** p` as a generator).** On every finite region and expansion point for which C34 is proved, `pow_enclosure` is a
right generator in the sense of `C75_elementwise` (for the `x` at which `x ** p` is a number), so the enclosure of `y ** p` is
right for every argument `y` - whose coefficients may be infinite - with that expansion point and region. -/
theorem C75_pow_generator {p : Expo ℝ} {k : ℕ} {x0 a b : ℝ} (hk : 0 < k) (hx0 : x0 ∈ Set.Icc a b) (h : StartOk p k x0)
    (hw : ¬ PowWrong p k a b) (ha : NotCapped x0 k a) (hb : NotCapped x0 k b)
    (other : Flt ℝ → Flt ℝ × Flt ℝ → ℕ → Py (List (FC ℝ))) :
    GenOk (powGenF (fun x p : ℝ => x ^ p) p other) (powFun p) (fun y => y ∈ powDomain p) k (fin x0) (fin a, fin b) := by
  intro e he
  obtain ⟨s, h1, h2, cs, h3, h4⟩ := C34_all_regions hx0 h hw ha hb
  unfold powGenF at he
  dsimp only at he
  rw [h1, py_ok_bind] at he
  cases he
  have hlen : cs.length = k := by rw [← h2, h3]; simp
  refine ⟨by simp [h2], fun y hy hin y0 hy0 => ?_⟩
  obtain rfl : x0 = y0 := hy0 hk
  obtain ⟨r, r1, r2, r3⟩ := h4 y ⟨⟨hin.1, hin.2⟩, hy⟩
  refine ⟨fun i => if i < k then cs.getD i 0 else r, ?_, ?_⟩
  · intro i c hc
    rw [h3, List.map_map] at hc
    by_cases hi : i < k
    · rw [List.getElem?_append_left (by simpa [hlen] using hi), List.getElem?_map, List.getElem?_eq_getElem (by omega)] at hc
      cases hc
      show cs[i] = _
      dsimp only
      rw [if_pos hi, List.getD_eq_getElem _ _ (by omega)]
    · rw [List.getElem?_append_right (by simp [hlen]; omega)] at hc
      obtain ⟨h, rfl⟩ := List.getElem?_eq_some_iff.1 hc
      have : i - (List.map (FC.pt ∘ fin) cs).length = 0 := by simp at h; simp; omega
      simp only [this, List.getElem_cons_zero]
      rw [if_neg hi]
      exact ⟨lowOk_of_below r1, highOk_of_above r2⟩
  · rw [r3]
    have : (List.map pt s.1 ++ [iv s.2.1 s.2.2]).length = k + 1 := by simp [h2]
    rw [this, Finset.sum_range_succ, hlen]
    beta_reduce
    rw [if_neg (lt_irrefl k)]
    congr 1
    refine Finset.sum_congr rfl fun i hi => ?_
    rw [if_pos (Finset.mem_range.1 hi)]

/-- **C75 (`y ** p`, soundness).** For every argument enclosure - with infinite and NaN coefficients or not - whose value at `x0`
is the number `y0` and whose derived region is the finite `[a, b]`: an enclosure of `y ** p` is returned, it contains `y ** p` at
every point of the trust region at which it is a number, and the bounds evaluated there are NaN or right. -/
theorem C75_pow {p : Expo ℝ} {k : ℕ} (hk : 0 < k) {y0 a b : ℝ} {lo hi : Flt ℝ} (hy0 : y0 ∈ Set.Icc a b) (h : StartOk p k y0)
    (hw : ¬ PowWrong p k a b) (ha : NotCapped y0 k a) (hb : NotCapped y0 k b)
    (other : Flt ℝ → Flt ℝ × Flt ℝ → ℕ → Py (List (FC ℝ))) {arg : List (FC ℝ)} (hhead : arg.head? = some (pt (fin y0)))
    (hreg : (FT.mk k lo hi).argRegion arg = .ok (fin a, fin b)) :
    ∃ E, (FT.mk k lo hi).elementwiseFun (powGenF (fun x p : ℝ => x ^ p) p other) arg = .ok E ∧
      ∀ x0 x y : ℝ, (iv lo hi).Has (x - x0) → EnclHas arg (x - x0) y → y ∈ powDomain p →
        EnclHas E (x - x0) (powFun p y) ∧
        ∃ l u, lowerAt E x0 x = .ok l ∧ upperAt E x0 x = .ok u ∧ l.LowOk (powFun p y) ∧ u.HighOk (powFun p y) := by
  obtain ⟨E, hE⟩ : ∃ E, (FT.mk k lo hi).elementwiseFun (powGenF (fun x p : ℝ => x ^ p) p other) arg = .ok E := by
    obtain ⟨s, h1, -⟩ := C34_all_regions hy0 h hw ha hb
    cases arg with
    | nil => cases hhead
    | cons c l =>
      cases hhead
      unfold FT.elementwiseFun
      rw [hreg, py_ok_bind]
      show ∃ E, (powGenF _ p other (fin y0) (fin a, fin b) k >>= fun e => _) = .ok E
      unfold powGenF
      dsimp only
      rw [h1, py_ok_bind]
      exact FT.compose_returns _ (by simp)
  refine ⟨E, hE, fun x0 x y hx hy hdom => ?_⟩
  have key := (C75_elementwise (t := ⟨k, lo, hi⟩) hx (gen := powGenF (fun x p : ℝ => x ^ p) p other) (f := powFun p)
    (D := fun y => y ∈ powDomain p) hy hdom (fun c z reg hc hz hr => by
      rw [hhead] at hc; cases hc
      cases hz
      rw [hreg] at hr; cases hr
      exact C75_pow_generator hk hy0 h hw ha hb other) hE).1
  exact ⟨key, C75_bounds key⟩

/-- A case that meets the hypotheses of `C75_pow`: `1 / x` about 2 over [1, 3], degree 2, evaluated at 5/2. -/
example : ∃ E l u, (FT.mk 2 (fin (1 - 2)) (fin (3 - 2))).elementwiseFun
      (powGenF (fun x p : ℝ => x ^ p) (.int (-1)) fun _ _ _ => .ok []) [pt (fin (2 : ℝ)), pt (fin 1)] = .ok E ∧
    lowerAt E 2 (5 / 2) = .ok l ∧ upperAt E 2 (5 / 2) = .ok u ∧ l.LowOk (2 / 5) ∧ u.HighOk (2 / 5) := by
  have hreg := argRegion_id (k := 2) (x0 := 2) (a := 1) (b := 3) (by norm_num)
  obtain ⟨E, hE, hs⟩ := C75_pow (p := .int (-1)) (k := 2) two_pos (y0 := 2) (a := 1) (b := 3) (by norm_num [Set.mem_Icc])
    (fun h => by norm_num at h) (by simp only [PowWrong]; norm_num) (by norm_num [NotCapped]) (by norm_num [NotCapped])
    (fun _ _ _ => .ok []) (arg := [pt (fin 2), pt (fin 1)]) rfl hreg
  obtain ⟨-, l, u, g1, g2, g3, g4⟩ := hs 2 (5 / 2) (5 / 2)
    ⟨by show (1 : ℝ) - 2 ≤ _; norm_num, by show _ ≤ (3 : ℝ) - 2; norm_num⟩
    ⟨fun i => if i = 0 then 2 else 1, by
      intro i c hc
      match i with
      | 0 => simp at hc; subst hc; rfl
      | 1 => simp at hc; subst hc; rfl
      | i + 2 => simp at hc, by simp [Finset.sum_range_succ]⟩ (Or.inr (by norm_num))
  refine ⟨E, l, u, hE, g1, g2, ?_⟩
  have : powFun (.int (-1)) (5 / 2 : ℝ) = 2 / 5 := by simp [powFun]
  rw [this] at g3 g4
  exact ⟨g3, g4⟩

/-- A case that meets the hypotheses of `C75_pow_nan`: `1 / x` about 1 over [-1, 2], in degree 2. -/
example : ∃ E, (FT.mk 2 (fin (-1 - 1)) (fin (2 - 1))).elementwiseFun
      (powGenF (fun x p : ℝ => x ^ p) (.int (-1)) fun _ _ _ => .ok []) [pt (fin (1 : ℝ)), pt (fin 1)] = .ok E ∧
    lowerAt E 1 1 = .ok nan ∧ upperAt E 1 1 = .ok nan :=
  C75_reciprocal two_pos (by norm_num) one_ne_zero (by norm_num) (by norm_num) _

end AB
