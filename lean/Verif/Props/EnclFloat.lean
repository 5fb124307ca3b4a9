/-
C75: interval and Taylor-enclosure arithmetic with infinite and NaN end points.
-/
import Verif.Proofs.EnclFloat2
import Verif.Proofs.Total
import Verif.Props.PowFloat

set_option linter.unusedSectionVars false

namespace AB
open Flt FC
variable {K : Type} [Field K] [LinearOrder K] [IsStrictOrderedRing K]

/-- **C75 (intervals).** With infinite or NaN end points, every interval operation is still right about every end point
of its result that is not NaN: it contains the results for members of the arguments. -/
theorem C75_interval {A B : FC K} {r s : K} (hA : A.Has r) (hB : B.Has s) (k : ℕ) :
    (A.add B).Has (r + s) ∧ (A.subtract B).Has (r - s) ∧ A.negative.Has (-r) ∧ (A.multiply B).Has (r * s) ∧
      (A.power k).Has (r ^ k) :=
  ⟨hA.add hB, hA.subtract hB, hA.negative, hA.multiply hB, hA.power k⟩

/-! ### the operations return -/

namespace FT

theorem outerPower_returns (c : FC K) (k : ℕ) : ∃ r, c.outerPower (k : ℤ) = .ok r := by
  unfold FC.outerPower; rw [if_neg (by omega)]; split_ifs <;> exact ⟨_, rfl⟩

theorem evalFold_returns (Z : FC K) (l : List (FC K)) (st : ℕ × FC K) :
    ∃ r, l.foldlM (Poly.evalStep Z (fun a b => .ok (FC.multiply a b)) outerPower (fun a b => .ok (FC.add a b))
      (pt (fin 1))) st = .ok r := by
  induction l generalizing st with
  | nil => exact ⟨_, rfl⟩
  | cons c l ih =>
    obtain ⟨st', h⟩ : ∃ st', Poly.evalStep Z (fun a b => .ok (FC.multiply a b)) outerPower (fun a b => .ok (FC.add a b))
        (pt (fin 1)) st c = .ok st' := by
      unfold Poly.evalStep
      dsimp only
      split_ifs
      · obtain ⟨r, hr⟩ := outerPower_returns Z st.1
        rw [hr]; exact ⟨_, rfl⟩
      · exact ⟨_, rfl⟩
    obtain ⟨r, hr⟩ := ih st'
    exact ⟨r, by rw [List.foldlM_cons, h, py_ok_bind]; exact hr⟩

theorem enclose_returns (t : FT K) (a : List (FC K)) (m : ℕ) : ∃ r, t.enclose a m = .ok r := by
  unfold FT.enclose
  split_ifs
  · exact ⟨_, rfl⟩
  · obtain ⟨r, hr⟩ := evalFold_returns (iv t.trLo t.trHi) (a.drop m) (0, pt (fin 0))
    unfold evalTaylor Poly.evalPolynomial
    rw [hr]; exact ⟨_, rfl⟩

theorem triv_laws : Poly.TLaws (fun _ _ => True) (fun _ _ => True) (fun _ _ => True) (fun _ _ => True)
    (fun x y : FC K => .ok (x.add y)) (pt (fin 0)) (fun x y _ _ => .ok (x.multiply y)) where
  hzero _ := trivial
  hsub _ := trivial
  hadd _ _ := ⟨_, rfl, trivial⟩
  htpc _ _ := ⟨_, rfl, trivial⟩

theorem triv_powLaws (N : ℕ) : Poly.PowTLaws N (fun _ _ => True) (fun _ _ => True) (fun _ _ => True)
    (pt (fin (1 : K))) (fun c _ k => c.outerPower k) (fun n c => .ok ((pt (fin (n : K))).multiply c)) where
  hone := trivial
  htpow {i p x} _ _ := outerPower_returns x p
  hpres _ _ := trivial
  hsmul _ := ⟨_, rfl, trivial⟩

theorem multiply_returns (t : FT K) {a b : List (FC K)} (ha : a ≠ []) (hb : b ≠ []) : ∃ c, t.multiply a b = .ok c := by
  obtain ⟨p, hp, -⟩ := Poly.arbitraryBilinear_total triv_laws ha hb (fun _ _ _ => trivial) (fun _ _ _ => trivial)
  unfold FT.multiply
  rw [hp, py_ok_bind]
  exact enclose_returns t p _

theorem powerNat_returns (t : FT K) {a : List (FC K)} (ha : a ≠ []) (p : ℕ) : ∃ c, t.powerNat a p = .ok c := by
  obtain ⟨q, hq, -⟩ := Poly.integerPower_total triv_laws (triv_powLaws ((a.length - 1) * p)) ha (fun _ _ _ => trivial)
  obtain ⟨a0, as, rfl⟩ := List.exists_cons_of_ne_nil ha
  unfold FT.powerNat
  dsimp only
  rw [hq, py_ok_bind]
  exact enclose_returns t q _

theorem compose_returns (t : FT K) {e arg : List (FC K)} (he : e ≠ []) : ∃ r, t.compose e arg = .ok r := by
  unfold FT.compose
  rw [if_neg (by simpa using he)]
  generalize ([pt (fin 0)] : List (FC K)) = o
  generalize Poly.enum e = l
  induction l generalizing o with
  | nil => exact ⟨_, rfl⟩
  | cons x l ih =>
    obtain ⟨q, hq⟩ : ∃ q, t.composeTerm (pt (fin 0) :: arg.drop 1) x.1 x.2 = .ok q := by
      unfold FT.composeTerm
      split_ifs
      · exact ⟨_, rfl⟩
      · obtain ⟨c, hc⟩ := powerNat_returns t (a := pt (fin 0) :: arg.drop 1) (by simp) x.1
        rw [hc]; exact ⟨_, rfl⟩
    obtain ⟨o', ho'⟩ := enclose_returns t (addCoeffs o q) t.maxDegree
    obtain ⟨r, hr⟩ := ih o'
    refine ⟨r, ?_⟩
    rw [List.foldlM_cons]
    unfold FT.composeStep
    rw [hq, py_ok_bind]
    unfold FT.add
    rw [ho', py_ok_bind]
    exact hr

end FT

/-- **C75 (bounds).** `TaylorBounds.lower` and `upper` return, and each is NaN or a bound of every value that the
enclosure contains. -/
theorem C75_bounds {E : List (FC K)} {x0 x y : K} (h : EnclHas E (x - x0) y) :
    ∃ l u, lowerAt E x0 x = .ok l ∧ upperAt E x0 x = .ok u ∧ l.LowOk y ∧ u.HighOk y := by
  obtain ⟨w, h1, h2⟩ := h
  obtain ⟨r, r1, r2⟩ := evalTaylor_has h1 (Z := pt (fin (x - x0))) (z := x - x0) rfl
  unfold lowerAt upperAt
  rw [r1, h2]
  cases r with
  | iv lo hi => exact ⟨lo, hi, rfl, rfl, r2⟩
  | pt a => exact ⟨a, a, rfl, rfl, r2.low, r2.high⟩

/-- **C75 (operations).** Every operation of the Taylor-enclosure arithmetic is right at every point of the trust region,
whatever infinities and NaNs the coefficients contain. -/
theorem C75_operations {t : FT K} {z : K} (hz : (iv t.trLo t.trHi).Has z) {a b : List (FC K)} (hne : a ≠ []) (hne' : b ≠ [])
    {y y' : K} (ha : EnclHas a z y) (hb : EnclHas b z y') :
    (∀ m, ∃ c, t.enclose a m = .ok c ∧ EnclHas c z y ∧ c.length ≤ m + 1) ∧
    (∃ c, t.add a b = .ok c ∧ EnclHas c z (y + y')) ∧
    (∃ c, t.negative a = .ok c ∧ EnclHas c z (-y)) ∧
    (∃ c, t.subtract a b = .ok c ∧ EnclHas c z (y - y')) ∧
    (∃ c, t.multiply a b = .ok c ∧ EnclHas c z (y * y')) ∧
    (∀ p, ∃ c, t.powerNat a p = .ok c ∧ EnclHas c z (y ^ p)) := by
  obtain ⟨u, hu, rfl⟩ := sel_of ha
  obtain ⟨v, hv, rfl⟩ := sel_of hb
  refine ⟨fun m => ?_, ?_, ?_, ?_, ?_, fun p => ?_⟩
  · obtain ⟨c, w, h1, h2, h3, -, h4⟩ := FT.enclose_sel hz hu m
    exact ⟨c, h1, h4 ▸ h2.enclHas z, by omega⟩
  · obtain ⟨c, w, h1, h2, -, h4⟩ := FT.add_sel hz hu hv
    exact ⟨c, h1, h4 ▸ h2.enclHas z⟩
  · obtain ⟨c, w, h1, h2, h4⟩ := FT.negative_sel hz hu
    exact ⟨c, h1, h4 ▸ h2.enclHas z⟩
  · obtain ⟨c, w, h1, h2, h4⟩ := FT.negative_sel hz hv
    obtain ⟨d, w', h1', h2', -, h4'⟩ := FT.add_sel hz hu h2
    refine ⟨d, by unfold FT.subtract; rw [h1, py_ok_bind]; exact h1', ?_⟩
    rw [h4, ← sub_eq_add_neg] at h4'
    exact h4' ▸ h2'.enclHas z
  · obtain ⟨c, h⟩ := FT.multiply_returns t hne hne'
    obtain ⟨w, h2, h4⟩ := FT.multiply_sel hz hu hv hne hne' h
    exact ⟨c, h, h4 ▸ h2.enclHas z⟩
  · obtain ⟨c, h⟩ := FT.powerNat_returns t hne p
    obtain ⟨w, h2, h4, -⟩ := FT.powerNat_sel hz hu h
    exact ⟨c, h, h4 ▸ h2.enclHas z⟩

/-- **C75 (element-wise functions).** If the generator is right for the expansion point and the argument region it is called
with, the enclosure of `f y` is right at every point of the trust region. -/
theorem C75_elementwise {t : FT K} {z : K} (hz : (iv t.trLo t.trHi).Has z) {gen : Flt K → Flt K × Flt K → ℕ → Py (List (FC K))}
    {f : K → K} {D : K → Prop} {arg r : List (FC K)} {y : K} (ha : EnclHas arg z y) (hD : D y)
    (hgen : ∀ c x0 reg, arg.head? = some c → t.expansionPoint c = .ok x0 → t.argRegion arg = .ok reg →
      GenOk gen f D t.maxDegree x0 reg)
    (h : t.elementwiseFun gen arg = .ok r) : EnclHas r z (f y) ∧ ∃ reg, t.argRegion arg = .ok reg ∧ (iv reg.1 reg.2).Has y := by
  simp only [FT.elementwiseFun, py_bind_ok] at h
  obtain ⟨reg, hreg, h⟩ := h
  cases arg with
  | nil => cases h
  | cons c l =>
    simp only [py_bind_ok] at h
    obtain ⟨x0, hx0, e, he, h⟩ := h
    obtain ⟨u, hu, hy⟩ := sel_of ha
    have hin : (iv reg.1 reg.2).Has y := by
      unfold FT.argRegion at hreg
      obtain ⟨E, w, h1, h2, h3, -, h4⟩ := FT.enclose_sel hz hu 0
      rw [h1, py_ok_bind] at hreg
      have hl : E.length = 1 := by rw [h3]; simp
      obtain ⟨d, rfl⟩ := List.length_eq_one_iff.1 hl
      have hd := h2.1 0 d rfl
      rw [← hy] at h4
      simp at h4
      rw [h4] at hd
      cases d with
      | pt x => cases hreg; exact ⟨hd.low, hd.high⟩
      | iv lo hi => cases hreg; exact hd
    refine ⟨?_, reg, hreg, hin⟩
    obtain ⟨g1, g2⟩ := hgen c x0 reg rfl hx0 hreg e he
    obtain ⟨w, hw, hf⟩ := sel_of (g2 y hD hin (u 0) (fun hk => by
      have := hu.1 0 c rfl
      cases c with
      | pt x => cases hx0; exact this
      | iv lo hi =>
        unfold FT.expansionPoint at hx0
        dsimp only at hx0
        rw [if_neg (by omega)] at hx0
        cases hx0))
    obtain ⟨v, v1, v2⟩ := FT.compose_sel hz hu hw g1 (by simp) h
    rw [hf, hy, ← v2]
    exact v1.enclHas z

/-! ### where NaN comes from -/

theorem notFinite_mul_zero {x : Flt K} (h : x.NotFinite) : x.mul (fin 0) = nan := by
  cases x <;> first | exact h.elim | rfl | simp [Flt.mul, infMul]

theorem nan_add (x : Flt K) : nan.add x = nan := by cases x <;> rfl

theorem posPart_of_nonpos {c : K} (h : c ≤ 0) : posPart (fin c) = fin 0 := by
  show fin (max 0 c) = fin 0; rw [max_eq_left h]
theorem negPart_of_nonneg {c : K} (h : 0 ≤ c) : negPart (fin c) = fin 0 := by
  show fin (min 0 c) = fin 0; rw [min_eq_left h]

/-- the sides of a value, as `TaylorBounds.lower` and `upper` read them -/
def FC.side : FC K → Bool → Flt K
  | .pt x, _ => x
  | .iv lo _, false => lo
  | .iv _ hi, true => hi

theorem side_add (a b : FC K) (s : Bool) : (a.add b).side s = (a.side s).add (b.side s) := by
  cases a <;> cases b <;> cases s <;> rfl

theorem outerPower_fin (z : K) (n : ℕ) : outerPower (pt (fin z)) (n : ℤ) = .ok (pt (fin (z ^ n))) := by
  unfold FC.outerPower
  rw [if_neg (by omega)]
  split_ifs with e
  · obtain rfl : n = 0 := by omega
    simp
  · have : n ≠ 0 := by omega
    simp [FC.power, npow, this]

theorem evalStep_fin (z : K) (n : ℕ) (acc c : FC K) :
    Poly.evalStep (pt (fin z)) (fun a b => .ok (FC.multiply a b)) outerPower (fun a b => .ok (FC.add a b)) (pt (fin 1)) (n, acc) c
      = .ok (n + 1, acc.add (c.multiply (pt (fin (z ^ n))))) := by
  unfold Poly.evalStep
  dsimp only
  split_ifs with e
  · rw [outerPower_fin]; rfl
  · obtain rfl : n = 0 := by omega
    rw [pow_zero]; rfl

/-- the value of the enclosure at a finite point -/
def sumFC (z : K) : ℕ → FC K → List (FC K) → FC K
  | _, acc, [] => acc
  | n, acc, c :: l => sumFC z (n + 1) (acc.add (c.multiply (pt (fin (z ^ n))))) l

theorem eval_fin (z : K) (E : List (FC K)) : evalTaylor E (pt (fin z)) = .ok (sumFC z 0 (pt (fin 0)) E) := by
  unfold evalTaylor Poly.evalPolynomial
  suffices h : ∀ (l : List (FC K)) (n : ℕ) (acc : FC K), ∃ m, l.foldlM (Poly.evalStep (pt (fin z))
      (fun a b => .ok (FC.multiply a b)) outerPower (fun a b => .ok (FC.add a b)) (pt (fin 1))) (n, acc) =
        .ok (m, sumFC z n acc l) by
    obtain ⟨m, h⟩ := h E 0 (pt (fin 0))
    rw [h]; rfl
  intro l
  induction l with
  | nil => exact fun n acc => ⟨n, rfl⟩
  | cons c l ih =>
    intro n acc
    rw [List.foldlM_cons, evalStep_fin, py_ok_bind]
    exact ih _ _

theorem lowerAt_eq (E : List (FC K)) (x0 x : K) : lowerAt E x0 x = .ok ((sumFC (x - x0) 0 (pt (fin 0)) E).side false) := by
  unfold lowerAt; rw [eval_fin, py_ok_bind]; cases sumFC (x - x0) 0 (pt (fin 0)) E <;> rfl
theorem upperAt_eq (E : List (FC K)) (x0 x : K) : upperAt E x0 x = .ok ((sumFC (x - x0) 0 (pt (fin 0)) E).side true) := by
  unfold upperAt; rw [eval_fin, py_ok_bind]; cases sumFC (x - x0) 0 (pt (fin 0)) E <;> rfl

theorem sumFC_nan (z : K) (s : Bool) (l : List (FC K)) (n : ℕ) (acc : FC K)
    (h : acc.side s = nan ∨ ∃ (i : ℕ) (c : FC K), l[i]? = some c ∧ (c.multiply (pt (fin (z ^ (n + i))))).side s = nan) :
    (sumFC z n acc l).side s = nan := by
  induction l generalizing n acc with
  | nil =>
    rcases h with h | ⟨i, c, h, -⟩
    · exact h
    · simp at h
  | cons c l ih =>
    refine ih _ _ ?_
    rcases h with h | ⟨i, d, h1, h2⟩
    · left; rw [side_add, h, nan_add]
    · cases i with
      | zero => left; simp at h1; subst h1; rw [side_add, show n = n + 0 from rfl, h2, FC.add_nan]
      | succ i => right; exact ⟨i, d, by simpa using h1, by rwa [show n + 1 + i = n + (i + 1) by omega]⟩

theorem minimum_nan (x : Flt K) : x.minimum nan = nan := by cases x <;> rfl
theorem nan_minimum (x : Flt K) : nan.minimum x = nan := by cases x <;> rfl
theorem maximum_nan (x : Flt K) : x.maximum nan = nan := by cases x <;> rfl
theorem nan_maximum (x : Flt K) : nan.maximum x = nan := by cases x <;> rfl

theorem multiply_pt (lo hi b : Flt K) : FC.multiply (iv lo hi) (pt b) = iv ((lo.mul b).minimum (hi.mul b)) ((lo.mul b).maximum (hi.mul b)) := rfl

/-- **C75 (NaN at the reference point).** If an interval coefficient of degree at least 1 has an end point that is not finite,
then `lower(x0)` and `upper(x0)` are NaN. -/
theorem C75_nan_at_x0 {E : List (FC K)} {i : ℕ} {lo hi : Flt K} (hE : E[i]? = some (iv lo hi)) (hi0 : 0 < i)
    (h : lo.NotFinite ∨ hi.NotFinite) (x0 : K) : lowerAt E x0 x0 = .ok nan ∧ upperAt E x0 x0 = .ok nan := by
  have key : ∀ s, (FC.multiply (iv lo hi) (pt (fin ((x0 - x0) ^ (0 + i))))).side s = nan := by
    intro s
    rw [sub_self, zero_pow (by omega), multiply_pt]
    rcases h with h | h <;> rw [notFinite_mul_zero h] <;> cases s <;>
      simp [FC.side, minimum_nan, nan_minimum, maximum_nan, nan_maximum]
  rw [lowerAt_eq, upperAt_eq]
  exact ⟨congrArg _ (sumFC_nan _ false _ _ _ (Or.inr ⟨i, _, hE, key false⟩)),
    congrArg _ (sumFC_nan _ true _ _ _ (Or.inr ⟨i, _, hE, key true⟩))⟩

theorem sumFC_pts (z : K) (cs : List K) (rest : List (FC K)) (n : ℕ) (v : K) :
    ∃ v', sumFC z n (pt (fin v)) (cs.map (fun c => pt (fin c)) ++ rest) = sumFC z (n + cs.length) (pt (fin v')) rest := by
  induction cs generalizing n v with
  | nil => exact ⟨v, rfl⟩
  | cons c cs ih =>
    obtain ⟨v', h⟩ := ih (n + 1) (v + c * z ^ n)
    refine ⟨v', ?_⟩
    rw [List.length_cons, show n + (cs.length + 1) = n + 1 + cs.length by omega, ← h]
    rfl

/-- The bounds of an enclosure with finite coefficients whose last one is (-inf, inf): nothing away from `x0`, NaN at `x0`. -/
theorem C75_unbounded {cs : List K} (hne : cs ≠ []) (x0 x : K) :
    lowerAt (cs.map (fun c => pt (fin c)) ++ [iv ninf pinf]) x0 x = .ok (if x = x0 then nan else ninf) ∧
    upperAt (cs.map (fun c => pt (fin c)) ++ [iv ninf pinf]) x0 x = .ok (if x = x0 then nan else pinf) := by
  by_cases hx : x = x0
  · subst hx
    rw [if_pos rfl, if_pos rfl]
    exact C75_nan_at_x0 (i := cs.length) (lo := ninf) (hi := pinf) (by simp) (List.length_pos_iff.2 hne) (Or.inl trivial) x
  · rw [if_neg hx, if_neg hx, lowerAt_eq, upperAt_eq]
    obtain ⟨v, hv⟩ := sumFC_pts (x - x0) cs [iv ninf pinf] 0 0
    rw [hv]
    have hz : (x - x0) ^ (0 + cs.length) ≠ 0 := pow_ne_zero _ (sub_ne_zero.2 hx)
    have : sumFC (x - x0) (0 + cs.length) (pt (fin v)) [iv ninf pinf] = iv ninf pinf := by
      unfold sumFC
      rw [multiply_pt]
      show sumFC _ _ (FC.add (pt (fin v)) (iv ((infMul false _).minimum (infMul true _)) ((infMul false _).maximum (infMul true _)))) [] = _
      generalize (x - x0) ^ (0 + cs.length) = c at hz ⊢
      rcases lt_or_gt_of_ne hz with hc | hc
      · have h1 : infMul false c = pinf := by simp [infMul, hz, hc.le]
        have h2 : infMul true c = ninf := by simp [infMul, hz, hc.le]
        rw [h1, h2]; rfl
      · have h1 : infMul false c = ninf := by simp [infMul, hz, hc]
        have h2 : infMul true c = pinf := by simp [infMul, hz, hc]
        rw [h1, h2]; rfl
    rw [this]
    exact ⟨rfl, rfl⟩

/-! ### vectors -/

theorem dotF_low {u v : List (Flt K)} {r : List K} (h : List.Forall₂ (fun x s => Flt.LowOk x s) (List.zipWith Flt.mul u v) r)
    {acc : Flt K} {s : K} (ha : acc.LowOk s) : ((List.zipWith Flt.mul u v).foldl Flt.add acc).LowOk (s + r.sum) := by
  generalize List.zipWith Flt.mul u v = l at h
  induction h generalizing acc s with
  | nil => simpa using ha
  | cons h1 _ ih =>
    have := ih (ha.add h1)
    simpa [add_assoc] using this

theorem dotF_high {u v : List (Flt K)} {r : List K} (h : List.Forall₂ (fun x s => Flt.HighOk x s) (List.zipWith Flt.mul u v) r)
    {acc : Flt K} {s : K} (ha : acc.HighOk s) : ((List.zipWith Flt.mul u v).foldl Flt.add acc).HighOk (s + r.sum) := by
  generalize List.zipWith Flt.mul u v = l at h
  induction h generalizing acc s with
  | nil => simpa using ha
  | cons h1 _ ih =>
    have := ih (ha.add h1)
    simpa [add_assoc] using this

theorem foldl_nan (l : List (Flt K)) : l.foldl Flt.add nan = nan := by
  induction l with
  | nil => rfl
  | cons x l ih => rw [List.foldl_cons, nan_add, ih]

theorem foldl_mem_nan {l : List (Flt K)} (h : nan ∈ l) (acc : Flt K) : l.foldl Flt.add acc = nan := by
  induction l generalizing acc with
  | nil => simp at h
  | cons x l ih =>
    rw [List.foldl_cons]
    rcases List.mem_cons.1 h with h | h
    · rw [← h, FC.add_nan, foldl_nan]
    · exact ih h _

/-- **C75 (vectors, soundness).** The degree-1 term of a bound in a vector `x` is right about every end point that is not
NaN. -/
theorem C75_dot {lo hi : List (Flt K)} {c z : List K} (h1 : List.Forall₂ (fun x s => Flt.LowOk x s) lo c)
    (h2 : List.Forall₂ (fun x s => Flt.HighOk x s) hi c) (hz : z.length = c.length) :
    (iv (FC.dot lo hi (z.map fin)).1 (FC.dot lo hi (z.map fin)).2).Has (List.zipWith (· * ·) c z).sum := by
  have e : (List.zipWith (· * ·) c z).sum = (0 + (List.zipWith (fun a b => a * max 0 b) c z).sum) +
      (0 + (List.zipWith (fun a b => a * min 0 b) c z).sum) := by
    rw [zero_add, zero_add]
    clear h1 h2 hz
    induction c generalizing z with
    | nil => simp
    | cons a c ih =>
      cases z with
      | nil => simp
      | cons b z =>
        simp only [List.zipWith_cons_cons, List.sum_cons]
        rw [ih]
        have : a * b = a * max 0 b + a * min 0 b := by rw [← mul_add, max_add_min, zero_add]
        rw [this]; ring
  rw [e]
  have lowpos : List.Forall₂ (fun x s => Flt.LowOk x s) (List.zipWith Flt.mul lo ((z.map fin).map posPart))
      (List.zipWith (fun a b => a * max 0 b) c z) := by
    clear h2 e
    induction h1 generalizing z with
    | nil => simp
    | cons h _ ih =>
      cases z with
      | nil => simp at hz
      | cons b z => exact .cons (low_mul_nonneg h (le_max_left 0 b)) (ih (by simpa using hz))
  have lowneg : List.Forall₂ (fun x s => Flt.HighOk x s) (List.zipWith Flt.mul lo ((z.map fin).map negPart))
      (List.zipWith (fun a b => a * min 0 b) c z) := by
    clear h2 e lowpos
    induction h1 generalizing z with
    | nil => simp
    | cons h _ ih =>
      cases z with
      | nil => simp at hz
      | cons b z => exact .cons (high_mul_nonpos h (min_le_left 0 b)) (ih (by simpa using hz))
  have highpos : List.Forall₂ (fun x s => Flt.HighOk x s) (List.zipWith Flt.mul hi ((z.map fin).map posPart))
      (List.zipWith (fun a b => a * max 0 b) c z) := by
    clear h1 e lowpos lowneg
    induction h2 generalizing z with
    | nil => simp
    | cons h _ ih =>
      cases z with
      | nil => simp at hz
      | cons b z => exact .cons (high_mul_nonneg h (le_max_left 0 b)) (ih (by simpa using hz))
  have highneg : List.Forall₂ (fun x s => Flt.LowOk x s) (List.zipWith Flt.mul hi ((z.map fin).map negPart))
      (List.zipWith (fun a b => a * min 0 b) c z) := by
    clear h1 e lowpos lowneg highpos
    induction h2 generalizing z with
    | nil => simp
    | cons h _ ih =>
      cases z with
      | nil => simp at hz
      | cons b z => exact .cons (low_mul_nonpos h (min_le_left 0 b)) (ih (by simpa using hz))
  exact ⟨(dotF_low lowpos (acc := fin 0) le_rfl).add (dotF_low highneg (acc := fin 0) le_rfl),
    (dotF_high highpos (acc := fin 0) le_rfl).add (dotF_high lowneg (acc := fin 0) le_rfl)⟩

/-- **C75 (vectors, NaN).** In a vector `x`, an infinite end point makes a bound NaN at every point: if entry `j` of the
degree-1 interval has an end point that is not finite, one of the two bounds is NaN, and both are if neither end point is
finite. -/
theorem C75_dot_nan {lo hi : List (Flt K)} {z : List K} {j : ℕ} {a b : Flt K} {c : K} (ha : lo[j]? = some a)
    (hb : hi[j]? = some b) (hc : z[j]? = some c) :
    ((a.NotFinite ∨ b.NotFinite) → (FC.dot lo hi (z.map fin)).1 = nan ∨ (FC.dot lo hi (z.map fin)).2 = nan) ∧
    (a.NotFinite → b.NotFinite → FC.dot lo hi (z.map fin) = (nan, nan)) := by
  have mem : ∀ {u : List (Flt K)} {x : Flt K} (g : Flt K → Flt K), u[j]? = some x → g (fin c) = fin 0 → x.NotFinite →
      dotF u ((z.map fin).map g) = nan := by
    intro u x g hx hg hn
    refine foldl_mem_nan (List.mem_iff_getElem?.2 ⟨j, ?_⟩) _
    rw [List.getElem?_zipWith, hx, List.getElem?_map, List.getElem?_map, hc]
    simp [hg, notFinite_mul_zero hn]
  unfold FC.dot
  rcases le_total 0 c with h | h
  · have hg := negPart_of_nonneg h
    refine ⟨?_, fun h1 h2 => ?_⟩
    · rintro (h1 | h1)
      · right; dsimp only; rw [mem negPart ha hg h1, FC.add_nan]
      · left; dsimp only; rw [mem negPart hb hg h1, FC.add_nan]
    · rw [mem negPart ha hg h1, mem negPart hb hg h2, FC.add_nan, FC.add_nan]
  · have hg := posPart_of_nonpos h
    refine ⟨?_, fun h1 h2 => ?_⟩
    · rintro (h1 | h1)
      · left; dsimp only; rw [mem posPart ha hg h1, nan_add]
      · right; dsimp only; rw [mem posPart hb hg h1, nan_add]
    · rw [mem posPart ha hg h1, mem posPart hb hg h2, nan_add, nan_add]

end AB
