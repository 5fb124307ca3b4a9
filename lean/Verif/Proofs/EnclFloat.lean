import Verif.Spec.EnclFloat
import Verif.Proofs.PolyAlg
import Mathlib.Tactic.Linarith
import Mathlib.Tactic.Ring

set_option linter.unusedSectionVars false

namespace AB
open Flt FC
variable {K : Type} [Field K] [LinearOrder K] [IsStrictOrderedRing K]

namespace Flt

theorem lowOk_minimum {x y : Flt K} {v : K} : (x.minimum y).LowOk v ↔ x.LowOk v ∨ y.LowOk v := by
  cases x <;> cases y <;> simp [minimum, LowOk]

theorem highOk_maximum {x y : Flt K} {v : K} : (x.maximum y).HighOk v ↔ x.HighOk v ∨ y.HighOk v := by
  cases x <;> cases y <;> simp [maximum, HighOk]

theorem LowOk.add {x y : Flt K} {u v : K} (hx : x.LowOk u) (hy : y.LowOk v) : (x.add y).LowOk (u + v) := by
  cases x <;> cases y <;> simp_all [Flt.add, LowOk]
  linarith

theorem HighOk.add {x y : Flt K} {u v : K} (hx : x.HighOk u) (hy : y.HighOk v) : (x.add y).HighOk (u + v) := by
  cases x <;> cases y <;> simp_all [Flt.add, HighOk]
  linarith

theorem LowOk.neg {x : Flt K} {u : K} (hx : x.LowOk u) : x.neg.HighOk (-u) := by
  cases x <;> simp_all [Flt.neg, LowOk, HighOk]

theorem HighOk.neg {x : Flt K} {u : K} (hx : x.HighOk u) : x.neg.LowOk (-u) := by
  cases x <;> simp_all [Flt.neg, LowOk, HighOk]

theorem neg_neg (x : Flt K) : x.neg.neg = x := by cases x <;> simp [Flt.neg]

theorem neg_mul (x y : Flt K) : x.neg.mul y = (x.mul y).neg := by
  cases x <;> cases y <;> simp [Flt.neg, Flt.mul, infMul] <;> (try split_ifs) <;> (try rfl) <;> (try simp_all) <;>
    (exfalso; order)

theorem nan_mul (x : Flt K) : nan.mul x = nan := by cases x <;> rfl
theorem mul_nan (x : Flt K) : x.mul nan = nan := by cases x <;> rfl

/-- one of the four products of end points is a lower bound of the product of two members -/
theorem low_corner {a0 a1 b0 b1 : Flt K} {r s : K} (h1 : a0.LowOk r) (h2 : a1.HighOk r) (h3 : b0.LowOk s)
    (h4 : b1.HighOk s) : (a0.mul b0).LowOk (r * s) ∨ (a0.mul b1).LowOk (r * s) ∨ (a1.mul b0).LowOk (r * s) ∨
      (a1.mul b1).LowOk (r * s) := by
  rcases le_total 0 s with hs | hs
  · cases a0 with
    | nan => left; rw [nan_mul]; trivial
    | pinf => exact h1.elim
    | fin a =>
      replace h1 : a ≤ r := h1
      rcases le_total 0 a with ha | ha
      · left
        cases b0 with
        | nan => trivial
        | pinf => exact h3.elim
        | fin b =>
          replace h3 : b ≤ s := h3
          show a * b ≤ r * s
          nlinarith [mul_le_mul_of_nonneg_left h3 ha, mul_le_mul_of_nonneg_right h1 hs]
        | ninf =>
          show LowOk (infMul false a) _
          unfold infMul
          split_ifs with e1 e2
          · trivial
          · exfalso; simp at e2; exact e1 (le_antisymm e2 ha)
          · trivial
      · right; left
        cases b1 with
        | nan => trivial
        | ninf => exact h4.elim
        | fin b =>
          replace h4 : s ≤ b := h4
          show a * b ≤ r * s
          nlinarith [mul_le_mul_of_nonpos_left h4 ha, mul_le_mul_of_nonneg_right h1 hs]
        | pinf =>
          show LowOk (infMul true a) _
          unfold infMul
          split_ifs with e1 e2
          · trivial
          · exfalso; simp at e2; exact absurd e2 (not_lt.2 ha)
          · trivial
    | ninf =>
      right; left
      cases b1 with
      | nan => trivial
      | ninf => exact h4.elim
      | fin b =>
        replace h4 : s ≤ b := h4
        show LowOk (infMul false b) _
        unfold infMul
        split_ifs with e1 e2
        · trivial
        · exfalso; simp at e2; exact e1 (le_antisymm e2 (hs.trans h4))
        · trivial
      | pinf => trivial
  · cases a1 with
    | nan => right; right; left; rw [nan_mul]; trivial
    | ninf => exact h2.elim
    | fin a =>
      replace h2 : r ≤ a := h2
      rcases le_total 0 a with ha | ha
      · right; right; left
        cases b0 with
        | nan => trivial
        | pinf => exact h3.elim
        | fin b =>
          replace h3 : b ≤ s := h3
          show a * b ≤ r * s
          nlinarith [mul_le_mul_of_nonneg_left h3 ha, mul_le_mul_of_nonpos_right h2 hs]
        | ninf =>
          show LowOk (infMul false a) _
          unfold infMul
          split_ifs with e1 e2
          · trivial
          · exfalso; simp at e2; exact e1 (le_antisymm e2 ha)
          · trivial
      · right; right; right
        cases b1 with
        | nan => trivial
        | ninf => exact h4.elim
        | fin b =>
          replace h4 : s ≤ b := h4
          show a * b ≤ r * s
          nlinarith [mul_le_mul_of_nonpos_left h4 ha, mul_le_mul_of_nonpos_right h2 hs]
        | pinf =>
          show LowOk (infMul true a) _
          unfold infMul
          split_ifs with e1 e2
          · trivial
          · exfalso; simp at e2; exact absurd e2 (not_lt.2 ha)
          · trivial
    | pinf =>
      right; right; left
      cases b0 with
      | nan => trivial
      | pinf => exact h3.elim
      | fin b =>
        replace h3 : b ≤ s := h3
        show LowOk (infMul true b) _
        unfold infMul
        split_ifs with e1 e2
        · trivial
        · exfalso; simp at e2; exact absurd e2 (not_lt.2 (h3.trans hs))
        · trivial
      | ninf => trivial

theorem high_corner {a0 a1 b0 b1 : Flt K} {r s : K} (h1 : a0.LowOk r) (h2 : a1.HighOk r) (h3 : b0.LowOk s)
    (h4 : b1.HighOk s) : (a0.mul b0).HighOk (r * s) ∨ (a0.mul b1).HighOk (r * s) ∨ (a1.mul b0).HighOk (r * s) ∨
      (a1.mul b1).HighOk (r * s) := by
  have key : ∀ {x : Flt K}, (x.neg).LowOk (-r * s) → x.HighOk (r * s) := fun {x} h => by
    have := h.neg; rw [neg_neg] at this; simpa using this
  have := low_corner h2.neg h1.neg h3 h4
  simp only [neg_mul a0, neg_mul a1] at this
  rcases this with h | h | h | h
  · exact Or.inr (Or.inr (Or.inl (key h)))
  · exact Or.inr (Or.inr (Or.inr (key h)))
  · exact Or.inl (key h)
  · exact Or.inr (Or.inl (key h))

end Flt

namespace FC

theorem Has.low {x : Flt K} {r : K} (h : (pt x).Has r) : x.LowOk r := by
  cases x <;> first | exact h.elim | trivial | exact le_of_eq h
theorem Has.high {x : Flt K} {r : K} (h : (pt x).Has r) : x.HighOk r := by
  cases x <;> first | exact h.elim | trivial | exact le_of_eq h.symm

theorem Has.add {A B : FC K} {r s : K} (hA : A.Has r) (hB : B.Has s) : (A.add B).Has (r + s) := by
  cases A with
  | iv a0 a1 =>
    cases B with
    | iv b0 b1 => exact ⟨hA.1.add hB.1, hA.2.add hB.2⟩
    | pt b => exact ⟨hA.1.add hB.low, hA.2.add hB.high⟩
  | pt a =>
    cases B with
    | iv b0 b1 => exact ⟨hA.low.add hB.1, hA.high.add hB.2⟩
    | pt b =>
      cases a <;> cases b <;> first | exact hA.elim | exact hB.elim | trivial | skip
      cases hA; cases hB; exact rfl

theorem Has.negative {A : FC K} {r : K} (hA : A.Has r) : A.negative.Has (-r) := by
  cases A with
  | iv a0 a1 => exact ⟨hA.2.neg, hA.1.neg⟩
  | pt a =>
    cases a <;> first | exact hA.elim | trivial | skip
    cases hA; exact rfl

theorem Has.subtract {A B : FC K} {r s : K} (hA : A.Has r) (hB : B.Has s) : (A.subtract B).Has (r - s) := by
  have e : A.subtract B = A.add B.negative := by cases A <;> cases B <;> rfl
  rw [e, sub_eq_add_neg]
  exact hA.add hB.negative

theorem Has.multiply {A B : FC K} {r s : K} (hA : A.Has r) (hB : B.Has s) : (A.multiply B).Has (r * s) := by
  cases A with
  | iv a0 a1 =>
    cases B with
    | iv b0 b1 =>
      refine ⟨?_, ?_⟩
      · simp only [products, ends, reduce, List.flatMap_cons, List.flatMap_nil, List.map_cons, List.map_nil,
          List.append_nil, List.cons_append, List.nil_append, List.foldl_cons, List.foldl_nil, lowOk_minimum]
        have := low_corner hA.1 hA.2 hB.1 hB.2
        tauto
      · simp only [products, ends, reduce, List.flatMap_cons, List.flatMap_nil, List.map_cons, List.map_nil,
          List.append_nil, List.cons_append, List.nil_append, List.foldl_cons, List.foldl_nil, highOk_maximum]
        have := high_corner hA.1 hA.2 hB.1 hB.2
        tauto
    | pt b =>
      refine ⟨?_, ?_⟩
      · simp only [products, ends, reduce, List.flatMap_cons, List.flatMap_nil, List.map_cons, List.map_nil,
          List.append_nil, List.cons_append, List.nil_append, List.foldl_cons, List.foldl_nil, lowOk_minimum]
        have := low_corner hA.1 hA.2 hB.low hB.high
        tauto
      · simp only [products, ends, reduce, List.flatMap_cons, List.flatMap_nil, List.map_cons, List.map_nil,
          List.append_nil, List.cons_append, List.nil_append, List.foldl_cons, List.foldl_nil, highOk_maximum]
        have := high_corner hA.1 hA.2 hB.low hB.high
        tauto
  | pt a =>
    cases B with
    | iv b0 b1 =>
      refine ⟨?_, ?_⟩
      · simp only [products, ends, reduce, List.flatMap_cons, List.flatMap_nil, List.map_cons, List.map_nil,
          List.append_nil, List.foldl_cons, List.foldl_nil, lowOk_minimum]
        have := low_corner hA.low hA.high hB.1 hB.2
        tauto
      · simp only [products, ends, reduce, List.flatMap_cons, List.flatMap_nil, List.map_cons, List.map_nil,
          List.append_nil, List.foldl_cons, List.foldl_nil, highOk_maximum]
        have := high_corner hA.low hA.high hB.1 hB.2
        tauto
    | pt b =>
      cases a <;> cases b <;> first | exact hA.elim | exact hB.elim | trivial | skip
      cases hA; cases hB; exact rfl

/-! ### the sign-splitting rule -/

theorem mul_comm' (x y : Flt K) : x.mul y = y.mul x := by
  cases x <;> cases y <;> simp [Flt.mul, mul_comm]

theorem add_neg' (x y : Flt K) : x.neg.add y.neg = (x.add y).neg := by
  cases x <;> cases y <;> simp [Flt.neg, Flt.add]; ring

theorem high_of_neg {x : Flt K} {r s : K} (h : (x.neg).LowOk (-r * s)) : x.HighOk (r * s) := by
  have := h.neg; rw [Flt.neg_neg] at this; simpa using this

theorem low_mul_nonneg {x : Flt K} {r c : K} (h : x.LowOk r) (hc : 0 ≤ c) : (x.mul (fin c)).LowOk (r * c) := by
  cases x with
  | fin a => exact mul_le_mul_of_nonneg_right h hc
  | pinf => exact h.elim
  | nan => trivial
  | ninf =>
    show LowOk (infMul false c) _
    unfold infMul
    split_ifs with e1 e2
    · trivial
    · exfalso; simp at e2; exact e1 (le_antisymm e2 hc)
    · trivial

theorem high_mul_nonneg {x : Flt K} {r c : K} (h : x.HighOk r) (hc : 0 ≤ c) : (x.mul (fin c)).HighOk (r * c) := by
  apply high_of_neg
  rw [← Flt.neg_mul]
  exact low_mul_nonneg h.neg hc

theorem neg_fin (c : K) : (fin c).neg = fin (-c) := rfl

theorem low_mul_nonpos {x : Flt K} {r c : K} (h : x.HighOk r) (hc : c ≤ 0) : (x.mul (fin c)).LowOk (r * c) := by
  have := high_mul_nonneg h (by linarith : 0 ≤ -c)
  have h2 := this.neg
  rw [← neg_fin, mul_comm' x, Flt.neg_mul, Flt.neg_neg, mul_comm'] at h2
  simpa using h2

theorem high_mul_nonpos {x : Flt K} {r c : K} (h : x.LowOk r) (hc : c ≤ 0) : (x.mul (fin c)).HighOk (r * c) := by
  have := low_mul_nonneg h (by linarith : 0 ≤ -c)
  have h2 := this.neg
  rw [← neg_fin, mul_comm' x, Flt.neg_mul, Flt.neg_neg, mul_comm'] at h2
  simpa using h2

theorem add_nan (x : Flt K) : x.add nan = nan := by cases x <;> rfl

theorem low_point {a0 a1 b : Flt K} {r s : K} (h1 : a0.LowOk r) (h2 : a1.HighOk r) (hb : (pt b).Has s) :
    ((a0.mul (posPart b)).add (a1.mul (negPart b))).LowOk (r * s) := by
  cases b with
  | pinf => exact hb.elim
  | ninf => exact hb.elim
  | nan => rw [show negPart (nan : Flt K) = nan from rfl, Flt.mul_nan, add_nan]; trivial
  | fin b =>
    obtain rfl : b = s := hb
    have e : r * b = r * max 0 b + r * min 0 b := by rw [← mul_add, max_add_min, zero_add]
    rw [e]
    exact (low_mul_nonneg h1 (le_max_left 0 b)).add (low_mul_nonpos h2 (min_le_left 0 b))

theorem high_point {a0 a1 b : Flt K} {r s : K} (h1 : a0.LowOk r) (h2 : a1.HighOk r) (hb : (pt b).Has s) :
    ((a1.mul (posPart b)).add (a0.mul (negPart b))).HighOk (r * s) := by
  cases b with
  | pinf => exact hb.elim
  | ninf => exact hb.elim
  | nan => rw [show negPart (nan : Flt K) = nan from rfl, Flt.mul_nan, add_nan]; trivial
  | fin b =>
    obtain rfl : b = s := hb
    have e : r * b = r * max 0 b + r * min 0 b := by rw [← mul_add, max_add_min, zero_add]
    rw [e]
    exact (high_mul_nonneg h2 (le_max_left 0 b)).add (high_mul_nonpos h1 (min_le_left 0 b))

/-! ### powers -/

theorem low_pow_odd {x : Flt K} {r : K} {k : ℕ} (hk : k % 2 = 1) (h : x.LowOk r) : (x.npow k).LowOk (r ^ k) := by
  unfold npow
  rw [if_neg (by omega)]
  cases x with
  | fin a => exact (Nat.odd_iff.2 hk).strictMono_pow.monotone h
  | pinf => exact h.elim
  | ninf => simp [hk]; trivial
  | nan => trivial

theorem high_pow_odd {x : Flt K} {r : K} {k : ℕ} (hk : k % 2 = 1) (h : x.HighOk r) : (x.npow k).HighOk (r ^ k) := by
  unfold npow
  rw [if_neg (by omega)]
  cases x with
  | fin a => exact (Nat.odd_iff.2 hk).strictMono_pow.monotone h
  | pinf => trivial
  | ninf => exact h.elim
  | nan => trivial

theorem low_pow_nonneg {a r : K} {k : ℕ} (h : a ≤ r) (ha : 0 ≤ a) : ((fin a).npow k).LowOk (r ^ k) := by
  by_cases e : k = 0
  · subst e; show (1 : K) ≤ r ^ 0; simp
  · unfold npow; rw [if_neg e]; exact pow_le_pow_left₀ ha h k

theorem low_pow_even_nonpos {a r : K} {k : ℕ} (hk : k % 2 = 0) (h : r ≤ a) (ha : a ≤ 0) :
    ((fin a).npow k).LowOk (r ^ k) := by
  by_cases e : k = 0
  · subst e; show (1 : K) ≤ r ^ 0; simp
  · unfold npow; rw [if_neg e]; show a ^ k ≤ r ^ k
    rw [← (Nat.even_iff.2 hk).neg_pow a, ← (Nat.even_iff.2 hk).neg_pow r]
    exact pow_le_pow_left₀ (by linarith) (by linarith) k

theorem Has.power {A : FC K} {r : K} (hA : A.Has r) (k : ℕ) : (A.power k).Has (r ^ k) := by
  cases A with
  | pt a =>
    by_cases hk : k = 0
    · subst hk; show (pt (npow a 0)).Has _; simp [npow, Has]
    · show (pt (npow a k)).Has _
      unfold npow
      rw [if_neg hk]
      cases a with
      | fin a => cases hA; exact rfl
      | pinf => exact hA.elim
      | ninf => exact hA.elim
      | nan => trivial
  | iv a0 a1 =>
    by_cases hk : k = 0
    · subst hk; simp [FC.power, Has]
    obtain ⟨h1, h2⟩ := hA
    simp only [FC.power]
    rw [if_neg hk]
    rcases Nat.mod_two_eq_zero_or_one k with he | ho
    · refine ⟨?_, highOk_maximum.2 ?_⟩
      · simp only [reduce, List.foldl_cons, List.foldl_nil, lowOk_minimum]
        cases a0 with
        | nan => left; left; simp [npow, hk]; trivial
        | pinf => exact h1.elim
        | fin a =>
          replace h1 : a ≤ r := h1
          rcases le_or_gt 0 a with ha | ha
          · exact Or.inl (Or.inl (low_pow_nonneg h1 ha))
          · cases a1 with
            | nan => left; right; simp [npow, hk]; trivial
            | ninf => exact h2.elim
            | fin b =>
              replace h2 : r ≤ b := h2
              rcases le_or_gt b 0 with hb | hb
              · exact Or.inl (Or.inr (low_pow_even_nonpos he h2 hb))
              · right
                simp only [lt, ha, hb, decide_true, Bool.and_self, if_true, npow, if_neg hk]
                show 0 * a ^ k ≤ r ^ k
                rw [zero_mul]; exact (Nat.even_iff.2 he).pow_nonneg r
            | pinf =>
              right
              simp only [lt, ha, decide_true, Bool.and_self, if_true, npow, if_neg hk]
              show 0 * a ^ k ≤ r ^ k
              rw [zero_mul]; exact (Nat.even_iff.2 he).pow_nonneg r
        | ninf =>
          cases a1 with
          | nan => left; right; simp [npow, hk]; trivial
          | ninf => exact h2.elim
          | fin b =>
            replace h2 : r ≤ b := h2
            rcases le_or_gt b 0 with hb | hb
            · exact Or.inl (Or.inr (low_pow_even_nonpos he h2 hb))
            · right
              simp only [lt, hb, decide_true, Bool.and_self, if_true, npow, if_neg hk, he]
              simp [Flt.mul, infMul, LowOk]
          | pinf =>
            right
            simp only [lt, Bool.and_self, if_true, npow, if_neg hk, he]
            simp [Flt.mul, infMul, LowOk]
      · rcases le_total 0 r with hr | hr
        · right
          unfold npow
          rw [if_neg hk]
          cases a1 with
          | nan => trivial
          | ninf => exact h2.elim
          | pinf => trivial
          | fin b => exact pow_le_pow_left₀ hr h2 k
        · left
          unfold npow
          rw [if_neg hk]
          cases a0 with
          | nan => trivial
          | ninf => simp [he]; trivial
          | pinf => exact h1.elim
          | fin a =>
            replace h1 : a ≤ r := h1
            show r ^ k ≤ a ^ k
            rw [← (Nat.even_iff.2 he).neg_pow a, ← (Nat.even_iff.2 he).neg_pow r]
            exact pow_le_pow_left₀ (by linarith) (by linarith) k
    · refine ⟨?_, highOk_maximum.2 (Or.inr (high_pow_odd ho h2))⟩
      simp only [reduce, List.foldl_cons, List.foldl_nil, lowOk_minimum]
      exact Or.inl (Or.inl (low_pow_odd ho h1))

theorem Has.outerPower {A c : FC K} {r : K} (hA : A.Has r) {k : ℕ} (h : A.outerPower (k : ℤ) = .ok c) : c.Has (r ^ k) := by
  unfold FC.outerPower at h
  rw [if_neg (by omega)] at h
  split_ifs at h with e
  · cases h
    obtain rfl : k = 0 := by omega
    simp [Has]
  · cases h
    simpa using hA.power k

end FC
end AB
