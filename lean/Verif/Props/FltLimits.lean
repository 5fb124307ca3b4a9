/-
C75: the model's arithmetic with infinities and NaN is the one IEEE 754 prescribes (`Spec/FltLimits`).
-/
import Verif.Spec.FltLimits

set_option linter.unusedSectionVars false

namespace AB
namespace Flt
open Filter

theorem tendsto_nat1 : Tendsto (fun n : ℕ => (n + 1 : ℝ)) atTop atTop :=
  tendsto_atTop_add_const_right _ _ tendsto_natCast_atTop_atTop

theorem tendsto_nat2 : Tendsto (fun n : ℕ => (n + 1 + 1 : ℝ)) atTop atTop :=
  tendsto_atTop_add_const_right _ _ tendsto_nat1

theorem tendsto_nnat1 : Tendsto (fun n : ℕ => -(n + 1 : ℝ)) atTop atBot :=
  tendsto_neg_atTop_atBot.comp tendsto_nat1

theorem tendsto_inv1 : Tendsto (fun n : ℕ => (n + 1 : ℝ)⁻¹) atTop (nhds 0) :=
  tendsto_inv_atTop_zero.comp tendsto_nat1

theorem nat1_ne (n : ℕ) : (n + 1 : ℝ) ≠ 0 := by positivity

/-- **C75 (addition).** The model's addition of floats is IEEE addition: the limit, or NaN where there is none. -/
theorem C75_ieee_add (a b : Flt ℝ) : IsIEEE (· + ·) a b (a.add b) := by
  refine ⟨fun hc x y hx hy => ?_, fun hc => ?_, ?_⟩
  · cases a with
    | nan => exact hx.elim
    | fin u =>
      cases b with
      | nan => exact hy.elim
      | fin v => exact Tendsto.add hx hy
      | pinf => exact Tendsto.add_atTop hx hy
      | ninf => exact Tendsto.add_atBot hx hy
    | pinf =>
      cases b with
      | nan => exact hy.elim
      | fin v => exact Tendsto.atTop_add hx hy
      | pinf => exact Tendsto.atTop_add_atTop hx hy
      | ninf => exact absurd rfl hc
    | ninf =>
      cases b with
      | nan => exact hy.elim
      | fin v => exact Tendsto.atBot_add hx hy
      | pinf => exact absurd rfl hc
      | ninf => exact Tendsto.atBot_add_atBot hx hy
  · cases a with
    | nan => exact Or.inl rfl
    | fin u => cases b <;> first | exact Or.inr (Or.inl rfl) | cases hc
    | pinf =>
      cases b with
      | nan => exact Or.inr (Or.inl rfl)
      | fin v => cases hc
      | pinf => cases hc
      | ninf =>
        refine Or.inr (Or.inr ⟨fun n => n + 1, fun n => -(n + 1), fun n => n + 1 + 1, fun n => -(n + 1), tendsto_nat1,
          tendsto_nnat1, tendsto_nat2, tendsto_nnat1, 0, 1, zero_ne_one, ?_, ?_⟩)
        · exact tendsto_const_nhds.congr fun n => by ring
        · exact tendsto_const_nhds.congr fun n => by ring
    | ninf =>
      cases b with
      | nan => exact Or.inr (Or.inl rfl)
      | fin v => cases hc
      | ninf => cases hc
      | pinf =>
        refine Or.inr (Or.inr ⟨fun n => -(n + 1), fun n => n + 1, fun n => -(n + 1), fun n => n + 1 + 1, tendsto_nnat1,
          tendsto_nat1, tendsto_nnat1, tendsto_nat2, 0, 1, zero_ne_one, ?_, ?_⟩)
        · exact tendsto_const_nhds.congr fun n => by ring
        · exact tendsto_const_nhds.congr fun n => by ring
  · rintro (rfl | rfl)
    · cases b <;> rfl
    · cases a <;> rfl

theorem infMul_cases (s : Bool) (y : ℝ) :
    (y = 0 ∧ infMul s y = nan) ∨ (0 < y ∧ infMul s y = if s then pinf else ninf) ∨
      (y < 0 ∧ infMul s y = if s then ninf else pinf) := by
  rcases lt_trichotomy y 0 with h | h | h
  · right; right
    refine ⟨h, ?_⟩
    unfold infMul
    rw [if_neg h.ne]
    cases s <;> simp [not_lt.2 h.le]
  · left; exact ⟨h, by unfold infMul; rw [if_pos h]⟩
  · right; left
    refine ⟨h, ?_⟩
    unfold infMul
    rw [if_neg h.ne']
    cases s <;> simp [h]

/-- **C75 (multiplication).** The model's multiplication of floats is IEEE multiplication. -/
theorem C75_ieee_mul (a b : Flt ℝ) : IsIEEE (· * ·) a b (a.mul b) := by
  refine ⟨fun hc x y hx hy => ?_, fun hc => ?_, ?_⟩
  · cases a with
    | nan => exact hx.elim
    | fin u =>
      cases b with
      | nan => exact hy.elim
      | fin v => exact Tendsto.mul hx hy
      | pinf =>
        change infMul true u ≠ nan at hc
        show (infMul true u).Limit _
        rcases infMul_cases true u with ⟨-, e⟩ | ⟨h, e⟩ | ⟨h, e⟩ <;> rw [e] at hc ⊢
        · exact absurd rfl hc
        · exact Tendsto.pos_mul_atTop h hx hy
        · exact Tendsto.neg_mul_atTop h hx hy
      | ninf =>
        change infMul false u ≠ nan at hc
        show (infMul false u).Limit _
        rcases infMul_cases false u with ⟨-, e⟩ | ⟨h, e⟩ | ⟨h, e⟩ <;> rw [e] at hc ⊢
        · exact absurd rfl hc
        · exact Tendsto.pos_mul_atBot h hx hy
        · exact Tendsto.neg_mul_atBot h hx hy
    | pinf =>
      cases b with
      | nan => exact hy.elim
      | fin v =>
        change infMul true v ≠ nan at hc
        show (infMul true v).Limit _
        rcases infMul_cases true v with ⟨-, e⟩ | ⟨h, e⟩ | ⟨h, e⟩ <;> rw [e] at hc ⊢
        · exact absurd rfl hc
        · exact Tendsto.atTop_mul_pos h hx hy
        · exact Tendsto.atTop_mul_neg h hx hy
      | pinf => exact Tendsto.atTop_mul_atTop₀ hx hy
      | ninf => exact Tendsto.atTop_mul_atBot₀ hx hy
    | ninf =>
      cases b with
      | nan => exact hy.elim
      | fin v =>
        change infMul false v ≠ nan at hc
        show (infMul false v).Limit _
        rcases infMul_cases false v with ⟨-, e⟩ | ⟨h, e⟩ | ⟨h, e⟩ <;> rw [e] at hc ⊢
        · exact absurd rfl hc
        · exact Tendsto.atBot_mul_pos h hx hy
        · exact Tendsto.atBot_mul_neg h hx hy
      | pinf => exact Tendsto.atBot_mul_atTop₀ hx hy
      | ninf => exact Tendsto.atBot_mul_atBot₀ hx hy
  · have h0 : Tendsto (fun _ : ℕ => (0 : ℝ)) atTop (nhds 0) := tendsto_const_nhds
    have hninv : Tendsto (fun n : ℕ => -(n + 1 : ℝ)⁻¹) atTop (nhds 0) := by simpa using tendsto_inv1.neg
    cases a with
    | nan => exact Or.inl rfl
    | fin u =>
      cases b with
      | nan => exact Or.inr (Or.inl rfl)
      | fin v => cases hc
      | pinf =>
        change infMul true u = nan at hc
        rcases infMul_cases true u with ⟨rfl, e⟩ | ⟨h, e⟩ | ⟨h, e⟩
        · refine Or.inr (Or.inr ⟨fun _ => 0, fun n => n + 1, fun n => (n + 1 : ℝ)⁻¹, fun n => n + 1, h0, tendsto_nat1,
            tendsto_inv1, tendsto_nat1, 0, 1, zero_ne_one, ?_, ?_⟩)
          · exact tendsto_const_nhds.congr fun n => by ring
          · exact tendsto_const_nhds.congr fun n => by field_simp
        · rw [e] at hc; cases hc
        · rw [e] at hc; cases hc
      | ninf =>
        change infMul false u = nan at hc
        rcases infMul_cases false u with ⟨rfl, e⟩ | ⟨h, e⟩ | ⟨h, e⟩
        · refine Or.inr (Or.inr ⟨fun _ => 0, fun n => -(n + 1), fun n => -(n + 1 : ℝ)⁻¹, fun n => -(n + 1), h0,
            tendsto_nnat1, hninv, tendsto_nnat1, 0, 1, zero_ne_one, ?_, ?_⟩)
          · exact tendsto_const_nhds.congr fun n => by ring
          · exact tendsto_const_nhds.congr fun n => by field_simp
        · rw [e] at hc; cases hc
        · rw [e] at hc; cases hc
    | pinf =>
      cases b with
      | nan => exact Or.inr (Or.inl rfl)
      | fin v =>
        change infMul true v = nan at hc
        rcases infMul_cases true v with ⟨rfl, e⟩ | ⟨h, e⟩ | ⟨h, e⟩
        · refine Or.inr (Or.inr ⟨fun n => n + 1, fun _ => 0, fun n => n + 1, fun n => (n + 1 : ℝ)⁻¹, tendsto_nat1, h0,
            tendsto_nat1, tendsto_inv1, 0, 1, zero_ne_one, ?_, ?_⟩)
          · exact tendsto_const_nhds.congr fun n => by ring
          · exact tendsto_const_nhds.congr fun n => by field_simp
        · rw [e] at hc; cases hc
        · rw [e] at hc; cases hc
      | pinf => cases hc
      | ninf => cases hc
    | ninf =>
      cases b with
      | nan => exact Or.inr (Or.inl rfl)
      | fin v =>
        change infMul false v = nan at hc
        rcases infMul_cases false v with ⟨rfl, e⟩ | ⟨h, e⟩ | ⟨h, e⟩
        · refine Or.inr (Or.inr ⟨fun n => -(n + 1), fun _ => 0, fun n => -(n + 1), fun n => -(n + 1 : ℝ)⁻¹, tendsto_nnat1,
            h0, tendsto_nnat1, hninv, 0, 1, zero_ne_one, ?_, ?_⟩)
          · exact tendsto_const_nhds.congr fun n => by ring
          · exact tendsto_const_nhds.congr fun n => by field_simp
        · rw [e] at hc; cases hc
        · rw [e] at hc; cases hc
      | pinf => cases hc
      | ninf => cases hc
  · rintro (rfl | rfl)
    · cases b <;> rfl
    · cases a <;> rfl

theorem min_eventually_left {x y : ℕ → ℝ} {u : ℝ} (hx : Tendsto x atTop (nhds u)) (hy : Tendsto y atTop atTop) :
    ∀ᶠ n in atTop, x n ≤ y n := by
  filter_upwards [hx.eventually_lt_const (lt_add_one u), hy.eventually_ge_atTop (u + 1)] with n h1 h2
  exact h1.le.trans h2

theorem max_eventually_left {x y : ℕ → ℝ} {u : ℝ} (hx : Tendsto x atTop (nhds u)) (hy : Tendsto y atTop atBot) :
    ∀ᶠ n in atTop, y n ≤ x n := by
  filter_upwards [hx.eventually_const_lt (sub_one_lt u), hy.eventually_le_atBot (u - 1)] with n h1 h2
  exact h2.trans h1.le

theorem min_atTop {x y : ℕ → ℝ} (hx : Tendsto x atTop atTop) (hy : Tendsto y atTop atTop) :
    Tendsto (fun n => min (x n) (y n)) atTop atTop := by
  refine tendsto_atTop.2 fun b => ?_
  filter_upwards [hx.eventually_ge_atTop b, hy.eventually_ge_atTop b] with n h1 h2
  exact le_min h1 h2

theorem max_atBot {x y : ℕ → ℝ} (hx : Tendsto x atTop atBot) (hy : Tendsto y atTop atBot) :
    Tendsto (fun n => max (x n) (y n)) atTop atBot := by
  refine tendsto_atBot.2 fun b => ?_
  filter_upwards [hx.eventually_le_atBot b, hy.eventually_le_atBot b] with n h1 h2
  exact max_le h1 h2

/-- **C75 (minimum).** -/
theorem C75_ieee_minimum (a b : Flt ℝ) : IsIEEE min a b (a.minimum b) := by
  refine ⟨fun hc x y hx hy => ?_, fun hc => ?_, ?_⟩
  · cases a with
    | nan => exact hx.elim
    | fin u =>
      cases b with
      | nan => exact hy.elim
      | fin v => exact Tendsto.min hx hy
      | pinf => exact Tendsto.congr' ((min_eventually_left hx hy).mono fun n h => (min_eq_left h).symm) hx
      | ninf => exact tendsto_atBot_mono (fun n => min_le_right _ _) hy
    | pinf =>
      cases b with
      | nan => exact hy.elim
      | fin v => exact Tendsto.congr' ((min_eventually_left hy hx).mono fun n h => (min_eq_right h).symm) hy
      | pinf => exact min_atTop hx hy
      | ninf => exact tendsto_atBot_mono (fun n => min_le_right _ _) hy
    | ninf =>
      cases b with
      | nan => exact hy.elim
      | _ => exact tendsto_atBot_mono (fun n => min_le_left _ _) hx
  · cases a <;> cases b <;> first | exact Or.inl rfl | exact Or.inr (Or.inl rfl) | cases hc
  · rintro (rfl | rfl)
    · cases b <;> rfl
    · cases a <;> rfl

/-- **C75 (maximum).** -/
theorem C75_ieee_maximum (a b : Flt ℝ) : IsIEEE max a b (a.maximum b) := by
  refine ⟨fun hc x y hx hy => ?_, fun hc => ?_, ?_⟩
  · cases a with
    | nan => exact hx.elim
    | fin u =>
      cases b with
      | nan => exact hy.elim
      | fin v => exact Tendsto.max hx hy
      | pinf => exact tendsto_atTop_mono (fun n => le_max_right _ _) hy
      | ninf => exact Tendsto.congr' ((max_eventually_left hx hy).mono fun n h => (max_eq_left h).symm) hx
    | pinf =>
      cases b with
      | nan => exact hy.elim
      | _ => exact tendsto_atTop_mono (fun n => le_max_left _ _) hx
    | ninf =>
      cases b with
      | nan => exact hy.elim
      | fin v => exact Tendsto.congr' ((max_eventually_left hy hx).mono fun n h => (max_eq_right h).symm) hy
      | pinf => exact tendsto_atTop_mono (fun n => le_max_right _ _) hy
      | ninf => exact max_atBot hx hy
  · cases a <;> cases b <;> first | exact Or.inl rfl | exact Or.inr (Or.inl rfl) | cases hc
  · rintro (rfl | rfl)
    · cases b <;> rfl
    · cases a <;> rfl

theorem limit_exists {a : Flt ℝ} (h : a ≠ nan) : ∃ x, a.Limit x := by
  cases a with
  | nan => exact absurd rfl h
  | fin u => exact ⟨fun _ => u, tendsto_const_nhds⟩
  | pinf => exact ⟨_, tendsto_nat1⟩
  | ninf => exact ⟨_, tendsto_nnat1⟩

theorem limit_unique {a b : Flt ℝ} {x : ℕ → ℝ} (ha : a.Limit x) (hb : b.Limit x) : a = b := by
  cases a <;> cases b <;> first
    | exact ha.elim
    | exact hb.elim
    | rfl
    | exact congrArg fin (tendsto_nhds_unique ha hb)
    | exact (not_tendsto_nhds_of_tendsto_atTop ha _ hb).elim
    | exact (not_tendsto_nhds_of_tendsto_atTop hb _ ha).elim
    | exact (not_tendsto_nhds_of_tendsto_atBot ha _ hb).elim
    | exact (not_tendsto_nhds_of_tendsto_atBot hb _ ha).elim
    | exact (ha.not_tendsto (disjoint_atTop_atBot) hb).elim
    | exact (ha.not_tendsto (disjoint_atTop_atBot).symm hb).elim

/-- **C75 (the description determines the result).** -/
theorem C75_ieee_unique {op : ℝ → ℝ → ℝ} {a b c c' : Flt ℝ} (h : IsIEEE op a b c) (h' : IsIEEE op a b c') : c = c' := by
  have key : ∀ {c c' : Flt ℝ}, IsIEEE op a b c → IsIEEE op a b c' → c = nan → c' = nan := by
    intro c c' h h' hc
    by_contra hn
    rcases h.2.1 hc with ha | hb | ⟨x, y, x', y', hx, hy, hx', hy', l, l', hne, hl, hl'⟩
    · exact hn (h'.2.2 (Or.inl ha))
    · exact hn (h'.2.2 (Or.inr hb))
    · have e1 := limit_unique (b := fin l) (h'.1 hn x y hx hy) hl
      have e2 := limit_unique (b := fin l') (h'.1 hn x' y' hx' hy') hl'
      rw [e1] at e2
      cases e2
      exact hne rfl
  by_cases hc : c = nan
  · rw [hc, key h h' hc]
  · have hc' : c' ≠ nan := fun e => hc (key h' h e)
    have ha : a ≠ nan := fun e => hc (h.2.2 (Or.inl e))
    have hb : b ≠ nan := fun e => hc (h.2.2 (Or.inr e))
    obtain ⟨x, hx⟩ := limit_exists ha
    obtain ⟨y, hy⟩ := limit_exists hb
    exact limit_unique (h.1 hc x y hx hy) (h'.1 hc' x y hx hy)

end Flt
end AB
