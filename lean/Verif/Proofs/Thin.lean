/-
Families of coefficients whose widths are bounded by a multiple of the width of the trust region.
-/
import Verif.Proofs.Iso5
import Verif.Spec.Converge

set_option linter.unusedSectionVars false

namespace AB
variable {K : Type} [Field K] [LinearOrder K] [IsStrictOrderedRing K]
open IA (repS powLo powHi)

section scalar
variable {ι : Type} (w : ι → K)

/-- the widths are bounded by a multiple of `w` -/
def Wid (l u : ι → K) : Prop := ∃ C : K, 0 ≤ C ∧ ∀ i, u i - l i ≤ C * w i

/-- bounded intervals whose widths are bounded by a multiple of `w` -/
def TS (l u : ι → K) : Prop :=
  ∃ B C : K, 0 ≤ B ∧ 0 ≤ C ∧ ∀ i, |l i| ≤ B ∧ |u i| ≤ B ∧ l i ≤ u i ∧ u i - l i ≤ C * w i

variable {w} {l u m v : ι → K}

theorem Wid.add (h1 : Wid w l u) (h2 : Wid w m v) : Wid w (fun i => l i + m i) (fun i => u i + v i) := by
  obtain ⟨C, c0, h1⟩ := h1
  obtain ⟨D, d0, h2⟩ := h2
  exact ⟨C + D, add_nonneg c0 d0, fun i => by have := h1 i; have := h2 i; rw [add_mul]; linarith⟩

theorem Wid.zero (_hw : ∀ i, 0 ≤ w i) (h : ∀ i, u i = l i) : Wid w l u :=
  ⟨0, le_rfl, fun i => by rw [h i]; simp⟩

theorem Wid.mono (h : Wid w l u) (h1 : ∀ i, v i - m i ≤ u i - l i) : Wid w m v := by
  obtain ⟨C, c0, h⟩ := h
  exact ⟨C, c0, fun i => (h1 i).trans (h i)⟩

theorem Wid.smul (h : Wid w l u) {c : K} (hc : 0 ≤ c) : Wid w (fun i => c * l i) (fun i => c * u i) := by
  obtain ⟨C, c0, h⟩ := h
  exact ⟨c * C, mul_nonneg hc c0, fun i => by
    rw [← mul_sub, mul_assoc]; exact mul_le_mul_of_nonneg_left (h i) hc⟩

theorem Wid.sum (hw : ∀ i, 0 ≤ w i) {α : Type} (T : List α) {l u : ι → α → K} (h : ∀ t ∈ T, Wid w (fun i => l i t) (fun i => u i t)) :
    Wid w (fun i => (T.map (l i)).sum) (fun i => (T.map (u i)).sum) := by
  induction T with
  | nil => exact .zero hw fun i => rfl
  | cons t T ih =>
    simp only [List.map_cons, List.sum_cons]
    exact (h t (by simp)).add (ih fun t ht => h t (List.mem_cons_of_mem _ ht))

theorem TS.wid (h : TS w l u) : Wid w l u := by
  obtain ⟨B, C, -, c0, h⟩ := h
  exact ⟨C, c0, fun i => (h i).2.2.2⟩

theorem TS.le (h : TS w l u) (i : ι) : l i ≤ u i := by
  obtain ⟨B, C, -, c0, h⟩ := h
  exact (h i).2.2.1

theorem mul_diff {a b a' b' A B x y : K} (ha : |a| ≤ A) (hb : |b'| ≤ B) (h1 : |a - a'| ≤ x) (h2 : |b - b'| ≤ y) :
    a * b - a' * b' ≤ A * y + B * x := by
  have e : a * b - a' * b' = a * (b - b') + b' * (a - a') := by ring
  have hA : 0 ≤ A := (abs_nonneg a).trans ha
  have hB : 0 ≤ B := (abs_nonneg b').trans hb
  rw [e]
  refine (le_abs_self _).trans ((abs_add_le _ _).trans (add_le_add ?_ ?_))
  · rw [abs_mul]; exact mul_le_mul ha h2 (abs_nonneg _) hA
  · rw [abs_mul]; exact mul_le_mul hb h1 (abs_nonneg _) hB

theorem mid_abs {l u x B : K} (h1 : |l| ≤ B) (h2 : |u| ≤ B) (h3 : l ≤ x) (h4 : x ≤ u) : |x| ≤ B :=
  abs_le.2 ⟨(abs_le.1 h1).1.trans h3, h4.trans (abs_le.1 h2).2⟩

theorem mid_dist {l u x y : K} (h1 : l ≤ x) (h2 : x ≤ u) (h3 : l ≤ y) (h4 : y ≤ u) : |x - y| ≤ u - l :=
  abs_le.2 ⟨by linarith, by linarith⟩

/-- products attained in the boxes -/
theorem TS.mul (h1 : TS w l u) (h2 : TS w m v) {p q : ι → K}
    (hp : ∀ i, ∃ a b, l i ≤ a ∧ a ≤ u i ∧ m i ≤ b ∧ b ≤ v i ∧ p i = a * b)
    (hq : ∀ i, ∃ a b, l i ≤ a ∧ a ≤ u i ∧ m i ≤ b ∧ b ≤ v i ∧ q i = a * b) : Wid w p q := by
  obtain ⟨B, C, b0, c0, h1⟩ := h1
  obtain ⟨B', C', b0', c0', h2⟩ := h2
  refine ⟨B * C' + B' * C, by positivity, fun i => ?_⟩
  obtain ⟨a, b, a1, a2, a3, a4, e⟩ := hp i
  obtain ⟨a', b', a1', a2', a3', a4', e'⟩ := hq i
  obtain ⟨k1, k2, k3, k4⟩ := h1 i
  obtain ⟨n1, n2, n3, n4⟩ := h2 i
  rw [e, e']
  refine (mul_diff (mid_abs k1 k2 a1' a2') (mid_abs n1 n2 a3 a4) ((mid_dist a1' a2' a1 a2).trans k4)
    ((mid_dist a3' a4' a3 a4).trans n4)).trans (le_of_eq (by ring))

theorem TS.p (h1 : TS w l u) (h2 : TS w m v) :
    Wid w (fun i => plo (l i) (u i) (m i) (v i)) (fun i => phi (l i) (u i) (m i) (v i)) := by
  have key : ∀ i a b, a ∈ [l i, u i] → b ∈ [m i, v i] → l i ≤ a ∧ a ≤ u i ∧ m i ≤ b ∧ b ≤ v i := by
    intro i a b ha hb
    have e1 := h1.le i
    have e2 := h2.le i
    rcases List.mem_pair.1 ha with rfl | rfl <;> rcases List.mem_pair.1 hb with rfl | rfl <;>
      simp [e1, e2]
  refine h1.mul h2 (fun i => ?_) (fun i => ?_)
  · obtain ⟨a, ha, b, hb, e⟩ := plo_mem (l i) (u i) (m i) (v i)
    obtain ⟨k1, k2, k3, k4⟩ := key i a b ha hb
    exact ⟨a, b, k1, k2, k3, k4, e⟩
  · obtain ⟨a, ha, b, hb, e⟩ := phi_mem (l i) (u i) (m i) (v i)
    obtain ⟨k1, k2, k3, k4⟩ := key i a b ha hb
    exact ⟨a, b, k1, k2, k3, k4, e⟩

theorem TS.g (h1 : TS w l u) (h2 : TS w m v) :
    Wid w (fun i => glo (l i) (u i) (m i) (v i)) (fun i => ghi (l i) (u i) (m i) (v i)) := by
  obtain ⟨B, C, b0, c0, h1⟩ := h1
  obtain ⟨B', C', b0', c0', h2⟩ := h2
  refine ⟨4 * (B * C' + B' * C), by positivity, fun i => ?_⟩
  obtain ⟨k1, k2, k3, k4⟩ := h1 i
  obtain ⟨n1, n2, n3, n4⟩ := h2 i
  have pa : ∀ {x y : K}, |x| ≤ y → |max 0 x| ≤ y := by
    intro x y h
    rcases max_choice 0 x with e | e <;> rw [e]
    · simpa using (abs_nonneg x).trans h
    · exact h
  have na : ∀ {x y : K}, |x| ≤ y → |min 0 x| ≤ y := by
    intro x y h
    rcases min_choice 0 x with e | e <;> rw [e]
    · simpa using (abs_nonneg x).trans h
    · exact h
  have pd : ∀ {x y z : K}, x ≤ y → y - x ≤ z → |max 0 y - max 0 x| ≤ z := by
    intro x y z h1 h2
    rw [abs_of_nonneg (by have := max_le_max_left 0 h1; linarith)]
    rcases le_total 0 x with h | h
    · rw [max_eq_right h, max_eq_right (h.trans h1)]; exact h2
    · rw [max_eq_left h]
      rcases le_total 0 y with h' | h'
      · rw [max_eq_right h']; linarith
      · rw [max_eq_left h']; linarith
  have nd : ∀ {x y z : K}, x ≤ y → y - x ≤ z → |min 0 y - min 0 x| ≤ z := by
    intro x y z h1 h2
    rw [abs_of_nonneg (by have := min_le_min_left 0 h1; linarith)]
    rcases le_total 0 x with h | h
    · rw [min_eq_left h, min_eq_left (h.trans h1)]; linarith
    · rw [min_eq_right h]
      rcases le_total 0 y with h' | h'
      · rw [min_eq_left h']; linarith
      · rw [min_eq_right h']; linarith
  have sw : ∀ {x y z : K}, |x - y| ≤ z → |y - x| ≤ z := by
    intro x y z h; rw [abs_sub_comm]; exact h
  have t1 := mul_diff (pa k2) (pa n1) (pd k3 k4) (pd n3 n4)
  have t2 := mul_diff (na k2) (pa n2) (nd k3 k4) (sw (pd n3 n4))
  have t3 := mul_diff (pa k1) (na n1) (sw (pd k3 k4)) (nd n3 n4)
  have t4 := mul_diff (na k1) (na n2) (sw (nd k3 k4)) (sw (nd n3 n4))
  unfold glo ghi
  have e : 4 * (B * C' + B' * C) * w i = 4 * (B * (C' * w i) + B' * (C * w i)) := by ring
  rw [e]
  linarith

theorem pow_diff {B x y z : K} (hx : |x| ≤ B) (hy : |y| ≤ B) (h : |x - y| ≤ z) (k : ℕ) :
    |x ^ k - y ^ k| ≤ k * B ^ (k - 1) * z := by
  have hB : 0 ≤ B := (abs_nonneg x).trans hx
  have hz : 0 ≤ z := (abs_nonneg _).trans h
  induction k with
  | zero => simp
  | succ k ih =>
    have e : x ^ (k + 1) - y ^ (k + 1) = x ^ k * (x - y) + (x ^ k - y ^ k) * y := by ring
    rw [e]
    have p1 : |x ^ k * (x - y)| ≤ B ^ k * z := by
      rw [abs_mul, abs_pow]
      exact mul_le_mul (pow_le_pow_left₀ (abs_nonneg _) hx k) h (abs_nonneg _) (by positivity)
    have p2 : |(x ^ k - y ^ k) * y| ≤ k * B ^ (k - 1) * z * B := by
      rw [abs_mul]
      exact mul_le_mul ih hy (abs_nonneg _) (by positivity)
    refine (abs_add_le _ _).trans ((add_le_add p1 p2).trans (le_of_eq ?_))
    cases k with
    | zero => simp
    | succ k =>
      simp only [Nat.add_sub_cancel, Nat.cast_add, Nat.cast_one]
      ring

theorem TS.pow (h : TS w l u) {k : ℕ} (hk : k ≠ 0) :
    Wid w (fun i => powLo k (l i) (u i)) (fun i => powHi k (l i) (u i)) := by
  obtain ⟨B, C, b0, c0, h⟩ := h
  refine ⟨k * B ^ (k - 1) * C, by positivity, fun i => ?_⟩
  obtain ⟨k1, k2, k3, k4⟩ := h i
  obtain ⟨x, x1, x2, ex⟩ := IA.powLo_attained hk k3
  obtain ⟨y, y1, y2, ey⟩ := IA.powHi_attained (k := k) k3
  beta_reduce
  rw [ex, ey, mul_assoc]
  exact (le_abs_self _).trans (pow_diff (mid_abs k1 k2 y1 y2) (mid_abs k1 k2 x1 x2)
    ((mid_dist y1 y2 x1 x2).trans k4) k)

end scalar

/-- coefficients contained in the one with index `i0`, with widths bounded by a multiple of `w` -/
structure Thin {ι : Type} (w : ι → K) (i0 : ι) (c : ι → Coef K) : Prop where
  nest : ∀ i, Nest (c i) (c i0)
  wid : ∀ L, ValidIdx (c i0).shape L → Wid w (fun i => (c i).lo.bget L) (fun i => (c i).hi.bget L)

section coef
variable {ι : Type} {w : ι → K} {i0 : ι} {A B r : ι → Coef K}

theorem Thin.shape (h : Thin w i0 A) (i : ι) : (A i).shape = (A i0).shape := (h.nest i).shape

theorem Thin.ndim (h : Thin w i0 A) (i : ι) : (A i).ndim = (A i0).ndim := (h.nest i).ndim

theorem Thin.const (hw : ∀ i, 0 ≤ w i) {c : Coef K} (hc : c.isArr = true) : Thin w i0 fun _ => c := by
  cases c with
  | arr a => exact ⟨fun _ => .arr a, fun L _ => .zero hw fun _ => rfl⟩
  | ivl _ _ => cases hc

theorem Thin.arr (hw : ∀ i, 0 ≤ w i) (a : ND K) : Thin w i0 fun _ => .arr a := .const hw rfl

theorem bget_bidx (x : ND K) {S R L : List ℕ} (hx : x.shape = S) (hR : ble S R) (hL : ValidIdx R L) :
    x.bget L = x.bget (bidx S L) := by
  have hv := validIdx_bidx hR hL
  rw [ND.bget_valid x (I := bidx S L) (hx ▸ hv), ND.bget_def, hx]

theorem Thin.entry (h : Thin w i0 A) {R L : List ℕ} (hR : ble (A i0).shape R) (hL : ValidIdx R L) :
    TS w (fun i => (A i).lo.bget L) (fun i => (A i).hi.bget L) := by
  obtain ⟨C, c0, hC⟩ := h.wid _ (validIdx_bidx hR hL)
  refine ⟨max |(A i0).lo.bget L| |(A i0).hi.bget L|, C, le_max_of_le_left (abs_nonneg _), c0, fun i => ?_⟩
  obtain ⟨k1, k2, k3⟩ := (h.nest i).entries hR hL
  have b1 : |(A i0).lo.bget L| ≤ max |(A i0).lo.bget L| |(A i0).hi.bget L| := le_max_left _ _
  have b2 : |(A i0).hi.bget L| ≤ max |(A i0).lo.bget L| |(A i0).hi.bget L| := le_max_right _ _
  refine ⟨mid_abs b1 b2 k1 (k2.trans k3), mid_abs b1 b2 (k1.trans k2) k3, k2, ?_⟩
  have := hC i
  have s := h.shape i
  beta_reduce
  rw [bget_bidx (A i).lo (by rw [← s]; cases A i <;> rfl) hR hL, bget_bidx (A i).hi ?_ hR hL]
  · exact this
  · rw [← s]
    have hwf := (h.nest i).wf'.wf
    revert hwf
    cases A i with
    | arr a => exact fun _ => rfl
    | ivl a b => exact fun hwf => (show a.shape = b.shape from hwf).symm

/-- a uniform constant -/
theorem Thin.uniform (h : Thin w i0 A) (hw : ∀ i, 0 ≤ w i) :
    ∃ C : K, 0 ≤ C ∧ ∀ i L, ValidIdx (A i0).shape L → (A i).hi.bget L - (A i).lo.bget L ≤ C * w i := by
  have key : ∀ l : List (List ℕ), (∀ L ∈ l, ValidIdx (A i0).shape L) →
      ∃ C : K, 0 ≤ C ∧ ∀ i, ∀ L ∈ l, (A i).hi.bget L - (A i).lo.bget L ≤ C * w i := by
    intro l
    induction l with
    | nil => exact fun _ => ⟨0, le_rfl, by simp⟩
    | cons L l ih =>
      intro hl
      obtain ⟨C, c0, hC⟩ := ih fun L hL => hl L (List.mem_cons_of_mem _ hL)
      obtain ⟨D, d0, hD⟩ := h.wid L (hl L (by simp))
      refine ⟨C + D, add_nonneg c0 d0, fun i M hM => ?_⟩
      have e1 := mul_nonneg c0 (hw i)
      have e2 := mul_nonneg d0 (hw i)
      rw [add_mul]
      rcases List.mem_cons.1 hM with rfl | hM
      · have := hD i; linarith
      · have := hC i M hM; linarith
  obtain ⟨C, c0, hC⟩ := key (idx (A i0).shape) fun L hL => mem_idx.1 hL
  exact ⟨C, c0, fun i L hL => hC i L (mem_idx.2 hL)⟩

end coef

namespace IA
variable {ι : Type} {w : ι → K} {i0 : ι} {A B r : ι → Coef K}

theorem thin_add (hA : Thin w i0 A) (hB : Thin w i0 B) (h : ∀ i, add (A i) (B i) = .ok (r i)) : Thin w i0 r := by
  refine ⟨fun i => iso_add (hA.nest i) (hB.nest i) (h i) (h i0), fun L hL => ?_⟩
  have n : ∀ i, Nest (r i) (r i0) := fun i => iso_add (hA.nest i) (hB.nest i) (h i) (h i0)
  have hle := bshape_le (add_ok (hA.nest i0).wf.wf (hB.nest i0).wf.wf (h i0)).2.1
  refine ((hA.entry hle.1 hL).wid.add (hB.entry hle.2 hL).wid).mono fun i => le_of_eq ?_
  obtain ⟨a1, a2⟩ := (add_ok (hA.nest i).wf'.wf (hB.nest i).wf'.wf (h i)).2.2.2 L (by rw [(n i).shape]; exact hL.length.le)
  rw [a1, a2]

theorem thin_sub (hA : Thin w i0 A) (hB : Thin w i0 B) (h : ∀ i, subtract (A i) (B i) = .ok (r i)) : Thin w i0 r := by
  have n : ∀ i, Nest (r i) (r i0) := fun i => iso_sub (hA.nest i) (hB.nest i) (h i) (h i0)
  refine ⟨n, fun L hL => ?_⟩
  have hle := bshape_le (sub_ok (hA.nest i0).wf.wf (hB.nest i0).wf.wf (h i0)).2.1
  refine ((hA.entry hle.1 hL).wid.add (hB.entry hle.2 hL).wid).mono fun i => le_of_eq ?_
  obtain ⟨a1, a2⟩ := (sub_ok (hA.nest i).wf'.wf (hB.nest i).wf'.wf (h i)).2.2.2 L (by rw [(n i).shape]; exact hL.length.le)
  rw [a1, a2]; ring

theorem thin_negative (hA : Thin w i0 A) : Thin w i0 fun i => negative (A i) := by
  refine ⟨fun i => iso_negative (hA.nest i), fun L hL => ?_⟩
  have hs := (neg_ok (hA.nest i0).wf.wf).2.1
  rw [hs] at hL
  refine (hA.entry (ble_refl _) hL).wid.mono fun i => le_of_eq ?_
  obtain ⟨a1, a2⟩ := (neg_ok (hA.nest i).wf'.wf).2.2.2 L
  simp only [a1, a2]; ring

theorem thin_bilinear {op : ND K → ND K → Py (ND K)} {R : List ℕ} (hw : ∀ i, 0 ≤ w i) (hA : Thin w i0 A) (hB : Thin w i0 B)
    (hop : Formed op (A i0).shape (B i0).shape R) (h : ∀ i, arbitraryBilinear (A i) (B i) op false = .ok (r i)) :
    Thin w i0 r := by
  refine ⟨fun i => iso_bilinear (hA.nest i) (hB.nest i) hop (h i) (h i0), fun L hL => ?_⟩
  have hs := (bilinearFalse_ok (hA.nest i0).wf.wf (hB.nest i0).wf.wf hop.1 (h i0)).2.1
  rw [hs] at hL
  obtain ⟨Tm, t1, t2⟩ := hop.2 L hL
  refine (Wid.sum hw Tm (l := fun i t => t.1 * glo ((A i).lo.bget t.2.1) ((A i).hi.bget t.2.1) ((B i).lo.bget t.2.2) ((B i).hi.bget t.2.2))
    (u := fun i t => t.1 * ghi ((A i).lo.bget t.2.1) ((A i).hi.bget t.2.1) ((B i).lo.bget t.2.2) ((B i).hi.bget t.2.2))
    fun t ht => ?_).mono fun i => le_of_eq ?_
  · obtain ⟨h0, ⟨Q, a1, a2⟩, ⟨Q', b1, b2⟩⟩ := t1 t ht
    exact Wid.smul ((hA.entry a1 a2).g (hB.entry b1 b2)) h0
  · obtain ⟨-, e1, e2⟩ := (bilinearFalse_ok (hA.nest i).wf'.wf (hB.nest i).wf'.wf
      (by rw [hA.shape, hB.shape]; exact hop.1) (h i)).2.2.2 L Tm hL.length.le (by rw [hA.shape, hB.shape]; exact t2)
    rw [e1, e2]

theorem thin_bilinear1 {op : ND K → ND K → Py (ND K)} {R : List ℕ} (hA : Thin w i0 A) (hB : Thin w i0 B)
    (hop : Formed1 op (A i0).shape (B i0).shape R) (h : ∀ i, arbitraryBilinear (A i) (B i) op true = .ok (r i)) :
    Thin w i0 r := by
  refine ⟨fun i => iso_bilinear1 (hA.nest i) (hB.nest i) hop (h i) (h i0), fun L hL => ?_⟩
  have hs := (bilinearTrue_ok (hA.nest i0).wf.wf (hB.nest i0).wf.wf hop.1 (h i0)).2.1
  rw [hs] at hL
  obtain ⟨φ, ψ, ⟨Q, a1, a2⟩, ⟨Q', b1, b2⟩, t2⟩ := hop.2 L hL
  refine ((hA.entry a1 a2).p (hB.entry b1 b2)).mono fun i => le_of_eq ?_
  obtain ⟨e1, e2⟩ := (bilinearTrue_ok (hA.nest i).wf'.wf (hB.nest i).wf'.wf
      (by rw [hA.shape, hB.shape]; exact hop.1) (h i)).2.2.2 L φ ψ hL.length.le (by rw [hA.shape, hB.shape]; exact t2)
  rw [e1, e2]

theorem formed1_never {op : ND K → ND K → Py (ND K)} {S T : List ℕ}
    (h : ∀ x y s, x.shape = S → y.shape = T → op x y ≠ .ok s) : ∃ R, Formed1 op S T R :=
  ⟨[0], fun x y s hx hy hs => absurd hs (h x y s hx hy), fun L hL => by
    cases hL with | cons h _ => exact absurd h (Nat.not_lt_zero _)⟩

theorem formed1_mul (S T : List ℕ) : ∃ R, Formed1 (ND.map2 (· * ·) : ND K → ND K → Py (ND K)) S T R := by
  cases hb : bshape S T with
  | none =>
    refine formed1_never fun x y s hx hy hs => ?_
    have := (ND.map2_ok hs).1
    rw [hx, hy, hb] at this; cases this
  | some R =>
    have hle := bshape_le hb
    have key : ∀ x y s : ND K, x.shape = S → y.shape = T → ND.map2 (· * ·) x y = .ok s → s.shape = R := by
      intro x y s hx hy hs
      have := (ND.map2_ok hs).1
      rw [hx, hy, hb] at this
      exact (Option.some.inj this).symm
    refine ⟨R, key, fun L hL => ⟨L, L, ⟨R, hle.1, hL⟩, ⟨R, hle.2, hL⟩, fun x y s hx hy hs => ?_⟩⟩
    exact (ND.map2_ok hs).2 L (by rw [key x y s hx hy hs]; exact hL.length.le)

theorem thin_multiply (hA : Thin w i0 A) (hB : Thin w i0 B) (h : ∀ i, multiply (A i) (B i) = .ok (r i)) : Thin w i0 r := by
  obtain ⟨R, hR⟩ := formed1_mul (K := K) (A i0).shape (B i0).shape
  exact thin_bilinear1 hA hB hR h

theorem thin_power (hw : ∀ i, 0 ≤ w i) {k : ℕ} (hA : Thin w i0 A) (h : ∀ i, power (A i) (k : ℤ) = .ok (r i)) : Thin w i0 r := by
  have n : ∀ i, Nest (r i) (r i0) := fun i => iso_power (hA.nest i) (h i) (h i0)
  refine ⟨n, fun L hL => ?_⟩
  rw [(power_ok (hA.nest i0).wf.wf (h i0)).2.1] at hL
  have e := fun i => (power_ok (hA.nest i).wf'.wf (h i)).2.2.2.2 L (by rw [hA.shape]; exact hL.length.le)
  by_cases hc : (A i0).isArr = true ∨ k = 0
  · have hr : ∀ i, r i = r i0 := by
      intro i
      refine (n i).eq_of_arr ((power_ok (hA.nest i0).wf.wf (h i0)).2.2.1 hc)
    refine .zero hw fun i => ?_
    have ha := (power_ok (hA.nest i0).wf.wf (h i0)).2.2.1 hc
    rw [hr i]
    revert ha
    cases r i0 with
    | arr a => exact fun _ => rfl
    | ivl _ _ => exact fun h => by cases h
  · push Not at hc
    refine ((hA.entry (ble_refl _) hL).pow hc.2).mono fun i => le_of_eq ?_
    obtain ⟨a1, a2⟩ := (e i).2 (by rw [(hA.nest i).isArr]; simpa using hc.1) hc.2
    rw [a1, a2]

theorem thin_outerProduct {d : ℕ} (hA : Thin w i0 A) (hB : Thin w i0 B) (h : ∀ i, outerProduct (A i) (B i) d = .ok (r i)) :
    Thin w i0 r := by
  refine ⟨fun i => iso_outerProduct (hA.nest i) (hB.nest i) (h i) (h i0), fun L hL => ?_⟩
  obtain ⟨d1, d2, -, -, Bs, b1, b2, -⟩ := outerProduct_ok (hA.nest i0).wf.wf (hB.nest i0).wf.wf (h i0)
  rw [b2] at hL
  obtain ⟨IJ, J', rfl, v1, v2⟩ := validIdx_split hL
  obtain ⟨I, J, rfl, v3, v4⟩ := validIdx_split v1
  have hle := bshape_le b1
  have lB : Bs.length = d := by
    have h1 := ble_length hle.1
    have h2 := ble_length hle.2
    have := bshape_length b1
    rw [Coef.ndim_def] at d1 d2
    rw [List.length_take, List.length_take] at *
    omega
  have t1 : TS w (fun i => (A i).lo.bget (I ++ J)) (fun i => (A i).hi.bget (I ++ J)) := by
    refine hA.entry (R := Bs ++ (A i0).shape.drop d) ?_ (validIdx_append v3 v4)
    conv_lhs => rw [← List.take_append_drop d (A i0).shape]
    exact ble_append hle.1 (ble_refl _) rfl
  have t2 : TS w (fun i => (B i).lo.bget (I ++ J')) (fun i => (B i).hi.bget (I ++ J')) := by
    refine hB.entry (R := Bs ++ (B i0).shape.drop d) ?_ (validIdx_append v3 v2)
    conv_lhs => rw [← List.take_append_drop d (B i0).shape]
    exact ble_append hle.2 (ble_refl _) rfl
  refine (t1.p t2).mono fun i => le_of_eq ?_
  obtain ⟨-, -, -, -, -, -, -, e⟩ := outerProduct_ok (hA.nest i).wf'.wf (hB.nest i).wf'.wf (h i)
  obtain ⟨e1, e2⟩ := e I J J' (by rw [← v3.length, lB]) (by rw [hA.ndim, ← v4.length, List.length_drop, Coef.ndim_def])
    (by rw [hB.ndim, ← v2.length, List.length_drop, Coef.ndim_def])
  rw [e1, e2]

end IA
end AB
