import Verif.Model.Interval
import Verif.Spec.Contains
import Verif.Proofs.Broadcast
import Mathlib.Tactic.Positivity
import Mathlib.Algebra.Order.Ring.Abs

set_option linter.unusedSectionVars false

namespace AB

@[simp] theorem py_bind_ok {α β : Type} {x : Py α} {f : α → Py β} {b : β} :
    (x >>= f) = .ok b ↔ ∃ a, x = .ok a ∧ f a = .ok b := by
  cases x with
  | error e => simp [Bind.bind, Except.bind]
  | ok a => simp [Bind.bind, Except.bind]

@[simp] theorem py_pure {α : Type} {a b : α} : (pure a : Py α) = .ok b ↔ a = b := by
  simp [pure, Except.pure]

@[simp] theorem py_ok_bind {α β : Type} {a : α} {f : α → Py β} :
    ((Except.ok a : Py α) >>= f) = f a := rfl

@[simp] theorem py_error_bind {α β : Type} {e : PyErr} {f : α → Py β} :
    ((Except.error e : Py α) >>= f) = .error e := rfl

theorem py_pure_eq {α : Type} (a : α) : (pure a : Py α) = .ok a := rfl

variable {K : Type}

namespace Coef

/-- lower endpoint (the array itself for an array) -/
def lo : Coef K → ND K
  | arr a => a
  | ivl l _ => l
/-- upper endpoint (the array itself for an array) -/
def hi : Coef K → ND K
  | arr a => a
  | ivl _ h => h

@[simp] theorem lo_arr (a : ND K) : (arr a).lo = a := rfl
@[simp] theorem hi_arr (a : ND K) : (arr a).hi = a := rfl
@[simp] theorem lo_ivl (a b : ND K) : (ivl a b).lo = a := rfl
@[simp] theorem hi_ivl (a b : ND K) : (ivl a b).hi = b := rfl
@[simp] theorem shape_arr (a : ND K) : (arr a).shape = a.shape := rfl
@[simp] theorem shape_ivl (a b : ND K) : (ivl a b).shape = a.shape := rfl
theorem lo_shape (c : Coef K) : c.lo.shape = c.shape := by cases c <;> rfl
theorem ndim_def (c : Coef K) : c.ndim = c.shape.length := rfl

/-- endpoints of the same shape -/
def WF : Coef K → Prop
  | arr _ => True
  | ivl l h => l.shape = h.shape

theorem WF.hi_shape {c : Coef K} (h : c.WF) : c.hi.shape = c.shape := by
  cases c with
  | arr => rfl
  | ivl l h' => exact Eq.symm h

@[simp] theorem WF_arr (a : ND K) : (arr a).WF := trivial
theorem WF_ivl {a b : ND K} : (ivl a b).WF ↔ a.shape = b.shape := Iff.rfl

/-- is a plain array (Bool) -/
def isArr : Coef K → Bool
  | arr _ => true
  | ivl _ _ => false

/-- membership at a broadcast index -/
def Mem [LE K] (c : Coef K) (L : List ℕ) (w : K) : Prop := c.lo.bget L ≤ w ∧ w ≤ c.hi.bget L

theorem mem_arr [PartialOrder K] {a : ND K} {L : List ℕ} {w : K} :
    (arr a).Mem L w ↔ w = a.bget L := by
  simp only [Mem, lo_arr, hi_arr]
  constructor
  · rintro ⟨h1, h2⟩; exact le_antisymm h2 h1
  · rintro rfl; exact ⟨le_rfl, le_rfl⟩

theorem atIdx_iff [PartialOrder K] {c : Coef K} {I : List ℕ} {w : K} (hc : c.WF)
    (h : ValidIdx c.shape I) : c.AtIdx I w ↔ c.Mem I w := by
  cases c with
  | arr a => rw [mem_arr, a.bget_valid h]; rfl
  | ivl l u =>
    simp only [Mem, lo_ivl, hi_ivl]
    rw [l.bget_valid h, u.bget_valid (by rw [← WF_ivl.1 hc]; exact h)]; rfl

theorem contains_iff [PartialOrder K] {c : Coef K} {y : ND K} (hc : c.WF) :
    c.Contains y ↔ y.shape = c.shape ∧ ∀ I, ValidIdx c.shape I → c.Mem I (y.get I) := by
  unfold Contains
  constructor
  · rintro ⟨h1, h2⟩; exact ⟨h1, fun I hI => (atIdx_iff hc hI).1 (h2 I hI)⟩
  · rintro ⟨h1, h2⟩; exact ⟨h1, fun I hI => (atIdx_iff hc hI).2 (h2 I hI)⟩

/-- Membership at an arbitrary broadcast index whose projection is valid. -/
theorem Contains.mem [PartialOrder K] {c : Coef K} {y : ND K} (h : c.Contains y) (hc : c.WF)
    {R L : List ℕ} (hR : ble c.shape R) (hL : ValidIdx R L) : c.Mem L (y.bget L) := by
  have h' := (contains_iff hc).1 h
  have hv := validIdx_bidx hR hL
  have := h'.2 _ hv
  have hlen : R.length = L.length := hL.length
  unfold Mem at *
  rw [ND.bget_def c.lo, ND.bget_def c.hi, ND.bget_def y] at *
  rw [lo_shape, hc.hi_shape, h'.1] at *
  rwa [bidx_valid hv] at this

theorem sameShape_iff [LE K] {c : Coef K} : c.SameShape ↔ c.WF := by cases c <;> rfl

end Coef

section
variable [Field K] [LinearOrder K]

/-- lower bound of `[u,v]*[w,x]` (product rule) -/
def plo (u v w x : K) : K := min (min (min (u*w) (u*x)) (v*w)) (v*x)
/-- upper bound of `[u,v]*[w,x]` (product rule) -/
def phi (u v w x : K) : K := max (max (max (u*w) (u*x)) (v*w)) (v*x)
/-- lower bound of `[u,v]*[w,x]` (sign-split rule) -/
def glo (u v w x : K) : K :=
  max 0 u * max 0 w + max 0 v * min 0 w + min 0 u * max 0 x + min 0 v * min 0 x
/-- upper bound of `[u,v]*[w,x]` (sign-split rule) -/
def ghi (u v w x : K) : K :=
  max 0 v * max 0 x + min 0 v * max 0 w + max 0 u * min 0 x + min 0 u * min 0 w

variable [IsStrictOrderedRing K]

theorem lin_between {a b s t : K} (h1 : a ≤ s) (h2 : s ≤ b) :
    min (a * t) (b * t) ≤ s * t ∧ s * t ≤ max (a * t) (b * t) := by
  rcases le_total 0 t with ht | ht
  · exact ⟨(min_le_left _ _).trans (mul_le_mul_of_nonneg_right h1 ht),
      (mul_le_mul_of_nonneg_right h2 ht).trans (le_max_right _ _)⟩
  · exact ⟨(min_le_right _ _).trans (mul_le_mul_of_nonpos_right h2 ht),
      (mul_le_mul_of_nonpos_right h1 ht).trans (le_max_left _ _)⟩

theorem plo_eq (u v w x : K) : plo u v w x = min (min (w*u) (x*u)) (min (w*v) (x*v)) := by
  unfold plo; rw [min_assoc (min _ _)]; simp only [mul_comm]
theorem phi_eq (u v w x : K) : phi u v w x = max (max (w*u) (x*u)) (max (w*v) (x*v)) := by
  unfold phi; rw [max_assoc (max _ _)]; simp only [mul_comm]

theorem pbounds {u v w x s t : K} (h1 : u ≤ s) (h2 : s ≤ v) (h3 : w ≤ t) (h4 : t ≤ x) :
    plo u v w x ≤ s * t ∧ s * t ≤ phi u v w x := by
  have hs := lin_between (t := t) h1 h2
  have hu := lin_between (t := u) h3 h4
  have hv := lin_between (t := v) h3 h4
  rw [plo_eq, phi_eq]
  rw [mul_comm t u] at hu
  rw [mul_comm t v] at hv
  exact ⟨(min_le_min hu.1 hv.1).trans hs.1, hs.2.trans (max_le_max hu.2 hv.2)⟩

theorem plo_mem (u v w x : K) : ∃ a ∈ [u, v], ∃ b ∈ [w, x], plo u v w x = a * b := by
  unfold plo
  rcases min_choice (min (min (u*w) (u*x)) (v*w)) (v*x) with h | h <;> rw [h]
  · rcases min_choice (min (u*w) (u*x)) (v*w) with h | h <;> rw [h]
    · rcases min_choice (u*w) (u*x) with h | h <;> rw [h]
      · exact ⟨u, by simp, w, by simp, rfl⟩
      · exact ⟨u, by simp, x, by simp, rfl⟩
    · exact ⟨v, by simp, w, by simp, rfl⟩
  · exact ⟨v, by simp, x, by simp, rfl⟩

theorem phi_mem (u v w x : K) : ∃ a ∈ [u, v], ∃ b ∈ [w, x], phi u v w x = a * b := by
  unfold phi
  rcases max_choice (max (max (u*w) (u*x)) (v*w)) (v*x) with h | h <;> rw [h]
  · rcases max_choice (max (u*w) (u*x)) (v*w) with h | h <;> rw [h]
    · rcases max_choice (u*w) (u*x) with h | h <;> rw [h]
      · exact ⟨u, by simp, w, by simp, rfl⟩
      · exact ⟨u, by simp, x, by simp, rfl⟩
    · exact ⟨v, by simp, w, by simp, rfl⟩
  · exact ⟨v, by simp, x, by simp, rfl⟩

theorem posneg (s : K) : max 0 s + min 0 s = s := by
  have := max_add_min 0 s; simpa using this

theorem gbounds {u v w x s t : K} (h1 : u ≤ s) (h2 : s ≤ v) (h3 : w ≤ t) (h4 : t ≤ x) :
    glo u v w x ≤ s * t ∧ s * t ≤ ghi u v w x := by
  have p : ∀ {a b : K}, a ≤ b → max 0 a ≤ max 0 b := fun h => max_le_max le_rfl h
  have n : ∀ {a b : K}, a ≤ b → min 0 a ≤ min 0 b := fun h => min_le_min le_rfl h
  have pp : ∀ a : K, 0 ≤ max 0 a := fun a => le_max_left _ _
  have nn : ∀ a : K, min 0 a ≤ 0 := fun a => min_le_left _ _
  have e : s * t = max 0 s * max 0 t + max 0 s * min 0 t + min 0 s * max 0 t
      + min 0 s * min 0 t := by
    conv_lhs => rw [← posneg s, ← posneg t]
    ring
  rw [e]
  constructor
  · unfold glo
    have a1 := mul_le_mul (p h1) (p h3) (pp _) (pp _)
    have a2 : max 0 v * min 0 w ≤ max 0 s * min 0 t :=
      (mul_le_mul_of_nonneg_left (n h3) (pp v)).trans (mul_le_mul_of_nonpos_right (p h2) (nn t))
    have a3 : min 0 u * max 0 x ≤ min 0 s * max 0 t :=
      (mul_le_mul_of_nonneg_right (n h1) (pp x)).trans (mul_le_mul_of_nonpos_left (p h4) (nn s))
    have a4 : min 0 v * min 0 x ≤ min 0 s * min 0 t :=
      (mul_le_mul_of_nonpos_left (n h4) (nn v)).trans (mul_le_mul_of_nonpos_right (n h2) (nn t))
    linarith
  · unfold ghi
    have a1 := mul_le_mul (p h2) (p h4) (pp _) (pp _)
    have a2 : min 0 s * max 0 t ≤ min 0 v * max 0 w :=
      (mul_le_mul_of_nonneg_right (n h2) (pp t)).trans (mul_le_mul_of_nonpos_left (p h3) (nn v))
    have a3 : max 0 s * min 0 t ≤ max 0 u * min 0 x :=
      (mul_le_mul_of_nonneg_left (n h4) (pp s)).trans (mul_le_mul_of_nonpos_right (p h1) (nn x))
    have a4 : min 0 s * min 0 t ≤ min 0 u * min 0 w :=
      (mul_le_mul_of_nonpos_left (n h3) (nn s)).trans (mul_le_mul_of_nonpos_right (n h1) (nn w))
    linarith

/-- isotonicity of the sign-split rule -/
theorem g_mono {u v w x u' v' w' x' : K} (h1 : u ≤ u') (h2 : v' ≤ v) (h3 : w ≤ w') (h4 : x' ≤ x) :
    glo u v w x ≤ glo u' v' w' x' ∧ ghi u' v' w' x' ≤ ghi u v w x := by
  have p : ∀ {a b : K}, a ≤ b → max 0 a ≤ max 0 b := fun h => max_le_max le_rfl h
  have n : ∀ {a b : K}, a ≤ b → min 0 a ≤ min 0 b := fun h => min_le_min le_rfl h
  have pp : ∀ a : K, 0 ≤ max 0 a := fun a => le_max_left _ _
  have nn : ∀ a : K, min 0 a ≤ 0 := fun a => min_le_left _ _
  constructor
  · unfold glo
    have a1 := mul_le_mul (p h1) (p h3) (pp _) (pp _)
    have a2 : max 0 v * min 0 w ≤ max 0 v' * min 0 w' :=
      (mul_le_mul_of_nonneg_left (n h3) (pp v)).trans (mul_le_mul_of_nonpos_right (p h2) (nn _))
    have a3 : min 0 u * max 0 x ≤ min 0 u' * max 0 x' :=
      (mul_le_mul_of_nonneg_right (n h1) (pp x)).trans (mul_le_mul_of_nonpos_left (p h4) (nn _))
    have a4 : min 0 v * min 0 x ≤ min 0 v' * min 0 x' :=
      (mul_le_mul_of_nonpos_left (n h4) (nn v)).trans (mul_le_mul_of_nonpos_right (n h2) (nn _))
    linarith
  · unfold ghi
    have a1 := mul_le_mul (p h2) (p h4) (pp _) (pp _)
    have a2 : min 0 v' * max 0 w' ≤ min 0 v * max 0 w :=
      (mul_le_mul_of_nonneg_right (n h2) (pp w')).trans (mul_le_mul_of_nonpos_left (p h3) (nn _))
    have a3 : max 0 u' * min 0 x' ≤ max 0 u * min 0 x :=
      (mul_le_mul_of_nonneg_left (n h4) (pp u')).trans (mul_le_mul_of_nonpos_right (p h1) (nn _))
    have a4 : min 0 u' * min 0 w' ≤ min 0 u * min 0 w :=
      (mul_le_mul_of_nonpos_left (n h3) (nn u')).trans (mul_le_mul_of_nonpos_right (n h1) (nn _))
    linarith

theorem glo_self (a w x : K) : glo a a w x = max 0 a * w + min 0 a * x := by
  have h1 := posneg w; have h2 := posneg x
  unfold glo
  calc _ = max 0 a * (max 0 w + min 0 w) + min 0 a * (max 0 x + min 0 x) := by ring
    _ = _ := by rw [h1, h2]
theorem ghi_self (a w x : K) : ghi a a w x = max 0 a * x + min 0 a * w := by
  have h1 := posneg w; have h2 := posneg x
  unfold ghi
  calc _ = max 0 a * (max 0 x + min 0 x) + min 0 a * (max 0 w + min 0 w) := by ring
    _ = _ := by rw [h1, h2]
theorem glo_self' (u v b : K) : glo u v b b = u * max 0 b + v * min 0 b := by
  have h1 := posneg u; have h2 := posneg v
  unfold glo
  calc _ = (max 0 u + min 0 u) * max 0 b + (max 0 v + min 0 v) * min 0 b := by ring
    _ = _ := by rw [h1, h2]
theorem ghi_self' (u v b : K) : ghi u v b b = v * max 0 b + u * min 0 b := by
  have h1 := posneg u; have h2 := posneg v
  unfold ghi
  calc _ = (max 0 v + min 0 v) * max 0 b + (max 0 u + min 0 u) * min 0 b := by ring
    _ = _ := by rw [h1, h2]

/-! ### add, subtract, negative -/
namespace IA
open Coef

theorem add_ok {a b r : Coef K} (ha : a.WF) (hb : b.WF) (h : add a b = .ok r) :
    r.WF ∧ bshape a.shape b.shape = some r.shape ∧ r.isArr = (a.isArr && b.isArr) ∧
    ∀ L, r.shape.length ≤ L.length → r.lo.bget L = a.lo.bget L + b.lo.bget L ∧
      r.hi.bget L = a.hi.bget L + b.hi.bget L := by
  unfold add at h
  have key : ∀ {x y x' y' s s' : ND K}, x.shape = x'.shape → y.shape = y'.shape →
      ND.map2 (· + ·) x y = .ok s → ND.map2 (· + ·) x' y' = .ok s' →
      (Coef.ivl s s').WF ∧ bshape x.shape y.shape = some s.shape ∧
      ∀ L, s.shape.length ≤ L.length → s.bget L = x.bget L + y.bget L ∧
        s'.bget L = x'.bget L + y'.bget L := by
    intro x y x' y' s s' hx hy h h'
    have h1 := ND.map2_ok h
    have h2 := ND.map2_ok h'
    have : s.shape = s'.shape := by
      have := h2.1; rw [← hx, ← hy, h1.1] at this; simpa using this
    exact ⟨this, h1.1, fun L hL => ⟨h1.2 L hL, h2.2 L (this ▸ hL)⟩⟩
  cases a with
  | arr a => cases b with
    | arr b =>
      simp only [py_bind_ok, py_pure] at h
      obtain ⟨s, hs, rfl⟩ := h
      have := ND.map2_ok hs
      exact ⟨trivial, this.1, rfl, fun L hL => ⟨this.2 L hL, this.2 L hL⟩⟩
    | ivl b0 b1 =>
      simp only [py_bind_ok, py_pure] at h
      obtain ⟨s, hs, s', hs', rfl⟩ := h
      have := key rfl (WF_ivl.1 hb) hs hs'
      exact ⟨this.1, this.2.1, rfl, this.2.2⟩
  | ivl a0 a1 => cases b with
    | arr b =>
      simp only [py_bind_ok, py_pure] at h
      obtain ⟨s, hs, s', hs', rfl⟩ := h
      have := key (WF_ivl.1 ha) rfl hs hs'
      exact ⟨this.1, this.2.1, rfl, this.2.2⟩
    | ivl b0 b1 =>
      simp only [py_bind_ok, py_pure] at h
      obtain ⟨s, hs, s', hs', rfl⟩ := h
      have := key (WF_ivl.1 ha) (WF_ivl.1 hb) hs hs'
      exact ⟨this.1, this.2.1, rfl, this.2.2⟩

theorem add_lub {a b : Coef K} (ha : a.WF) (hb : b.WF) {R : List ℕ} (h : ble a.shape R)
    (h' : ble b.shape R) : ∃ r, add a b = .ok r := by
  unfold add
  cases a with
  | arr a => cases b with
    | arr b =>
      obtain ⟨s, hs, -⟩ := ND.map2_lub (· + ·) h h'
      exact ⟨.arr s, by simp [hs]⟩
    | ivl b0 b1 =>
      obtain ⟨s, hs, -⟩ := ND.map2_lub (· + ·) h h'
      obtain ⟨s', hs', -⟩ := ND.map2_lub (a := a) (b := b1) (· + ·) h (by rw [← WF_ivl.1 hb]; exact h')
      exact ⟨.ivl s s', by simp [hs, hs']⟩
  | ivl a0 a1 => 
    have h1 : ble a1.shape R := by rw [← WF_ivl.1 ha]; exact h
    cases b with
    | arr b =>
      obtain ⟨s, hs, -⟩ := ND.map2_lub (· + ·) h h'
      obtain ⟨s', hs', -⟩ := ND.map2_lub (· + ·) h1 h'
      exact ⟨.ivl s s', by simp [hs, hs']⟩
    | ivl b0 b1 =>
      obtain ⟨s, hs, -⟩ := ND.map2_lub (· + ·) h h'
      obtain ⟨s', hs', -⟩ := ND.map2_lub (a := a1) (b := b1) (· + ·) h1 (by rw [← WF_ivl.1 hb]; exact h')
      exact ⟨.ivl s s', by simp [hs, hs']⟩

theorem sub_ok {a b r : Coef K} (ha : a.WF) (hb : b.WF) (h : subtract a b = .ok r) :
    r.WF ∧ bshape a.shape b.shape = some r.shape ∧ r.isArr = (a.isArr && b.isArr) ∧
    ∀ L, r.shape.length ≤ L.length → r.lo.bget L = a.lo.bget L - b.hi.bget L ∧
      r.hi.bget L = a.hi.bget L - b.lo.bget L := by
  unfold subtract at h
  have key : ∀ {x y x' y' s s' : ND K}, x.shape = x'.shape → y.shape = y'.shape →
      ND.map2 (· - ·) x y = .ok s → ND.map2 (· - ·) x' y' = .ok s' →
      (Coef.ivl s s').WF ∧ bshape x.shape y.shape = some s.shape ∧
      ∀ L, s.shape.length ≤ L.length → s.bget L = x.bget L - y.bget L ∧
        s'.bget L = x'.bget L - y'.bget L := by
    intro x y x' y' s s' hx hy h h'
    have h1 := ND.map2_ok h
    have h2 := ND.map2_ok h'
    have : s.shape = s'.shape := by
      have := h2.1; rw [← hx, ← hy, h1.1] at this; simpa using this
    exact ⟨this, h1.1, fun L hL => ⟨h1.2 L hL, h2.2 L (this ▸ hL)⟩⟩
  cases a with
  | arr a => cases b with
    | arr b =>
      simp only [py_bind_ok, py_pure] at h
      obtain ⟨s, hs, rfl⟩ := h
      have := ND.map2_ok hs
      exact ⟨trivial, this.1, rfl, fun L hL => ⟨this.2 L hL, this.2 L hL⟩⟩
    | ivl b0 b1 =>
      simp only [py_bind_ok, py_pure] at h
      obtain ⟨s, hs, s', hs', rfl⟩ := h
      have := key rfl (WF_ivl.1 hb).symm hs hs'
      refine ⟨this.1, ?_, rfl, this.2.2⟩
      have h2 := this.2.1
      rwa [← WF_ivl.1 hb] at h2
  | ivl a0 a1 => cases b with
    | arr b =>
      simp only [py_bind_ok, py_pure] at h
      obtain ⟨s, hs, s', hs', rfl⟩ := h
      have := key (WF_ivl.1 ha) rfl hs hs'
      exact ⟨this.1, this.2.1, rfl, this.2.2⟩
    | ivl b0 b1 =>
      simp only [py_bind_ok, py_pure] at h
      obtain ⟨s, hs, s', hs', rfl⟩ := h
      have := key (WF_ivl.1 ha) (WF_ivl.1 hb).symm hs hs'
      refine ⟨this.1, ?_, rfl, this.2.2⟩
      have h2 := this.2.1
      rwa [← WF_ivl.1 hb] at h2

theorem neg_ok {a : Coef K} (ha : a.WF) :
    (negative a).WF ∧ (negative a).shape = a.shape ∧ (negative a).isArr = a.isArr ∧
    ∀ L, (negative a).lo.bget L = - a.hi.bget L ∧ (negative a).hi.bget L = - a.lo.bget L := by
  cases a with
  | arr a => exact ⟨trivial, rfl, rfl, fun L => ⟨rfl, rfl⟩⟩
  | ivl a0 a1 => exact ⟨(WF_ivl.1 ha).symm, (WF_ivl.1 ha).symm, rfl, fun L => ⟨rfl, rfl⟩⟩

/-! ### bilinear operations -/

theorem bilinear_shape_wf {R : List ℕ} {f : K → K → K} {x y r : ND K} (hx : x.shape = R)
    (hy : y.shape = R) (h : ND.map2 f x y = .ok r) :
    r.shape = R ∧ ∀ L, R.length ≤ L.length → r.bget L = f (x.bget L) (y.bget L) := by
  have := ND.map2_ok h
  rw [hx, hy, bshape_self] at this
  have hR : r.shape = R := by simpa using this.1.symm
  exact ⟨hR, fun L hL => this.2 L (hR ▸ hL)⟩

/-- product-like operations, at fixed reading positions -/
theorem bilinearTrue_ok {op : ND K → ND K → Py (ND K)} {a b r : Coef K} {R : List ℕ}
    (ha : a.WF) (hb : b.WF)
    (hR : ∀ x y s, x.shape = a.shape → y.shape = b.shape → op x y = .ok s → s.shape = R)
    (h : arbitraryBilinear a b op true = .ok r) :
    r.WF ∧ r.shape = R ∧ r.isArr = (a.isArr && b.isArr) ∧
    ∀ L φ ψ, R.length ≤ L.length →
      (∀ x y s, x.shape = a.shape → y.shape = b.shape → op x y = .ok s →
        s.bget L = x.bget φ * y.bget ψ) →
      r.lo.bget L = plo (a.lo.bget φ) (a.hi.bget φ) (b.lo.bget ψ) (b.hi.bget ψ) ∧
      r.hi.bget L = phi (a.lo.bget φ) (a.hi.bget φ) (b.lo.bget ψ) (b.hi.bget ψ) := by
  have red2 : ∀ {f : K → K → K} {x y m : ND K}, x.shape = R → y.shape = R →
      reduce (ND.map2 f) [x, y] = .ok m → m.shape = R ∧
      ∀ L, R.length ≤ L.length → m.bget L = f (x.bget L) (y.bget L) := by
    intro f x y m hx hy h
    simp [reduce] at h
    exact bilinear_shape_wf hx hy h
  have red4 : ∀ {f : K → K → K} {x y z w m : ND K}, x.shape = R → y.shape = R → z.shape = R →
      w.shape = R → reduce (ND.map2 f) [x, y, z, w] = .ok m → m.shape = R ∧
      ∀ L, R.length ≤ L.length → m.bget L = f (f (f (x.bget L) (y.bget L)) (z.bget L)) (w.bget L) := by
    intro f x y z w m hx hy hz hw h
    simp [reduce] at h
    obtain ⟨m1, h1, m2, h2, h3⟩ := h
    have e1 := bilinear_shape_wf hx hy h1
    have e2 := bilinear_shape_wf e1.1 hz h2
    have e3 := bilinear_shape_wf e2.1 hw h3
    exact ⟨e3.1, fun L hL => by rw [e3.2 L hL, e2.2 L hL, e1.2 L hL]⟩
  cases a with
  | arr a => cases b with
    | arr b =>
      simp only [arbitraryBilinear, py_bind_ok, py_pure] at h
      obtain ⟨s, hs, rfl⟩ := h
      refine ⟨trivial, hR _ _ _ rfl rfl hs, rfl, fun L φ ψ hL hop => ?_⟩
      simp [hop _ _ _ rfl rfl hs, plo, phi]
    | ivl b0 b1 =>
      simp only [arbitraryBilinear, bilinearProduct, endpoints] at h
      simp only [List.flatMap_cons, List.flatMap_nil, List.map_cons, List.map_nil, List.append_nil,
        List.mapM_cons, List.mapM_nil, py_bind_ok, py_pure, if_true] at h
      obtain ⟨ps, ⟨p0, hp0, qs, ⟨p1, hp1, _, rfl, rfl⟩, rfl⟩, m, hm, M, hM, rfl⟩ := h
      have hb' : b1.shape = (Coef.ivl b0 b1).shape := (WF_ivl.1 hb).symm
      have s0 := hR _ _ _ rfl rfl hp0
      have s1 := hR _ _ _ rfl hb' hp1
      have em := red2 s0 s1 hm
      have eM := red2 s0 s1 hM
      refine ⟨WF_ivl.2 (em.1.trans eM.1.symm), em.1, rfl, fun L φ ψ hL hop => ?_⟩
      have o0 := hop _ _ _ rfl rfl hp0
      have o1 := hop _ _ _ rfl hb' hp1
      simp only [lo_ivl, hi_ivl, lo_arr, hi_arr]
      rw [em.2 L hL, eM.2 L hL, o0, o1]
      constructor
      · rw [plo_eq]; simp [mul_comm]
      · rw [phi_eq]; simp [mul_comm]
  | ivl a0 a1 =>
    have ha' : a1.shape = (Coef.ivl a0 a1).shape := (WF_ivl.1 ha).symm
    cases b with
    | arr b =>
      simp only [arbitraryBilinear, bilinearProduct, endpoints] at h
      simp only [List.flatMap_cons, List.flatMap_nil, List.map_cons, List.map_nil, List.append_nil,
        List.mapM_cons, List.mapM_nil, List.cons_append, List.nil_append,
        py_bind_ok, py_pure, if_true] at h
      obtain ⟨ps, ⟨p0, hp0, qs, ⟨p1, hp1, _, rfl, rfl⟩, rfl⟩, m, hm, M, hM, rfl⟩ := h
      have s0 := hR _ _ _ rfl rfl hp0
      have s1 := hR _ _ _ ha' rfl hp1
      have em := red2 s0 s1 hm
      have eM := red2 s0 s1 hM
      refine ⟨WF_ivl.2 (em.1.trans eM.1.symm), em.1, rfl, fun L φ ψ hL hop => ?_⟩
      have o0 := hop _ _ _ rfl rfl hp0
      have o1 := hop _ _ _ ha' rfl hp1
      simp only [lo_ivl, hi_ivl, lo_arr, hi_arr]
      rw [em.2 L hL, eM.2 L hL, o0, o1]
      constructor
      · rw [plo_eq]; simp [mul_comm]
      · rw [phi_eq]; simp [mul_comm]
    | ivl b0 b1 =>
      have hb' : b1.shape = (Coef.ivl b0 b1).shape := (WF_ivl.1 hb).symm
      simp only [arbitraryBilinear, bilinearProduct, endpoints] at h
      simp only [List.flatMap_cons, List.flatMap_nil, List.map_cons, List.map_nil, List.append_nil,
        List.mapM_cons, List.mapM_nil, List.cons_append, List.nil_append,
        py_bind_ok, py_pure, if_true] at h
      obtain ⟨ps, ⟨p0, hp0, qs, ⟨p1, hp1, qs', ⟨p2, hp2, qs'', ⟨p3, hp3, _, rfl, rfl⟩, rfl⟩, rfl⟩,
        rfl⟩, m, hm, M, hM, rfl⟩ := h
      have s0 := hR _ _ _ rfl rfl hp0
      have s1 := hR _ _ _ rfl hb' hp1
      have s2 := hR _ _ _ ha' rfl hp2
      have s3 := hR _ _ _ ha' hb' hp3
      have em := red4 s0 s1 s2 s3 hm
      have eM := red4 s0 s1 s2 s3 hM
      refine ⟨WF_ivl.2 (em.1.trans eM.1.symm), em.1, rfl, fun L φ ψ hL hop => ?_⟩
      have o0 := hop _ _ _ rfl rfl hp0
      have o1 := hop _ _ _ rfl hb' hp1
      have o2 := hop _ _ _ ha' rfl hp2
      have o3 := hop _ _ _ ha' hb' hp3
      simp only [lo_ivl, hi_ivl]
      rw [em.2 L hL, eM.2 L hL, o0, o1, o2, o3]
      exact ⟨rfl, rfl⟩

theorem bilinearTrue_mem {op : ND K → ND K → Py (ND K)} {a b r : Coef K} {R : List ℕ}
    (ha : a.WF) (hb : b.WF)
    (hR : ∀ x y s, x.shape = a.shape → y.shape = b.shape → op x y = .ok s → s.shape = R)
    (h : arbitraryBilinear a b op true = .ok r) {L φ ψ : List ℕ} (hL : R.length ≤ L.length)
    (hop : ∀ x y s, x.shape = a.shape → y.shape = b.shape → op x y = .ok s →
        s.bget L = x.bget φ * y.bget ψ) {s t : K} (hs : a.Mem φ s) (ht : b.Mem ψ t) :
    r.Mem L (s * t) := by
  have := (bilinearTrue_ok ha hb hR h).2.2.2 L φ ψ hL hop
  unfold Mem
  rw [this.1, this.2]
  exact pbounds hs.1 hs.2 ht.1 ht.2

end IA
end
end AB
