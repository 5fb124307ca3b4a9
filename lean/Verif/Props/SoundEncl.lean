/-
The operations of /repo/autobound/enclosure_arithmetic.py on enclosures whose constant term has the shape
of the value (`SoundEncl`); coefficients of higher degree may have a smaller batch shape, as
`TaylorEnclosureArithmetic.add` produces them.
-/
import Verif.Props.Exact
set_option linter.unusedSectionVars false

namespace AB
variable {K : Type} [Field K] [LinearOrder K] [IsStrictOrderedRing K]
open IA (repS)

/-- broadcasts to `R`; exactly `R` in degree 0 -/
def headM (R : List ℕ) : Mode := fun d B => ble B R ∧ (d = 0 → B = R)
/-- broadcasts to `R`; exactly `R` or a scalar in degree 0 -/
def headWM (R : List ℕ) : Mode := fun d B => ble B R ∧ (d = 0 → B = R ∨ B = [])

theorem headM_cl (R : List ℕ) : Mode.Cl (headM R) := by
  intro d d' B B' Q hd h h' e
  refine ⟨ble_lub_of_bshape e h.1 h'.1, fun h0 => ?_⟩
  have hB := h.2 h0; subst hB
  exact ble_antisymm (ble_lub_of_bshape e h.1 h'.1) (bshape_le e).1

theorem headM_bcast {R1 R2 R : List ℕ} (h : bshape R1 R2 = some R) {i j B B'  Q} (h1 : headM R1 i B)
    (h2 : headM R2 j B') (e : bshape B B' = some Q) : ble Q R ∧ (i = 0 → j = 0 → Q = R) := by
  have l := bshape_le h
  refine ⟨ble_lub_of_bshape e (ble_trans h1.1 l.1) (ble_trans h2.1 l.2), fun hi hj => ?_⟩
  rw [h1.2 hi, h2.2 hj, h] at e; cases e; rfl

theorem headM_pr {R1 R2 R : List ℕ} (h : bshape R1 R2 = some R) :
    Mode.Pr (headM R1) (headM R2) (headM R) := by
  intro i j B B' Q h1 h2 e
  obtain ⟨k1, k2⟩ := headM_bcast h h1 h2 e
  exact ⟨k1, fun h0 => k2 (by omega) (by omega)⟩

theorem headM_pw (R : List ℕ) : Mode.Pw (headM R) (headWM R) := by
  refine ⟨headM_cl R, ⟨ble_nil _, fun _ => Or.inr rfl⟩, fun {i p B} hp h => ⟨h.1, fun h0 => ?_⟩, ?_⟩
  · rcases Nat.mul_eq_zero.1 h0 with h' | h'
    · exact Or.inl (h.2 h')
    · exact absurd h' hp
  · intro i j B B' Q h1 h2 e
    refine ⟨ble_lub_of_bshape e h1.1 h2.1, fun h0 => ?_⟩
    have e1 : B = R := h1.2 (by omega)
    subst e1
    exact ble_antisymm (ble_lub_of_bshape e h1.1 h2.1) (bshape_le e).1

theorem SR.head {xs R R1 I : List ℕ} {E : Encl K} {w : ℕ → List ℕ → K}
    (h : SR (headM R1) xs R I E w) : ∀ c, E[0]? = some c → c.shape = R1 := by
  intro c hc
  obtain ⟨⟨-, B, hB, hu⟩, -⟩ := h.1 0 c hc
  rw [hB, hu.2.2 rfl]; simp [IA.repS]

theorem GoodEncl.sound {E : Encl K} {z y : ND K} (h : GoodEncl E z y) : SoundEncl E z y :=
  ⟨h.ne, h.wf, h.encl, fun c hc => by simpa using h.exact 0 c hc⟩

theorem SoundEncl.good {E : Encl K} {z y : ND K} (h : SoundEncl E z y) (hx : ExactBatch z.shape y.shape E) :
    GoodEncl E z y := ⟨h.ne, h.wf, h.encl, hx⟩

theorem SoundEncl.same {z y w : ND K} (h : SoundEncl [.arr w] z y) : w.Same y := by
  refine GoodEncl.same (h.good ?_)
  intro i c hc
  rcases i with _ | i
  · cases hc; simpa [Coef.shape] using h.head _ rfl
  · simp at hc

theorem SoundEncl.congr {E : Encl K} {z y y' : ND K} (h : SoundEncl E z y) (hs : y.Same y') :
    SoundEncl E z y' := by
  refine ⟨h.ne, h.wf, ?_, hs.1 ▸ h.head⟩
  have := (encloses_iff h.wf).1 h.encl
  rw [encloses_iff h.wf]
  refine ⟨hs.1 ▸ this.1, fun I hI => ?_⟩
  rw [← hs.2 I (hs.1 ▸ hI)]
  exact this.2 I (hs.1 ▸ hI)

namespace TEA
variable {T : TEA K}

theorem sound_encl_of_SR {c : Encl K} {z y : ND K} (hzs : z.shape = T.xShape) (hne0 : c ≠ [])
    (hy : ∃ I, ValidIdx y.shape I)
    (h : ∀ I, ValidIdx y.shape I → ∃ W, SR (headM y.shape) T.xShape y.shape I c W ∧
      selVal T.xShape z.get c.length W = y.get I) : SoundEncl c z y := by
  obtain ⟨k1, k2⟩ := sound_of_SR hzs hy h
  refine ⟨hne0, k2, k1, ?_⟩
  obtain ⟨I, hI⟩ := hy
  obtain ⟨W, hW, -⟩ := h I hI
  exact hW.head

theorem SoundEncl.SR_at {a : Encl K} {z y : ND K} (hzs : z.shape = T.xShape)
    (h : SoundEncl a z y) {R : List ℕ} (hR : ble y.shape R) {I : List ℕ} (hI : ValidIdx R I) :
    ∃ u, SR (headM y.shape) T.xShape R I a u ∧ selVal T.xShape z.get a.length u = y.bget I := by
  obtain ⟨u, hu, e⟩ := Encloses.SR_at h.wf hzs h.encl hR hI
  refine ⟨u, ⟨fun i x hx => ?_, hu.2⟩, e⟩
  obtain ⟨⟨wx, B, hB, hu'⟩, hm⟩ := hu.1 i x hx
  obtain ⟨-, B', hB', hle⟩ := (h.encl.at h.wf (ble_refl _)).1 i x hx
  rw [hzs, hB] at hB'
  have hBB : B = B' := List.append_cancel_right hB'
  subst hBB
  refine ⟨⟨wx, B, hB, hu'.1, hle, fun h0 => ?_⟩, hm⟩
  subst h0
  have := h.head x hx
  rw [hB] at this
  simpa [IA.repS] using this

section
variable {md : ℕ} {lo hi : ND K} (hinit : TEA.init md lo hi = .ok T) {z : ND K}
  (hz : (Coef.ivl lo hi).Contains z)
include hinit hz

/-- **C16 (chains).** -/
theorem sound_add {a b c : Encl K} {y1 y2 y : ND K} (ha : SoundEncl a z y1) (hb : SoundEncl b z y2)
    (hy : ND.map2 (· + ·) y1 y2 = .ok y) (hne : ∃ I, ValidIdx y.shape I)
    (hc : T.add a b = .ok c) : SoundEncl c z y := by
  obtain ⟨-, hT, hzm, hzs⟩ := unpack hinit hz
  obtain ⟨l1, l2⟩ := ND.map2_shape hy
  have pa := List.length_pos_iff.2 ha.ne
  have pb := List.length_pos_iff.2 hb.ne
  refine sound_encl_of_SR hzs (add_ne_nil T ha.ne hc) hne fun I hI => ?_
  obtain ⟨u, hu, eu⟩ := SoundEncl.SR_at hzs ha l1 hI
  obtain ⟨v, hv, ev⟩ := SoundEncl.SR_at hzs hb l2 hI
  have hbs := (ND.map2_ok hy).1
  obtain ⟨-, W, hW, e⟩ := add_SRg hT hzm (U := headM y.shape) (headM_cl _) hI.length.le (u := u) (v := v)
    (fun i x x' r hx hx' hr => add_rel (fun h1 h2 e => by
      obtain ⟨k1, k2⟩ := headM_bcast hbs h1 h2 e
      exact ⟨k1, fun h0 => k2 h0 h0⟩) hI.length.le (hu.1 i x hx) (hv.1 i x' hx') hr)
    (fun i x hx hn => (hu.1 i x hx).mode fun B hB => by
      have l2' := List.getElem?_eq_none_iff.1 hn
      exact ⟨ble_trans hB.1 l1, fun h0 => by omega⟩)
    (fun i x hn hx => (hv.1 i x hx).mode fun B hB => by
      have l2' := List.getElem?_eq_none_iff.1 hn
      exact ⟨ble_trans hB.1 l2, fun h0 => by omega⟩)
    hu.2 hv.2 hc
  exact ⟨W, hW, by rw [e, eu, ev, map2_at hy hI]⟩

/-- **C17 (chains).** -/
theorem sound_negative {a c : Encl K} {y : ND K} (ha : SoundEncl a z y) (hne : ∃ I, ValidIdx y.shape I)
    (hc : T.negative a = .ok c) : SoundEncl c z (y.map (- ·)) := by
  obtain ⟨hmd, hT, hzm, hzs⟩ := unpack hinit hz
  have hl : c.length = min a.length (md + 1) := by
    obtain ⟨I, hI⟩ := hne
    obtain ⟨u, hu, eu⟩ := SoundEncl.SR_at hzs ha (ble_refl _) hI
    rw [← hmd]
    exact (negative_SR hT hzm (headM_cl _) hI.length.le hu hc).1
  refine sound_encl_of_SR (y := y.map (- ·)) hzs (ne_nil_of_length ?_) hne fun I hI => ?_
  · have := List.length_pos_iff.2 ha.ne
    omega
  obtain ⟨u, hu, eu⟩ := SoundEncl.SR_at hzs ha (ble_refl _) hI
  obtain ⟨-, W, hW, e⟩ := negative_SR hT hzm (headM_cl _) hI.length.le hu hc
  exact ⟨W, hW, by rw [e, eu, ND.bget_valid y hI]; rfl⟩

/-- **C17 (chains).** -/
theorem sound_subtract {a b c : Encl K} {y1 y2 y : ND K} (ha : SoundEncl a z y1) (hb : SoundEncl b z y2)
    (hy : ND.map2 (· - ·) y1 y2 = .ok y) (hne : ∃ I, ValidIdx y.shape I)
    (hc : T.subtract a b = .ok c) : SoundEncl c z y := by
  simp only [subtract, py_bind_ok] at hc
  obtain ⟨nb, hnb, hc⟩ := hc
  obtain ⟨l1, l2⟩ := ND.map2_shape hy
  have k1 := sound_negative hinit hz hb (by
    obtain ⟨I, hI⟩ := hne; exact ⟨_, validIdx_bidx l2 hI⟩) hnb
  have hy' : ND.map2 (· + ·) y1 (y2.map (- ·)) = .ok y := by
    rw [← hy]
    unfold ND.map2
    show (match bshape y1.shape y2.shape with | none => _ | some R => _) = _
    cases bshape y1.shape y2.shape with
    | none => rfl
    | some R => simp only [ND.bget_map, sub_eq_add_neg]
  exact sound_add hinit hz ha k1 hy' hne hc

/-- **C18 (chains).** -/
theorem sound_multiply {a b c : Encl K} {y1 y2 y : ND K} (ha : SoundEncl a z y1) (hb : SoundEncl b z y2)
    (hy : ND.map2 (· * ·) y1 y2 = .ok y) (hne : ∃ I, ValidIdx y.shape I)
    (hc : T.multiply a b = .ok c) : SoundEncl c z y := by
  obtain ⟨hmd, hT, hzm, hzs⟩ := unpack hinit hz
  obtain ⟨l1, l2⟩ := ND.map2_shape hy
  have hbs := (ND.map2_ok hy).1
  have hl : 0 < c.length := by
    obtain ⟨I, hI⟩ := hne
    obtain ⟨u, hu, eu⟩ := SoundEncl.SR_at hzs ha l1 hI
    obtain ⟨v, hv, ev⟩ := SoundEncl.SR_at hzs hb l2 hI
    rw [(multiply_SR hT hzm (U := headM y.shape) (headM_cl _) hI.length.le (headM_pr hbs) ha.ne hb.ne hu hv hc).1]
    have := List.length_pos_iff.2 ha.ne
    have := List.length_pos_iff.2 hb.ne
    omega
  refine sound_encl_of_SR hzs (ne_nil_of_length hl) hne fun I hI => ?_
  obtain ⟨u, hu, eu⟩ := SoundEncl.SR_at hzs ha l1 hI
  obtain ⟨v, hv, ev⟩ := SoundEncl.SR_at hzs hb l2 hI
  obtain ⟨-, W, hW, e⟩ := multiply_SR hT hzm (headM_cl _) hI.length.le (headM_pr hbs) ha.ne hb.ne hu hv hc
  exact ⟨W, hW, by rw [e, eu, ev, map2_at hy hI]⟩

/-- **C19 (chains).** -/
theorem sound_power {a c : Encl K} {p : ℕ} {y : ND K} (ha : SoundEncl a z y)
    (hne : ∃ I, ValidIdx y.shape I) (hc : T.powerNat a p = .ok c) : SoundEncl c z (y.map (· ^ p)) := by
  obtain ⟨hmd, hT, hzm, hzs⟩ := unpack hinit hz
  have hl : 0 < c.length := by
    obtain ⟨I, hI⟩ := hne
    obtain ⟨u, hu, eu⟩ := SoundEncl.SR_at hzs ha (ble_refl _) hI
    rw [(power_SR hT hzm hI.length.le (headM_pw _) hu hc).1]
    omega
  refine sound_encl_of_SR (y := y.map (· ^ p)) hzs (ne_nil_of_length hl) hne fun I hI => ?_
  obtain ⟨u, hu, eu⟩ := SoundEncl.SR_at hzs ha (ble_refl _) hI
  obtain ⟨-, W, hW, e, -⟩ := power_SR hT hzm hI.length.le (headM_pw _) hu hc
  exact ⟨W, hW, by rw [e, eu, ND.bget_valid y hI]; rfl⟩

theorem sound_elementwise_core {f : K → K} {D : K → Prop} {gen : Generator K}
    (hgen : SoundGeneratorAt z f D gen) (hks : KeepsShape gen)
    {arg c : Encl K} {y : ND K} (hy : SoundEncl arg z y)
    (k1 : Encloses c z (y.map f)) (k2 : WellFormedEncl c) (k3 : VEU (rankM y.ndim) z.shape y.shape c)
    {a0 : Coef K} {x0 : ND K} {e : Encl K} {tr : ND K × ND K} (q1 : arg[0]? = some a0)
    (q2 : x0.shape = a0.shape) (hew : WellFormedEncl e)
    (q3 : gen x0 tr T.maxDegree = .ok e) (q4 : e.length ≤ md + 1)
    (q5 : T.composeEnclosures e arg = .ok c) : SoundEncl c z (y.map f) := by
  obtain ⟨hmd, hT, hzm, hzs⟩ := unpack hinit hz
  obtain ⟨e0, he0, hsh⟩ := hks _ _ _ _ q3
  have hsh := ble_iff_bshape.1 hsh
  obtain ⟨x', hx', hxs⟩ := compose_head T he0 (hew e0 (List.mem_of_getElem? he0)).wf (by
    rcases Nat.eq_zero_or_pos md with h | h
    · right
      have := (List.getElem?_eq_some_iff.1 he0).1
      omega
    · left; omega) q5
  refine ⟨compose_ne_nil T q5, k2, k1, fun x hx => ?_⟩
  rw [hx'] at hx; cases hx
  have h1 : a0.shape = y.shape := hy.head a0 q1
  obtain ⟨-, B, hB, hu⟩ := k3 0 _ hx'
  have hB : x'.shape = B := by simpa [IA.repS] using hB
  subst hB
  refine ble_antisymm hu.1 ?_
  show ble y.shape x'.shape
  rw [hxs, ← h1, ← q2]; exact hsh

/-- **C22 (chains, supplied trust region).** -/
theorem sound_elementwise_supplied {f : K → K} {D : K → Prop} {gen : Generator K}
    (hgen : SoundGeneratorAt z f D gen) (hks : KeepsShape gen) {arg c : Encl K} {y : ND K}
    (hy : SoundEncl arg z y) (hub : UniformBatch z.shape y.ndim arg) (hne : ∃ I, ValidIdx y.shape I)
    {r : Coef K} (hr : r.SameShape) (hrn : r.shape = y.shape) (hry : r.Covers y)
    (hrx : ∀ a0 x0, arg[0]? = some a0 → T.expansionPoint a0 = .ok x0 →
      ∀ I, ValidIdx y.shape I → r.AtIdx I (x0.get I))
    (hD : ∀ I, ValidIdx r.shape I → ∀ v, r.AtIdx I v → D v)
    (hc : T.elementwiseFun gen arg (some r) = .ok c) : SoundEncl c z (y.map f) := by
  obtain ⟨k1, k2, k3, a0, x0, e, q1, q2, q3, ⟨q4, q4'⟩, q5⟩ := supplied_mode hinit hz hgen hy.wf
    (U := rankM y.ndim) (rankM_cm _) (uniform_mode hub) hy.encl hne hr (Or.inl (by rw [hrn]; rfl)) hry
    (fun a0 x0 h1 h2 I hI => by
      rw [hrn, bidx_valid hI, ND.bget_valid _ (by
        have : a0.shape = y.shape := hy.head a0 h1
        have e2 : x0.shape = a0.shape := by
          unfold expansionPoint at h2
          cases a0 with
          | arr a => cases h2; rfl
          | ivl l h =>
            simp only at h2
            split_ifs at h2 with hm
            cases h2; rfl
        rw [e2, this]; exact hI)]
      exact hrx a0 x0 h1 h2 I hI) hD hc
  exact sound_elementwise_core hinit hz hgen hks hy k1 k2 k3 q1 q2 q4' q3 q4 q5

/-- **C22 (chains, derived trust region).** -/
theorem sound_elementwise {f : K → K} {D : K → Prop} {gen : Generator K}
    (hgen : SoundGeneratorAt z f D gen) (hks : KeepsShape gen) {arg c : Encl K} {y : ND K}
    (hy : SoundEncl arg z y) (hub : UniformBatch z.shape y.ndim arg) (hne : ∃ I, ValidIdx y.shape I)
    (h0 : (Coef.ivl lo hi).Contains ⟨lo.shape, fun _ => 0⟩)
    (hD : ∀ r, encloseEnclosure arg (.ivl lo hi) 0 = .ok [r] →
      ∀ I, ValidIdx r.shape I → ∀ v, r.AtIdx I v → D v)
    (hc : T.elementwiseFun gen arg = .ok c) : SoundEncl c z (y.map f) := by
  obtain ⟨k1, k2, k3, r, a0, x0, e, q1, q2, q3, ⟨q4, q4'⟩, q5⟩ := derived_mode hinit hz hgen hy.wf
    (U := rankM y.ndim) (rankM_cm _) (uniform_mode hub) hy.encl hne h0 hD hc
  exact sound_elementwise_core hinit hz hgen hks hy k1 k2 k3 q1 q2 q4' q3 q4 q5

/-- **C23 (chains, general power).** -/
theorem sound_powerOther {f : K → K} {D : K → Prop} {gen : Generator K}
    (hgen : SoundGeneratorAt z f D gen) (hks : KeepsShape gen) {arg c : Encl K} {y : ND K}
    (hy : SoundEncl arg z y) (hub : UniformBatch z.shape y.ndim arg) (hne : ∃ I, ValidIdx y.shape I)
    (h0 : (Coef.ivl lo hi).Contains ⟨lo.shape, fun _ => 0⟩)
    (hD : ∀ r, encloseEnclosure arg (.ivl lo hi) 0 = .ok [r] →
      ∀ I, ValidIdx r.shape I → ∀ v, r.AtIdx I v → D v)
    (hc : T.powerOther gen arg = .ok c) : SoundEncl c z (y.map f) := by
  simp only [powerOther, py_bind_ok] at hc
  obtain ⟨_, _, hc⟩ := hc
  exact sound_elementwise hinit hz hgen hks hy hub hne h0 hD hc

/-- **C23 (chains, division).** -/
theorem sound_divide {D : K → Prop} {gen : Generator K}
    (hgen : SoundGeneratorAt z (fun x => x⁻¹) D gen) (hks : KeepsShape gen) {a b c : Encl K}
    {y1 y2 y : ND K} (ha : SoundEncl a z y1) (hb : SoundEncl b z y2) (hub : UniformBatch z.shape y2.ndim b)
    (hy : ND.map2 (· / ·) y1 y2 = .ok y) (hne : ∃ I, ValidIdx y.shape I)
    (h0 : (Coef.ivl lo hi).Contains ⟨lo.shape, fun _ => 0⟩)
    (hD : ∀ r, encloseEnclosure b (.ivl lo hi) 0 = .ok [r] →
      ∀ I, ValidIdx r.shape I → ∀ v, r.AtIdx I v → D v)
    (hc : T.divide gen a b = .ok c) : SoundEncl c z y := by
  simp only [divide, py_bind_ok] at hc
  obtain ⟨q, hq, hc⟩ := hc
  obtain ⟨l1, l2⟩ := ND.map2_shape hy
  have hne2 : ∃ I, ValidIdx y2.shape I := by
    obtain ⟨I, hI⟩ := hne
    exact ⟨_, validIdx_bidx l2 hI⟩
  have k := sound_powerOther hinit hz hgen hks hb hub hne2 h0 hD hq
  have hy' : ND.map2 (· * ·) y1 (y2.map fun x => x⁻¹) = .ok y := by
    rw [← hy]
    unfold ND.map2
    show (match bshape y1.shape y2.shape with | none => _ | some R => _) = _
    cases bshape y1.shape y2.shape with
    | none => rfl
    | some R => simp only [ND.bget_map, div_eq_mul_inv]
  exact sound_multiply hinit hz ha k hy' hne hc

end
end TEA
end AB
