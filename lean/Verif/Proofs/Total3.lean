/-
Totality of the pushforward functions (/repo/autobound/jax/jax_bound.py:333-503): one equation.
-/
import Verif.Proofs.Total2

set_option linter.unusedSectionVars false

namespace AB
variable {K : Type} [Field K] [LinearOrder K] [IsStrictOrderedRing K]
open IA (repS)

namespace IA

theorem ivl_add {a b r : Coef K} (h : add a b = .ok r) (hi : ¬a.IsArr ∨ ¬b.IsArr) : ¬r.IsArr := by
  cases a <;> cases b <;> simp only [Coef.IsArr, not_true, or_self] at hi <;>
  · simp only [add, py_bind_ok, py_pure] at h
    obtain ⟨_, _, _, _, rfl⟩ := h
    exact id

theorem ivl_bilinear {a b r : Coef K} {op : ND K → ND K → Py (ND K)} {f : Bool}
    (h : arbitraryBilinear a b op f = .ok r) (hi : ¬a.IsArr ∨ ¬b.IsArr) : ¬r.IsArr := by
  have key : ∀ {a b : Coef K}, (bilinearProduct a b op = .ok r → ¬r.IsArr) ∧
      (¬a.IsArr ∨ ¬b.IsArr → bilinearGeneral a b op = .ok r → ¬r.IsArr) := by
    intro a b
    refine ⟨fun h => ?_, fun hi h => ?_⟩
    · simp only [bilinearProduct, py_bind_ok, py_pure] at h
      obtain ⟨_, _, _, _, _, _, rfl⟩ := h
      exact id
    · cases a <;> cases b <;> simp only [Coef.IsArr, not_true, or_self] at hi
      · simp only [bilinearGeneral, py_bind_ok, py_pure] at h
        obtain ⟨_, _, _, _, _, _, _, _, _, _, _, _, rfl⟩ := h
        exact id
      · simp only [bilinearGeneral, py_bind_ok, py_pure] at h
        obtain ⟨_, _, _, _, _, _, _, _, _, _, _, _, rfl⟩ := h
        exact id
      · simp only [bilinearGeneral, py_bind_ok, py_pure] at h
        obtain ⟨_, _, _, _, _, _, _, _, rfl⟩ := h
        exact id
  cases a <;> cases b <;> simp only [Coef.IsArr, not_true, or_self] at hi <;>
  · simp only [arbitraryBilinear] at h
    split_ifs at h
    · exact key.1 h
    · exact key.2 (by simp [Coef.IsArr]) h

theorem ivl_power {a r : Coef K} {k : ℤ} (h : power a k = .ok r) (hk : k ≠ 0) (ha : ¬a.IsArr) : ¬r.IsArr := by
  cases a with
  | arr _ => exact absurd trivial ha
  | ivl a0 a1 =>
    unfold power at h
    by_cases h1 : k < 0
    · simp only [if_pos h1] at h; cases h
    simp only [if_neg h1, if_neg hk, py_bind_ok, py_pure] at h
    obtain ⟨_, _, _, _, _, _, rfl⟩ := h
    exact id

theorem ivl_running {a r : Coef K} {d m : ℕ} (h : runningOuterProduct a d m = .ok r) (ha : ¬a.IsArr) :
    ¬r.IsArr := by
  cases m with
  | zero => cases h; exact ha
  | succ m =>
    simp only [runningOuterProduct, py_bind_ok] at h
    obtain ⟨p, hp, h⟩ := h
    unfold outerProduct at h
    split_ifs at h
    exact ivl_bilinear h (Or.inr ha)

theorem ivl_outerPower {a r : Coef K} {k : ℤ} {d : ℕ} (h : outerPower a k d = .ok r) (hk : k ≠ 0)
    (ha : ¬a.IsArr) : ¬r.IsArr := by
  unfold outerPower at h
  by_cases h1 : k < 0
  · rw [if_pos h1] at h; cases h
  rw [if_neg h1, if_neg hk] at h
  by_cases h3 : a.ndim = 0
  · rw [if_pos h3] at h; exact ivl_power h hk ha
  rw [if_neg h3] at h
  simp only [py_bind_ok] at h
  obtain ⟨rop, hrop, h⟩ := h
  have hr := ivl_running hrop ha
  by_cases h4 : d ≠ 0
  · rw [if_pos h4] at h; cases h; exact hr
  rw [if_neg h4] at h
  split at h
  · cases h; exact hr
  · cases h
  · simp only [py_bind_ok] at h
    obtain ⟨de, hde, dg, hdg, m, hm, h⟩ := h
    exact ivl_add h (Or.inl (ivl_bilinear hm (Or.inl hr)))

end IA

/-- an enclosure with two or more coefficients, evaluated over an interval, is an interval -/
theorem eval_ivl {e : Encl K} {Z c : Coef K} (hZ : ¬Z.IsArr) (hl : 2 ≤ e.length)
    (h : Poly.evalTaylorEnclosure e Z = .ok c) : ¬c.IsArr := by
  unfold Poly.evalTaylorEnclosure Poly.evalPolynomial at h
  simp only [py_bind_ok, py_pure] at h
  obtain ⟨st, hst, rfl⟩ := h
  suffices H : ∀ (e : Encl K) (s : ℕ × Coef K), (2 ≤ s.1 + e.length) → (2 ≤ s.1 → ¬s.2.IsArr) →
      e.foldlM (Poly.evalStep Z (fun a b => IA.tensordot a b b.ndim) (fun a k => IA.outerPower a k) IA.add
        (.arr (ND.scalar 1))) s = .ok st → ¬st.2.IsArr from
    H e (0, .arr (ND.scalar 0)) (by simpa using hl) (by simp) hst
  clear hst hl
  intro e
  induction e with
  | nil =>
    intro s hs h hst
    cases hst
    exact h (by simpa using hs)
  | cons x e ih =>
    intro s hs h hst
    rw [List.foldlM_cons, py_bind_ok] at hst
    obtain ⟨s1, hs1, hst⟩ := hst
    unfold Poly.evalStep at hs1
    by_cases hp : s.1 > 0
    · simp only [if_pos hp, py_bind_ok, py_pure] at hs1
      obtain ⟨zi, hzi, t, ht, r, hr, rfl⟩ := hs1
      refine ih _ (by simp only [List.length_cons] at hs; omega) (fun _ => ?_) hst
      have h1 := IA.ivl_outerPower hzi (by omega) hZ
      unfold IA.tensordot at ht
      exact IA.ivl_add hr (Or.inr (IA.ivl_bilinear ht (Or.inr h1)))
    · simp only [if_neg hp, py_bind_ok, py_pure] at hs1
      obtain ⟨zi, hzi, t, ht, r, hr, rfl⟩ := hs1
      refine ih _ (by simp only [List.length_cons] at hs; omega) (fun h2 => ?_) hst
      simp only at h2
      omega

namespace JB
open TEA Lax
variable {md : ℕ} {z : ND K}

/-- number of arguments of a primitive -/
def arity : Prim K → Option ℕ
  | .add | .sub | .mul | .div | .pow | .dotGeneral _ _ _ _ | .conv _ => some 2
  | .other _ _ => none
  | _ => some 1

theorem arity_ok {sem : Sem K} {p : Prim K} {args outs : List (ND K)} (h : p.bind sem args = .ok outs) :
    ∀ n, arity p = some n → args.length = n := by
  intro n hn
  unfold Prim.bind at h
  rcases args with _ | ⟨a, _ | ⟨b, _ | ⟨c, l⟩⟩⟩ <;> cases p <;> first | (cases hn; rfl) | (cases hn; done) | cases h

theorem two_of {ins : List (Inter K)} {vals : List (ND K)} {R : Inter K → ND K → Prop}
    (h : List.Forall₂ R ins vals) (hl : vals.length = 2) :
    ∃ a b v w, ins = [a, b] ∧ vals = [v, w] ∧ R a v ∧ R b w := by
  rcases h with _ | ⟨h1, _ | ⟨h2, _ | ⟨h3, h4⟩⟩⟩
  · simp at hl
  · simp at hl
  · exact ⟨_, _, _, _, rfl, rfl, h1, h2⟩
  · simp at hl

theorem one_of {ins : List (Inter K)} {vals : List (ND K)} {R : Inter K → ND K → Prop}
    (h : List.Forall₂ R ins vals) (hl : vals.length = 1) :
    ∃ a v, ins = [a] ∧ vals = [v] ∧ R a v := by
  rcases h with _ | ⟨h1, _ | ⟨h2, h3⟩⟩
  · simp at hl
  · exact ⟨_, _, rfl, rfl, h1⟩
  · simp at hl

theorem mapOver_total' {a : Encl K} {g : ND K → Py (ND K)} (hg : ∀ u, ∃ s, g u = .ok s) :
    ∃ c, mapOverEnclosure a g = .ok c := by
  unfold mapOverEnclosure
  apply Poly.mapM_total
  intro c hc
  cases c with
  | arr u =>
    obtain ⟨s, hs⟩ := hg u
    exact ⟨.arr s, by simp only [hs, py_ok_bind]; rfl⟩
  | ivl l h =>
    obtain ⟨s, hs1⟩ := hg l
    obtain ⟨s', hs2⟩ := hg h
    exact ⟨.ivl s s', by simp only [hs1, hs2, py_ok_bind]; rfl⟩

theorem shape_low {R xs : List ℕ} {a : Encl K} {i : ℕ} {u : ND K} (h : a.length = 1 ∨ xs = []) (hi : i < a.length)
    (hu : u.shape = R ++ repS i xs) : u.shape = R := by
  rcases h with h | h
  · have : i = 0 := by omega
    subst this; simpa [IA.repS] using hu
  · subst h; simpa [IA.repS] using hu

theorem bid_total {shape dims : List ℕ} {a : Encl K} {v y : ND K} (hx : ExactBatch z.shape v.shape a)
    (hw : WellFormedEncl a) (hne : a ≠ [])
    (hy : Lax.broadcastInDimP shape dims v.canon = .ok y)
    (hl : a.length = 1 ∨ (z.shape = [] ∧ ∃ c, a[1]? = some (.arr c))) :
    ∃ c, broadcastInDimPush shape dims a = .ok c := by
  have hs : ∀ i, i < a.length → ∀ c, a[i]? = some c → c.shape = v.shape := by
    intro i hi c hc
    have := hx i c hc
    have h' : a.length = 1 ∨ z.shape = [] := hl.imp id (·.1)
    have h'' := shape_low (u := c.lo) h' hi (by rw [Coef.lo_shape]; exact this)
    rwa [Coef.lo_shape] at h''
  have hb : ∃ xs', bidXShape a = .ok xs' ∧ ∀ i < a.length, rep i xs' = [] := by
    rcases a with _ | ⟨c0, _ | ⟨c1, l⟩⟩
    · exact absurd rfl hne
    · refine ⟨[], rfl, fun i _ => by simp [rep]⟩
    · rcases hl with h | ⟨h, c, hc⟩
      · simp at h
      · cases hc
        refine ⟨_, rfl, fun i _ => ?_⟩
        have e0 := hs 0 (by simp) c0 rfl
        have e1 : c.shape = v.shape := hs 1 (by simp) (.arr c) rfl
        have : c0.ndim = v.shape.length := by show c0.shape.length = _; rw [e0]
        rw [this, e1, List.drop_length]
        simp [rep]
  obtain ⟨xs', hb, hrep⟩ := hb
  have hop : ∀ u : ND K, u.shape = v.shape → ∃ s, Lax.broadcastInDim (shape ++ []) dims u = .ok s := by
    intro u hu
    rw [List.append_nil]
    unfold Lax.broadcastInDim
    split_ifs
    · exact ⟨_, rfl⟩
    · unfold Lax.broadcastInDimP at hy ⊢
      split_ifs at hy with hc
      have hc' : dims.length = u.ndim ∧ dims.Pairwise (· < ·) ∧ (∀ d ∈ dims, d < shape.length) ∧
        ∀ k < u.ndim, u.shape.getD k 0 = 1 ∨ u.shape.getD k 0 = shape.getD (dims.getD k 0) 0 := by
        have e : u.ndim = v.canon.ndim := by show u.shape.length = v.shape.length; rw [hu]
        have e' : u.shape = v.canon.shape := hu
        rw [e, e']; exact hc
      rw [if_pos hc']
      exact ⟨_, rfl⟩
  unfold broadcastInDimPush
  rw [hb, py_ok_bind]
  apply Poly.mapM_total
  rintro ⟨i, c⟩ hic
  have hc : a[i]? = some c := Poly.mem_enum.1 hic
  have hi : i < a.length := (List.getElem?_eq_some_iff.1 hc).1
  have hsc := hs i hi c hc
  have hwc := hw c (List.mem_of_getElem? hc)
  unfold bidCoef
  simp only [hrep i hi]
  cases c with
  | arr u =>
    obtain ⟨s, hs⟩ := hop u hsc
    exact ⟨_, by simp only [hs, py_ok_bind]; rfl⟩
  | ivl l h =>
    have hw' : l.shape = h.shape := hwc.1
    obtain ⟨s, hs1⟩ := hop l hsc
    obtain ⟨s', hs2⟩ := hop h (hw' ▸ hsc)
    exact ⟨_, by simp only [hs1, hs2, py_ok_bind]; rfl⟩

section push
variable {lib : Lib K} {sem : Sem K} (hlib : LibSoundAt z lib sem) {T : TEA K} {lo hi : ND K}
  (hinit : TEA.init md lo hi = .ok T) (hz : (Coef.ivl lo hi).Contains z)
  (h0 : (Coef.ivl lo hi).Contains ⟨lo.shape, fun _ => 0⟩)
include hlib hinit hz h0

omit hlib in
/-- `get_elementwise_fun(gen)` on an argument of an equation returns -/
theorem inter_elementwise_total {f : K → K} {gen : Generator K} (hg : SoundGeneratorAt z f (fun _ => True) gen)
    {a : Inter K} {v : ND K} (ha : InterOk md z a v)
    (hu : UniformBatch z.shape v.ndim a.encl) (hne : ∃ I, ValidIdx v.shape I) (harr : ArrBelow md a.encl)
    (hr : GenReturns T gen a.encl a.tr) (hN : Labels z.shape v.shape ((a.encl.length - 1) * T.maxDegree)) :
    ∃ e, T.elementwiseFun gen a.encl a.tr = .ok e := by
  obtain ⟨hmd, -, -, -⟩ := unpack hinit hz
  have hpt : ∀ a0, a.encl[0]? = some a0 → a0.IsArr ∨ md = 0 := by
    intro a0 h
    rcases Nat.eq_zero_or_pos md with h' | h'
    · exact Or.inr h'
    · exact Or.inl (harr 0 a0 h h')
  have hm := uniform_mode hu
  cases ht : a.tr with
  | none =>
    rw [ht] at hr
    obtain ⟨r, e1, -, e2, e3, e4, e5⟩ := derived_region hinit hz ha.encl.wf (rankM_cm _) hm ha.encl.encl ha.encl.ne h0
    exact elementwise_total hinit hz hg ha.encl.wf (rankM_cm _) hm ha.encl.encl hne ha.encl.ne hpt e1 e2 e3 e4 e5
      (fun _ _ _ _ => trivial) hr hN
  | some r =>
    rw [ht] at hr
    obtain ⟨k1, k2, k3, k4, k5⟩ := ha.reg r ht
    refine elementwise_total hinit hz hg ha.encl.wf (rankM_cm _) hm ha.encl.encl hne ha.encl.ne hpt (r := r) rfl
      (Coef.sameShape_iff.1 k1) (by rw [k2]; exact Or.inl rfl) (by rw [k2]; exact ble_refl _) ?_ (fun _ _ _ _ => trivial) hr hN
    intro a0 x0 h1 h2 I hI
    have hat : r.AtIdx I (x0.get I) := by
      unfold expansionPoint at h2
      cases a0 with
      | arr b => cases h2; exact k4 _ h1 I hI
      | ivl l h =>
        have := k5 l h h1
        simp only at h2
        rw [if_neg (by omega)] at h2
        cases h2
    have hs0 : x0.shape = v.shape := by
      rw [(expansionPoint_shape h2).1]; exact ha.encl.head _ h1
    rw [ND.bget_valid _ (hs0 ▸ hI)]
    unfold Coef.Mem
    cases r with
    | arr b =>
      have : b.shape = v.shape := k2
      simp only [Coef.lo, Coef.hi]
      rw [ND.bget_valid _ (this ▸ hI)]
      have h : x0.get I = b.get I := by simpa [Coef.AtIdx] using hat
      exact ⟨h.ge, h.le⟩
    | ivl l h =>
      have e1 : l.shape = v.shape := k2
      have e2 : l.shape = h.shape := k1
      simp only [Coef.lo, Coef.hi]
      rw [ND.bget_valid _ (e1 ▸ hI), ND.bget_valid _ (e2 ▸ e1 ▸ hI)]
      exact hat

/-- **One equation returns.** -/
theorem push_total {p : Prim K} {ins : List (Inter K)} {vals outs : List (ND K)}
    (hins : List.Forall₂ (InterOk md z) ins vals) (hok : StepOk z.shape p ins)
    (hret : StepReturns lib T z.shape p ins)
    (hvals : ∀ v ∈ vals, ∃ I, ValidIdx v.shape I) (harr : ∀ i ∈ ins, ArrBelow md i.encl)
    (hev : p.bind sem vals = .ok outs) :
    ∃ f e, pushforward lib T p = some f ∧ f ins = .ok e := by
  obtain ⟨hmd, hT, hzm, hzs⟩ := unpack hinit hz
  have har := arity_ok hev
  have hve : ∀ {a : Inter K} {v : ND K} {R : List ℕ}, InterOk md z a v → ble v.shape R → VE T.xShape R a.encl := by
    intro a v R h hR
    have := (h.encl.encl.at h.encl.wf hR).1
    rwa [hzs] at this
  have hvx : ∀ {a : Inter K} {v : ND K}, InterOk md z a v → a.Exact z.shape → VX T.xShape v.shape a.encl := by
    intro a v h hx i c hc
    have g := h.good hx
    exact ⟨Coef.sameShape_iff.1 (g.wf c (List.mem_of_getElem? hc)).1, by rw [← hzs]; exact g.exact i c hc⟩
  have pw : ∀ {g : Generator K} {f : K → K} {a : Inter K} {v : ND K}, SoundGeneratorAt z f (fun _ => True) g →
      InterOk md z a v → a.Uniform z.shape → (∃ I, ValidIdx v.shape I) → ArrBelow md a.encl →
      GenReturns T g a.encl none → Labels z.shape v.shape ((a.encl.length - 1) * T.maxDegree) →
      ∃ e, T.powerOther g a.encl = .ok e := by
    intro g f a v hg ha hu hne hA hr hN
    refine powerOther_total hinit hz hg ha.encl.wf (rankM_cm _) (uniform_mode (ha.uniform hu)) ha.encl.encl hne
      ha.encl.ne ?_ h0 (fun _ _ _ _ _ _ => trivial) hr hN
    intro a0 h
    rcases Nat.eq_zero_or_pos md with h' | h'
    · exact Or.inr h'
    · exact Or.inl (hA 0 a0 h h')
  have npow : ∀ {a : Inter K} {v : ND K} {n : ℕ}, InterOk md z a v →
      Labels z.shape v.shape ((a.encl.length - 1) * n) → ∃ e, T.powerNat a.encl n = .ok e := by
    intro a v n ha hN
    rw [hzs] at hN
    obtain ⟨e, he, -⟩ := power_total hT hzm anyM_pw ha.encl.ne (hve ha (ble_refl _)).veu hN
    exact ⟨e, he⟩
  have lin : ∀ {a : Inter K} {v : ND K} {g : ND K → Py (ND K)}, InterOk md z a v → a.Exact z.shape →
      (∀ i (u : ND K), i < a.encl.length → u.shape = v.shape ++ repS i z.shape → ∃ s, g u = .ok s) →
      ∃ e, mapOverEnclosure a.encl g = .ok e := by
    intro a v g ha hx hg
    have g' := ha.good hx
    exact mapOver_total g'.exact g'.wf hg
  cases p with
  | add =>
    obtain ⟨a, b, v, w, rfl, rfl, ha, hb⟩ := two_of hins (har 2 rfl)
    obtain ⟨y, hy, rfl⟩ := one_ok hev
    obtain ⟨k1, k2⟩ := bshape_le (ND.map2_ok (nary_ok hy)).1
    obtain ⟨e, he⟩ := add_total hT hzm (hve ha k1) (hve hb k2)
    exact ⟨_, e, rfl, he⟩
  | sub =>
    obtain ⟨a, b, v, w, rfl, rfl, ha, hb⟩ := two_of hins (har 2 rfl)
    obtain ⟨y, hy, rfl⟩ := one_ok hev
    obtain ⟨k1, k2⟩ := bshape_le (ND.map2_ok (nary_ok hy)).1
    obtain ⟨e', he'⟩ := negative_total hT hzm (hve hb k2)
    have hs := sound_negative hinit hz hb.encl (hvals w (by simp)) he'
    have hv' := (hs.encl.at hs.wf (R := y.shape) k2).1
    rw [hzs] at hv'
    obtain ⟨e, he⟩ := add_total hT hzm (hve ha k1) hv'
    exact ⟨_, e, rfl, by show T.subtract _ _ = _; unfold subtract; rw [he', py_ok_bind]; exact he⟩
  | mul =>
    obtain ⟨a, b, v, w, rfl, rfl, ha, hb⟩ := two_of hins (har 2 rfl)
    obtain ⟨y, hy, rfl⟩ := one_ok hev
    obtain ⟨k1, k2⟩ := bshape_le (ND.map2_ok (nary_ok hy)).1
    obtain ⟨e, he, -⟩ := multiply_total hT hzm anyM_cl anyM_pr ha.encl.ne hb.encl.ne (hve ha k1).veu (hve hb k2).veu
    exact ⟨_, e, rfl, he⟩
  | div =>
    obtain ⟨a, b, v, w, rfl, rfl, ha, hb⟩ := two_of hins (har 2 rfl)
    obtain ⟨y, hy, rfl⟩ := one_ok hev
    obtain ⟨k1, k2⟩ := bshape_le (ND.map2_ok (nary_ok hy)).1
    obtain ⟨r1, r2⟩ := hret
    rw [headShape_eq hb.encl] at r1
    obtain ⟨g1, g2⟩ := hlib.powInt (-1) (by norm_num)
    have hwn := hvals w (by simp)
    obtain ⟨e', he'⟩ := pw g1 hb hok hwn (harr b (by simp)) r2 r1
    have hs := sound_powerOther hinit hz g1 g2 hb.encl (hb.uniform hok) hwn h0 (fun _ _ _ _ _ _ => trivial) he'
    have hv' := (hs.encl.at hs.wf (R := y.shape) k2).1
    rw [hzs] at hv'
    obtain ⟨e, he, -⟩ := multiply_total hT hzm anyM_cl anyM_pr ha.encl.ne hs.ne (hve ha k1).veu hv'.veu
    exact ⟨_, e, rfl, by show T.divide _ _ _ = _; unfold divide; rw [he', py_ok_bind]; exact he⟩
  | neg =>
    obtain ⟨a, v, rfl, rfl, ha⟩ := one_of hins (har 1 rfl)
    obtain ⟨e, he⟩ := negative_total hT hzm (hve ha (ble_refl _))
    exact ⟨_, e, rfl, he⟩
  | pow =>
    obtain ⟨a, b, v, w, rfl, rfl, ha, hb⟩ := two_of hins (har 2 rfl)
    obtain ⟨u, r1, r2, r3, r4⟩ := hret
    rw [headShape_eq ha.encl] at r3
    have : ∃ e, powPush lib T a b = .ok e := by
      unfold powPush
      rw [r1]
      simp only
      rw [if_neg (by simp [r2])]
      cases hx : lib.expo (u.get []) with
      | frac q =>
        rw [hx] at r4
        obtain ⟨g1, g2⟩ := hlib.expoFrac _ _ hx
        exact pw g1 ha hok (hvals v (by simp)) (harr a (by simp)) r4 r3
      | int n =>
        rw [hx] at r4
        obtain ⟨r4, r5⟩ := r4
        simp only
        by_cases hn : n < 0
        · rw [if_pos hn]
          obtain ⟨g1, g2⟩ := hlib.powInt n hn
          exact pw g1 ha hok (hvals v (by simp)) (harr a (by simp)) (r5 hn) r3
        · rw [if_neg hn, if_pos (by omega)]
          refine npow ha ?_
          rcases r3 with h | h
          · exact Or.inl h
          · right; omega
    obtain ⟨e, he⟩ := this
    exact ⟨_, e, rfl, he⟩
  | integerPow n =>
    obtain ⟨a, v, rfl, rfl, ha⟩ := one_of hins (har 1 rfl)
    obtain ⟨r1, r2⟩ := hret
    rw [headShape_eq ha.encl] at r1 r2
    have : ∃ e, (if 0 ≤ n then T.powerNat a.encl n.toNat else T.powerOther (lib.powGen (.int n)) a.encl) = .ok e := by
      by_cases hn : 0 ≤ n
      · rw [if_pos hn]; exact npow ha (r1 hn)
      · rw [if_neg hn]
        obtain ⟨g1, g2⟩ := hlib.powInt n (by omega)
        obtain ⟨r3, r4⟩ := r2 (by omega)
        exact pw g1 ha (hok.resolve_left hn) (hvals v (by simp)) (harr a (by simp)) r4 r3
    obtain ⟨e, he⟩ := this
    exact ⟨_, e, rfl, he⟩
  | dotGeneral lc rc lb rb =>
    obtain ⟨a, b, v, w, rfl, rfl, ha, hb⟩ := two_of hins (har 2 rfl)
    obtain ⟨y, hy, rfl⟩ := one_ok hev
    obtain ⟨k1, k2, k3⟩ := hok
    have hd : DotOk lc rc lb rb v.shape w.shape := by
      unfold Lax.dotGeneral at hy
      split_ifs at hy with h
      exact h
    obtain ⟨e, he⟩ := arbitraryBilinear_total hT hzm (pbb := dotPairwise lib.sem lc rc lb rb)
      (Rc := dotShape lc rc lb rb v.shape w.shape) ha.encl.ne hb.encl.ne (hvx ha k1) (hvx hb k2) (by
        intro i j u u' hi hj _ hu hu'
        refine dotPairwise_total lib.sem T.xShape hd hu hu' ?_
        rcases k3 with h | h | h
        · exact Or.inl h
        · right; rw [← hzs, h]; simp
        · right
          have : i = 0 := by omega
          simp [this])
    exact ⟨_, e, rfl, he⟩
  | conv op =>
    obtain ⟨a, b, v, w, rfl, rfl, ha, hb⟩ := two_of hins (har 2 rfl)
    obtain ⟨y, hy, rfl⟩ := one_ok hev
    obtain ⟨k1, k2, Rc, terms, k3, k4⟩ := hok
    obtain ⟨r1, r2⟩ := hret
    rw [headShape_eq ha.encl, headShape_eq hb.encl] at k3 r2
    obtain ⟨e, he⟩ := arbitraryBilinear_total hT hzm (pbb := convPairwise lib.sem op)
      (Rc := Rc) ha.encl.ne hb.encl.ne (hvx ha k1) (hvx hb k2) (by
        intro i j u u' hi hj _ hu hu'
        have e1 : i * T.xNdim = 0 ∧ j * T.xNdim = 0 ∧ repS i T.xShape = [] ∧ repS j T.xShape = [] := by
          rcases r1 with h | ⟨h, h'⟩
          · rw [hzs] at h
            have : T.xNdim = 0 := by show T.xShape.length = 0; rw [h]; rfl
            simp [this, h, IA.repS]
          · have e1 : i = 0 := by omega
            have e2 : j = 0 := by omega
            simp [e1, e2, IA.repS]
        obtain ⟨e1, e2, e3, e4⟩ := e1
        rw [e3, List.append_nil] at hu
        rw [e4, List.append_nil] at hu'
        obtain ⟨s, hs⟩ := r2 u.canon u'.canon hu hu'
        refine ⟨s, ?_, ?_⟩
        · rw [e1, e2]
          unfold convPairwise moveLastToFront
          rw [if_pos rfl, if_pos rfl, py_ok_bind, py_ok_bind, bind2_conv, hs, py_ok_bind, if_pos ⟨rfl, rfl⟩]
          rfl
        · have := (k3.2 0 0 [] [] u.canon u'.canon s rfl rfl (by rw [List.append_nil]; exact hu)
            (by rw [List.append_nil]; exact hu') hs).1
          rw [this, IA.repS_add, e3, e4]
          simp)
    exact ⟨_, e, rfl, he⟩
  | broadcastInDim shape dims =>
    obtain ⟨a, v, rfl, rfl, ha⟩ := one_of hins (har 1 rfl)
    obtain ⟨y, hy, rfl⟩ := one_ok hev
    have g := ha.good hok
    obtain ⟨e, he⟩ := bid_total g.exact g.wf g.ne hy hret
    exact ⟨_, e, rfl, he⟩
  | elementwise name =>
    obtain ⟨a, v, rfl, rfl, ha⟩ := one_of hins (har 1 rfl)
    obtain ⟨r1, g, hgen, r2⟩ := hret
    rw [headShape_eq ha.encl] at r1
    obtain ⟨f, hfn, g1, g2⟩ := hlib.gen _ _ hgen
    obtain ⟨e, he⟩ := inter_elementwise_total hinit hz h0 g1 ha (ha.uniform hok) (hvals v (by simp))
      (harr a (by simp)) r2 r1
    exact ⟨_, e, by simp only [pushforward, hgen]; rfl, he⟩
  | convertElementType round =>
    obtain ⟨a, v, rfl, rfl, ha⟩ := one_of hins (har 1 rfl)
    obtain ⟨e, he⟩ := mapOver_total' (a := a.encl) (g := (Prim.convertElementType round : Prim K).bind1 lib.sem)
      fun u => ⟨_, bind1_convert' lib.sem round u⟩
    exact ⟨_, e, rfl, he⟩
  | reshape s =>
    obtain ⟨a, v, rfl, rfl, ha⟩ := one_of hins (har 1 rfl)
    obtain ⟨y, hy, rfl⟩ := one_ok hev
    obtain ⟨e, he⟩ := lin (g := (Prim.reshape s).bind1 lib.sem) ha hok.1 (by
      intro i u hi hu
      have hs := shape_low hret hi hu
      rw [bind1_reshape]
      unfold Lax.reshape at hy ⊢
      split_ifs at hy with h
      have h' : s.prod = u.canon.shape.prod := by rw [h]; exact congrArg List.prod hs.symm
      rw [if_pos h']
      exact ⟨_, rfl⟩)
    exact ⟨_, e, rfl, he⟩
  | reduceSum axes =>
    obtain ⟨a, v, rfl, rfl, ha⟩ := one_of hins (har 1 rfl)
    obtain ⟨y, hy, rfl⟩ := one_ok hev
    obtain ⟨e, he⟩ := lin (g := (Prim.reduceSum axes).bind1 lib.sem) ha hok (by
      intro i u hi hu
      rw [bind1_reduceSum]
      unfold Lax.reduceSum at hy ⊢
      split_ifs at hy with h
      have h' : AxesOk u.canon.ndim axes := by
        refine ⟨h.1, fun d hd => ?_⟩
        have := h.2 d hd
        have e : u.canon.ndim = v.canon.ndim + (repS i z.shape).length := by
          show u.shape.length = v.shape.length + _; rw [hu, List.length_append]
        omega
      rw [if_pos h']
      exact ⟨_, rfl⟩)
    exact ⟨_, e, rfl, he⟩
  | reduceWindowSum ws =>
    obtain ⟨a, v, rfl, rfl, ha⟩ := one_of hins (har 1 rfl)
    obtain ⟨y, hy, rfl⟩ := one_ok hev
    obtain ⟨e, he⟩ := lin (g := (Prim.reduceWindowSum ws).bind1 lib.sem) ha hok (by
      intro i u hi hu
      have hs := shape_low hret hi hu
      rw [bind1_reduceWindowSum]
      unfold Lax.reduceWindowSum at hy ⊢
      split_ifs at hy with h
      have h' : ws.length = u.canon.ndim := by
        rw [h]; show v.shape.length = u.shape.length; rw [hs]
      rw [if_pos h']
      exact ⟨_, rfl⟩)
    exact ⟨_, e, rfl, he⟩
  | squeeze dims =>
    obtain ⟨a, v, rfl, rfl, ha⟩ := one_of hins (har 1 rfl)
    obtain ⟨y, hy, rfl⟩ := one_ok hev
    obtain ⟨e, he⟩ := lin (g := (Prim.squeeze dims).bind1 lib.sem) ha hok (by
      intro i u hi hu
      rw [bind1_squeeze]
      unfold Lax.squeeze at hy ⊢
      split_ifs at hy with h
      have h' : AxesOk u.canon.ndim dims ∧ ∀ d ∈ dims, u.canon.shape.getD d 0 = 1 := by
        obtain ⟨⟨h1, h2⟩, h3⟩ := h
        have e : u.canon.ndim = v.canon.ndim + (repS i z.shape).length := by
          show u.shape.length = v.shape.length + _; rw [hu, List.length_append]
        refine ⟨⟨h1, fun d hd => ?_⟩, fun d hd => ?_⟩
        · have := h2 d hd; omega
        · have h4 := h3 d hd
          have h5 : d < v.shape.length := h2 d hd
          have h6 : u.canon.shape = v.shape ++ repS i z.shape := hu
          rw [h6, List.getD_eq_getElem?_getD, List.getElem?_append_left h5, ← List.getD_eq_getElem?_getD]
          exact h4
      rw [if_pos h']
      exact ⟨_, rfl⟩)
    exact ⟨_, e, rfl, he⟩
  | transpose perm =>
    obtain ⟨a, v, rfl, rfl, ha⟩ := one_of hins (har 1 rfl)
    obtain ⟨y, hy, rfl⟩ := one_ok hev
    obtain ⟨e, he⟩ := lin (g := (Prim.transpose perm).bind1 lib.sem) ha hok (by
      intro i u hi hu
      have hs := shape_low hret hi hu
      rw [bind1_transpose]
      unfold Lax.transpose at hy ⊢
      split_ifs at hy with h
      have e : u.canon.ndim = v.canon.ndim := by show u.shape.length = v.shape.length; rw [hs]
      have h' : perm.length = u.canon.ndim ∧ perm.Nodup ∧ ∀ p ∈ perm, p < u.canon.ndim := by rw [e]; exact h
      rw [if_pos h']
      exact ⟨_, rfl⟩)
    exact ⟨_, e, rfl, he⟩
  | jit body =>
    obtain ⟨a, v, rfl, rfl, ha⟩ := one_of hins (har 1 rfl)
    obtain ⟨e, he⟩ := lin (g := (Prim.jit body).bind1 lib.sem) ha hok.1 (by
      intro i u hi hu
      rw [bind1_jit]
      refine hret i u.canon hi ?_
      rw [headShape_eq ha.encl]
      exact hu)
    exact ⟨_, e, rfl, he⟩
  | other name impl => exact absurd hret (by simp [StepReturns])

/-- **The propagated trust region is computed.** -/
theorem outRegion_total {T0 : TEA K} (hinit0 : TEA.init 0 lo hi = .ok T0) (hmd1 : 1 ≤ md) {p : Prim K}
    {ins : List (Inter K)} {vals : List (ND K)} {y : ND K}
    (hins : List.Forall₂ (InterOk md z) ins vals) (hok : StepOk z.shape p ins)
    (htr : ∀ i ∈ ins, i.tr.isSome) (hvals : ∀ v ∈ vals, ∃ I, ValidIdx v.shape I)
    (hyne : ∃ I, ValidIdx y.shape I) (hev : p.bind sem vals = .ok [y]) {f : List (Inter K) → Py (Encl K)}
    (hf : pushforward lib T p = some f) {e : Encl K} (hfe : f ins = .ok e)
    (he : SoundEncl e z y) (harr : ArrBelow md e) (hret : RegionReturns lib T T0 z.shape p ins) :
    ∃ r, outRegion lib T T0 p ins e = .ok r := by
  -- the inputs of the degree-0 computation
  have hi0 : ∃ ins0, regions ins = some ins0 ∧
      List.Forall₂ (fun i i0 : Inter K => ∃ r, i.tr = some r ∧ i0 = ⟨[r], none⟩) ins ins0 := by
    clear hins hok hret hfe
    unfold regions
    induction ins with
    | nil => exact ⟨[], rfl, .nil⟩
    | cons i is ih =>
      obtain ⟨is0, h1, h2⟩ := ih fun j hj => htr j (List.mem_cons_of_mem _ hj)
      obtain ⟨r, hr⟩ := Option.isSome_iff_exists.1 (htr i (by simp))
      refine ⟨⟨[r], none⟩ :: is0, ?_, .cons ⟨r, hr, rfl⟩ h2⟩
      rw [List.mapM_cons, h1, hr]
      rfl
  obtain ⟨ins0, hreg, hF⟩ := hi0
  obtain ⟨k1, k2, k3⟩ := hret ins0 hreg
  have hmap : (ins.mapM fun i => match i.tr with
      | none => (.error .assertion : Py (Inter K))
      | some r => .ok ⟨[r], none⟩) = .ok ins0 := by
    clear hins hok hret hfe hreg k1 k2 k3
    induction hF with
    | nil => rfl
    | cons h1 _ ih =>
      obtain ⟨r, hr, rfl⟩ := h1
      rw [List.mapM_cons, hr]
      rw [ih fun j hj => htr j (List.mem_cons_of_mem _ hj)]
      rfl
  have hins0 : List.Forall₂ (InterOk 0 z) ins0 vals := by
    clear hev hok hret hfe hreg k1 k2 k3 hmap
    induction hins generalizing ins0 with
    | nil => cases hF; exact .nil
    | cons h1 _ ih =>
      cases hF with
      | cons h2 h3 =>
        refine .cons ?_ (ih (fun j hj => htr j (List.mem_cons_of_mem _ hj))
          (fun j hj => hvals j (List.mem_cons_of_mem _ hj)) _ h3)
        obtain ⟨r, k1, rfl⟩ := h2
        obtain ⟨q1, q2, q3, q4, q5⟩ := h1.reg r k1
        refine ⟨sound_set ⟨q1, ?_⟩ q2 q3, by simp, fun r hr => by cases hr⟩
        cases r with
        | arr _ => trivial
        | ivl l h =>
          intro I hI
          have := q3 I (q2 ▸ hI)
          exact this.1.trans this.2
  have hok0 : StepOk z.shape p ins0 := by
    refine stepOk_regions ?_ hok
    clear hev hok hret hfe hreg k1 k2 k3 hmap hins0
    induction hins generalizing ins0 with
    | nil => cases hF; exact .nil
    | cons h1 _ ih =>
      cases hF with
      | cons h2 h3 =>
        refine .cons ?_ (ih (fun j hj => htr j (List.mem_cons_of_mem _ hj))
          (fun j hj => hvals j (List.mem_cons_of_mem _ hj)) _ h3)
        obtain ⟨r, k1, rfl⟩ := h2
        obtain ⟨-, q2, -⟩ := h1.reg r k1
        exact ⟨by rw [headShape_eq h1.encl]; exact q2, r, rfl⟩
  obtain ⟨f0, ra, hf0, hra⟩ := push_total hlib hinit0 hz h0 hins0 hok0 k1 hvals
    (fun i _ j c _ hj => absurd hj (by omega)) hev
  obtain ⟨y', hy', hsa, hla⟩ := push_sound hlib hinit0 hz h0 hf0 hins0 hok0 (by
    intro v hv
    rw [List.mem_singleton] at hv
    subst hv
    exact hyne) hev hra
  cases hy'
  obtain ⟨-, hT, -, hzs⟩ := unpack hinit hz
  have hZ : T.trustRegion = .ivl lo hi := by
    unfold TEA.init at hinit
    split_ifs at hinit
    cases hinit; rfl
  have hlh : lo.shape = hi.shape := by
    unfold TEA.init at hinit
    split_ifs at hinit with hsh
    exact not_not.1 hsh
  obtain ⟨out, ho, hen, hlo, -⟩ := C15_enclose_enclosure he.wf (Z := .ivl lo hi) hlh 0 hz he.encl
  have hle := k3 f e hf hfe
  have hol : ∃ b, out = [b] := List.length_eq_one_iff.1 (by
    unfold encloseEnclosure at ho
    rw [if_neg (by omega)] at ho
    simp only [py_bind_ok, py_pure] at ho
    obtain ⟨c, -, rfl⟩ := ho
    simp)
  obtain ⟨b, rfl⟩ := hol
  obtain ⟨a0, a1, ha⟩ := k2 f0 ra hf0 hra
  have hra1 : ra = [.ivl a0 a1] := by
    rcases ra with _ | ⟨a, la⟩
    · simp at ha
    · cases ha
      have : la = [] := List.eq_nil_of_length_eq_zero (by rw [List.length_cons] at hla; omega)
      rw [this]
  subst hra1
  obtain ⟨q1, q2, q3⟩ := hsa.set
  obtain ⟨b1, b2, b3⟩ := region_covers he hlh hz ho
  have hbi : ∃ b0 b1, b = .ivl b0 b1 := by
    have ho' := ho
    unfold encloseEnclosure at ho'
    rw [if_neg (by omega)] at ho'
    simp only [py_bind_ok, py_pure] at ho'
    obtain ⟨c, hc, hcb⟩ := ho'
    have := eval_ivl (by simp [Coef.IsArr]) (by simpa using hle) hc
    simp only [List.take_zero, List.nil_append, List.cons.injEq, and_true] at hcb
    rw [hcb] at this
    cases b with
    | arr _ => exact absurd trivial this
    | ivl c0 c1 => exact ⟨c0, c1, rfl⟩
  obtain ⟨b0, b1', rfl⟩ := hbi
  rcases e with _ | ⟨e0, le⟩
  · exact absurd rfl he.ne
  have hA := harr 0 e0 rfl (by omega)
  cases e0 with
  | ivl l h => exact absurd hA (by simp [Coef.IsArr])
  | arr y0 =>
    have hy0 : y0.shape = y.shape := he.head _ rfl
    have a2 : a0.shape = y.shape := q2
    have a1' : a0.shape = a1.shape := q1
    have b2 : ble b0.shape y.shape := b2
    have b1 : b0.shape = b1'.shape := b1
    have sh : ∀ (f : K → K → K) (u v : ND K), u.shape = y.shape → ble v.shape y.shape →
        ∃ w, ND.map2 f u v = .ok w ∧ w.shape = y.shape := by
      intro f u v hu hv
      have hb : bshape u.shape v.shape = some y.shape := by rw [hu]; exact bshape_eq_of_ble' hv
      exact ⟨⟨y.shape, fun I => f (u.bget I) (v.bget I)⟩, by unfold ND.map2; rw [hb], rfl⟩
    obtain ⟨m1, hm1, s1⟩ := sh max a0 b0 a2 b2
    obtain ⟨m2, hm2, s2⟩ := sh min a1 b1' (a1' ▸ a2) (b1 ▸ b2)
    obtain ⟨w1, hw1, -⟩ := sh min y0 m1 hy0 (s1 ▸ ble_refl _)
    obtain ⟨w2, hw2, -⟩ := sh max y0 m2 hy0 (s2 ▸ ble_refl _)
    refine ⟨.ivl w1 w2, ?_⟩
    unfold outRegion
    rw [hf0]
    simp only
    refine py_bind_ok.2 ⟨ins0, hmap, py_bind_ok.2 ⟨_, hra, py_bind_ok.2 ⟨_, by rw [hZ]; exact ho, ?_⟩⟩⟩
    simp only [intersectIntervals, hm1, hm2, py_ok_bind]
    show (do let a ← (.ok (m1, m2) : Py (ND K × ND K)); return Coef.ivl (← ND.map2 min y0 a.1) (← ND.map2 max y0 a.2)) = _
    simp only [py_ok_bind, hw1, hw2]
    rfl

end push
end JB
end AB
