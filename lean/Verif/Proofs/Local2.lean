/-
Near the reference point, the calls of the enclosure generators are calls at which they are right.
-/
import Verif.Proofs.LocalLib
import Verif.Proofs.Thin6
import Verif.Spec.SmoothArgs
import Verif.Props.Fat

set_option linter.unusedSectionVars false

namespace AB
open EF PE Set TEA

namespace JB

theorem near_elementwise {name : String} {tc : ℕ → ℝ → Py (List ℝ)} {d : ℕ} {u : ℝ} (h : tcOf name = some tc)
    (hs : SmoothFn name d u) : NearTc (fnOf name) tc d u := by
  unfold SmoothFn at hs
  unfold tcOf at h
  cases hn : builtinName name with
  | some n =>
    rw [hn] at h hs
    cases h
    obtain ⟨h1, h2⟩ := hs
    have hf : fnOf name = mathFun n := by unfold fnOf; rw [realSem_builtin hn]; rfl
    rw [hf]
    exact ⟨⟨_, taylorCoefficients_eq h1 u⟩, near_builtin h1 h2⟩
  | none =>
    rw [hn] at h hs
    replace hs : 0 < u := hs
    simp only [Option.map_eq_some_iff] at h
    obtain ⟨q, hq, rfl⟩ := h
    refine ⟨⟨_, rfl⟩, near_congr ?_ (near_pow (p := .frac q) hs d)⟩
    filter_upwards [eventually_gt_nhds hs] with y hy
    unfold rootExponent at hq
    split at hq <;> cases hq
    · show cbrt y = y ^ (1 / 3 : ℝ)
      exact cbrt_of_nonneg (le_of_lt hy)
    · show 1 / √y = y ^ (-1 / 2 : ℝ)
      exact rsqrt_eq y
    · show √y = y ^ (1 / 2 : ℝ)
      exact Real.sqrt_eq_rpow y

theorem near_powTc {p : Expo ℝ} (d : ℕ) {u : ℝ} (h : powOk p u) : NearTc (powFun p) (tcPow p) d u := ⟨⟨_, rfl⟩, near_pow h d⟩

end JB

section
variable {ι : Type} {w : ι → ℝ} {i0 : ι}

theorem exists_nearD (f : ℝ → ℝ) (tc : ℕ → ℝ → Py (List ℝ)) (d : ℕ) (a : ND ℝ) :
    ∃ δ : ℝ, 0 < δ ∧ ∀ I, ValidIdx a.shape I → δ ≤ nearD f tc d (a.get I) := by
  have key : ∀ l : List (List ℕ), ∃ δ : ℝ, 0 < δ ∧ ∀ I ∈ l, δ ≤ nearD f tc d (a.get I) := by
    intro l
    induction l with
    | nil => exact ⟨1, one_pos, by simp⟩
    | cons I l ih =>
      obtain ⟨δ, h1, h2⟩ := ih
      refine ⟨min δ (nearD f tc d (a.get I)), lt_min h1 (nearD_pos _ _ _ _), fun J hJ => ?_⟩
      rcases List.mem_cons.1 hJ with rfl | hJ
      · exact min_le_right _ _
      · exact (min_le_left _ _).trans (h2 J hJ)
  obtain ⟨δ, h1, h2⟩ := key (idx a.shape)
  exact ⟨δ, h1, fun I hI => h2 I (mem_idx.2 hI)⟩

/-- if the trust region is small enough, the generators agree -/
theorem call_near (hw : ∀ i, 0 ≤ w i) {T : ι → TEA ℝ} {arg : ι → Encl ℝ} {a : ND ℝ}
    (hhead : ∀ i, (arg i)[0]? = some (.arr a)) {d : ℕ} (hd : ∀ i, (T i).maxDegree = d)
    {f : ℝ → ℝ} {tc : ℕ → ℝ → Py (List ℝ)} (hn : AllNear f tc a d) {tr : ι → Option (Coef ℝ)} {r : ι → Coef ℝ}
    (hr : ∀ i, (T i).argRegion (arg i) (tr i) = .ok (r i)) (hthin : Thin w i0 r)
    (hk : ∀ i, ble a.shape (r i).shape ∧ ∀ I, ValidIdx (r i).shape I → (r i).lo.bget I ≤ a.bget I ∧ a.bget I ≤ (r i).hi.bget I)
    (hble : ∀ i, ble (r i).shape a.shape) :
    ∃ σ : ℝ, 0 < σ ∧ ∀ i, w i ≤ σ → CallLe (T i) (fixGen f tc) (localGen f tc) (arg i) (tr i) := by
  obtain ⟨C, hC, hwid⟩ := hthin.uniform hw
  obtain ⟨δ, hδ, hδ'⟩ := exists_nearD f tc d a
  refine ⟨δ / (C + 1), div_pos hδ (by linarith), fun i hi r' c x0 hr' hc hx0 => ?_⟩
  rw [hr i] at hr'
  cases hr'
  rw [hhead i] at hc
  cases hc
  cases hx0
  rw [hd i, toInterval_eq]
  obtain ⟨k1, k2⟩ := hk i
  have hsh : (r i).shape = a.shape := ble_antisymm (hble i) k1
  have hsh0 : (r i0).shape = a.shape := by rw [← hthin.shape i, hsh]
  rw [fix_call_local f tc hn]
  · exact OkLe.refl _
  · rw [Coef.lo_shape, hsh]; exact bshape_self _
  · intro I hI
    obtain ⟨m1, m2⟩ := k2 I (hsh ▸ hI)
    have hw1 := hwid i I (hsh0 ▸ hI)
    have hlt : C * w i < δ := by
      have : C * w i ≤ C * (δ / (C + 1)) := mul_le_mul_of_nonneg_left hi hC
      refine this.trans_lt ?_
      rw [mul_div_assoc', div_lt_iff₀ (by linarith)]
      nlinarith
    have hδI := hδ' I hI
    rw [ND.bget_valid a hI] at m1 m2
    constructor <;> linarith

namespace JB

/-- the same for an argument that the interpreter has computed -/
theorem arg_near (hw : ∀ i, 0 ≤ w i) {T : ι → TEA ℝ} (hT : ThinT w i0 T) (h0 : ∀ i, (T i).Zero) {d : ℕ} (hd : d ≠ 0)
    {tlo thi z : ι → ND ℝ} (hinit : ∀ i, TEA.init d (tlo i) (thi i) = .ok (T i))
    (hz : ∀ i, (Coef.ivl (tlo i) (thi i)).Contains (z i)) (hz0 : ∀ i, (z i).get = fun _ => 0)
    {x : ι → Inter ℝ} (hx : ThinI w i0 x) {v0 : ND ℝ} (hio : ∀ i, InterOk d (z i) (x i) v0)
    {f : ℝ → ℝ} {tc : ℕ → ℝ → Py (List ℝ)} (hn : AllNear f tc v0 d) {tr : ι → Option (Coef ℝ)}
    (htr : tr = (fun _ => none) ∨ tr = fun i => (x i).tr) {r : ι → Coef ℝ}
    (hr : ∀ i, (T i).argRegion (x i).encl (tr i) = .ok (r i)) :
    ∃ σ : ℝ, 0 < σ ∧ ∀ i, w i ≤ σ → CallLe (T i) (fixGen f tc) (localGen f tc) (x i).encl (tr i) := by
  have hTd : ∀ i, (T i).maxDegree = d := fun i => by rw [(shape_of_init (hinit i)).1]
  rcases hx.encl.cases with he | ⟨c, F, hc, hF, he⟩
  · exact ⟨1, one_pos, fun i _ r c x0 _ hc => by rw [he i] at hc; cases hc⟩
  cases hc0 : c i0 with
  | ivl l u =>
    refine ⟨1, one_pos, fun i _ r b x0 _ hb hx0 => ?_⟩
    exfalso
    rw [he i] at hb
    cases hb
    have hnest := hc.nest i
    rw [hc0] at hnest
    revert hx0 hnest
    generalize c i = b
    intro hx0 hnest
    cases hnest
    simp only [expansionPoint, hTd i] at hx0
    rw [if_neg hd] at hx0
    cases hx0
  | arr a =>
    have hca : ∀ i, c i = .arr a := by
      intro i
      have hnest := hc.nest i
      rw [hc0] at hnest
      revert hnest
      generalize c i = b
      intro hnest
      cases hnest; rfl
    have hhead : ∀ i, (x i).encl[0]? = some (.arr a) := fun i => by rw [he i, hca i]; rfl
    have hv : ∀ i, a.shape = v0.shape ∧ ∀ I, ValidIdx v0.shape I → a.get I = v0.get I :=
      fun i => head_value (hz0 i) (hio i) (hhead i)
    have hna : AllNear f tc a d := ⟨hd, fun I hI => by
      rw [(hv i0).2 I ((hv i0).1 ▸ hI)]
      exact hn.2 I ((hv i0).1 ▸ hI)⟩
    have hble : ∀ i, ble (r i).shape a.shape := fun i => by
      rw [(hv i).1]
      refine (region_mem (hinit i) (hz i) (hio i) ?_ (hr i)).1
      rcases htr with rfl | rfl
      · exact Or.inl rfl
      · exact Or.inr rfl
    have hnone : (∀ i, tr i = none) → ∃ σ : ℝ, 0 < σ ∧ ∀ i, w i ≤ σ →
        CallLe (T i) (fixGen f tc) (localGen f tc) (x i).encl (tr i) := by
      intro htr
      have hr' : ∀ i, (T i).argRegion (x i).encl none = .ok (r i) := fun i => by rw [← htr i]; exact hr i
      refine call_near hw hhead hTd hna hr (thin_argRegion hw hT hx.encl hr') (fun i => ?_) hble
      have hwf := thinE_wf hx.encl i
      have hri := hr' i
      rw [he i, hca i] at hwf hri
      exact argRegion_head (h0 i) ((hT.region.nest i).wf') hwf hri
    rcases htr with rfl | rfl
    · exact hnone fun _ => rfl
    · rcases hx.reg with hreg | ⟨q, q1, q2, q3⟩
      · exact hnone hreg
      · have hqr : q = r := funext fun i => by
          have := hr i
          beta_reduce at this
          rw [show (x i).tr = some (q i) from q1 i] at this
          exact Except.ok.inj this
        subst hqr
        refine call_near hw hhead hTd hna hr q2 (fun i => ?_) hble
        obtain ⟨y0, rest, p1, p2, p3⟩ := q3 i
        beta_reduce at p1
        rw [he i, hca i] at p1
        cases p1
        exact ⟨p2, p3⟩

/-- one equation -/
theorem eqn_near (hw : ∀ i, 0 ≤ w i) {T : ι → TEA ℝ} (hT : ThinT w i0 T) (h0 : ∀ i, (T i).Zero) {d : ℕ} (hd : d ≠ 0)
    {tlo thi z : ι → ND ℝ} (hinit : ∀ i, TEA.init d (tlo i) (thi i) = .ok (T i))
    (hz : ∀ i, (Coef.ivl (tlo i) (thi i)).Contains (z i)) (hz0 : ∀ i, (z i).get = fun _ => 0)
    {p : Prim ℝ} {ins : ι → List (Inter ℝ)} (hins : FamList (ThinI w i0) ins)
    (hsm : ∀ x : ι → Inter ℝ, (∀ i, curvedArg p (ins i) = some (x i)) → ∃ v0, (∀ i, InterOk d (z i) (x i) v0) ∧
      ∀ I, ValidIdx v0.shape I → SmoothAt d p (v0.get I))
    {f : ι → List (Inter ℝ) → Py (Encl ℝ)} (hf : ∀ i, pushforward fixLib (T i) p = some (f i)) {e : ι → Encl ℝ}
    (he : ∀ i, f i (ins i) = .ok (e i)) :
    ∃ σ : ℝ, 0 < σ ∧ ∀ i, w i ≤ σ → CallsLe fixLib localLib (T i) p (ins i) := by
  have region : ∀ (g : ι → Generator ℝ) (x : ι → Inter ℝ) (tr : ι → Option (Coef ℝ)),
      (∀ i, ∃ o, (T i).elementwiseFun (g i) (x i).encl (tr i) = .ok o) →
      ∃ r : ι → Coef ℝ, ∀ i, (T i).argRegion (x i).encl (tr i) = .ok (r i) := by
    intro g x tr h
    choose o h using h
    unfold elementwiseFun at h
    simp only [py_bind_ok] at h
    choose r hr _ using h
    exact ⟨r, hr⟩
  have powOther : ∀ (g : Generator ℝ) (x : ι → Inter ℝ), (∀ i, ∃ o, (T i).powerOther g (x i).encl = .ok o) →
      ∃ r : ι → Coef ℝ, ∀ i, (T i).argRegion (x i).encl none = .ok (r i) := by
    intro g x h
    refine region (fun _ => g) x (fun _ => none) fun i => ?_
    obtain ⟨o, h⟩ := h i
    simp only [powerOther, py_bind_ok] at h
    obtain ⟨_, _, h⟩ := h
    exact ⟨o, h⟩
  obtain ⟨L, hL, hLi⟩ := hins
  obtain rfl : ins = fun i => L.map fun y => y i := funext hLi
  cases p with
  | elementwise n =>
    rcases L with _ | ⟨x, _ | ⟨y, L⟩⟩
    · exact ⟨1, one_pos, fun i _ => trivial⟩
    · cases htc : tcOf n with
      | none =>
        refine ⟨1, one_pos, fun i _ => Or.inl ⟨?_, ?_⟩⟩
        · simp only [fixLib, htc, Option.map_none]
        · simp only [localLib, htc, Option.map_none]
      | some tc =>
        obtain ⟨v0, hv, hs⟩ := hsm x fun i => rfl
        have hg : fixLib.gen n = some (fixGen (fnOf n) tc) := by simp only [fixLib, htc, Option.map_some]
        have hreg : ∃ r : ι → Coef ℝ, ∀ i, (T i).argRegion (x i).encl (x i).tr = .ok (r i) := by
          refine region (fun _ => fixGen (fnOf n) tc) x (fun i => (x i).tr) fun i => ⟨e i, ?_⟩
          have h1 := hf i
          have h2 := he i
          simp only [pushforward, hg, Option.map_some] at h1
          rw [← Option.some.inj h1] at h2
          exact h2
        obtain ⟨r, hr⟩ := hreg
        obtain ⟨σ, hσ, h⟩ := arg_near hw hT h0 hd hinit hz hz0 (hL x (by simp)) hv (f := fnOf n) (tc := tc)
          ⟨hd, fun I hI => near_elementwise htc (hs I hI)⟩ (Or.inr rfl) hr
        exact ⟨σ, hσ, fun i hi => Or.inr ⟨_, _, hg, by simp only [localLib, htc, Option.map_some], h i hi⟩⟩
    · exact ⟨1, one_pos, fun i _ => trivial⟩
  | div =>
    rcases L with _ | ⟨x, _ | ⟨y, _ | ⟨u, L⟩⟩⟩ <;> try exact ⟨1, one_pos, fun i _ => trivial⟩
    obtain ⟨v0, hv, hs⟩ := hsm y fun i => rfl
    have hreg : ∃ r : ι → Coef ℝ, ∀ i, (T i).argRegion (y i).encl none = .ok (r i) := by
      refine powOther (fixLib.powGen (.int (-1))) y fun i => ?_
      have h1 := hf i
      have h2 := he i
      rw [← Option.some.inj h1] at h2
      have h2 : (T i).divide (fixLib.powGen (.int (-1))) (x i).encl (y i).encl = .ok (e i) := h2
      simp only [divide, py_bind_ok] at h2
      obtain ⟨o, h2, -⟩ := h2
      exact ⟨o, h2⟩
    obtain ⟨r, hr⟩ := hreg
    exact arg_near hw hT h0 hd hinit hz hz0 (hL y (by simp)) hv (f := powFun (.int (-1))) (tc := tcPow (.int (-1)))
      ⟨hd, fun I hI => near_powTc d (Or.inr (hs I hI))⟩ (Or.inl rfl) hr
  | integerPow n =>
    rcases L with _ | ⟨x, _ | ⟨y, L⟩⟩ <;> try exact ⟨1, one_pos, fun i _ => trivial⟩
    by_cases hn : n < 0
    · obtain ⟨v0, hv, hs⟩ := hsm x fun i => if_pos hn
      have hreg : ∃ r : ι → Coef ℝ, ∀ i, (T i).argRegion (x i).encl none = .ok (r i) := by
        refine powOther (fixLib.powGen (.int n)) x fun i => ⟨e i, ?_⟩
        have h1 := hf i
        have h2 := he i
        rw [← Option.some.inj h1] at h2
        have h2 : (if 0 ≤ n then (T i).powerNat (x i).encl n.toNat else (T i).powerOther (fixLib.powGen (.int n)) (x i).encl) =
          .ok (e i) := h2
        rw [if_neg (by omega)] at h2
        exact h2
      obtain ⟨r, hr⟩ := hreg
      obtain ⟨σ, hσ, h⟩ := arg_near hw hT h0 hd hinit hz hz0 (hL x (by simp)) hv (f := powFun (.int n)) (tc := tcPow (.int n))
        ⟨hd, fun I hI => near_powTc d (Or.inr (hs I hI))⟩ (Or.inl rfl) hr
      exact ⟨σ, hσ, fun i hi _ => h i hi⟩
    · exact ⟨1, one_pos, fun i _ h => absurd h hn⟩
  | pow =>
    rcases L with _ | ⟨x, _ | ⟨y, _ | ⟨u, L⟩⟩⟩ <;> try exact ⟨1, one_pos, fun i _ => trivial⟩
    obtain ⟨v0, hv, hs⟩ := hsm x fun i => rfl
    have hcv : ∀ i, (y i).constantValue = (y i0).constantValue := (hL y (by simp)).constantValue
    have h2 : ∀ i, powPush fixLib (T i) (x i) (y i) = .ok (e i) := fun i => by
      have h1 := hf i
      have h2 := he i
      rw [← Option.some.inj h1] at h2
      exact h2
    by_cases hc : ∃ v, (y i0).constantValue = some v ∧ v.shape = [] ∧ PowUses (fixLib.expo (v.get []))
    · obtain ⟨v, hcv0, hvs, hpu⟩ := hc
      have hreg : ∃ r : ι → Coef ℝ, ∀ i, (T i).argRegion (x i).encl none = .ok (r i) := by
        refine powOther (fixLib.powGen (fixLib.expo (v.get []))) x fun i => ⟨e i, ?_⟩
        have h2 := h2 i
        unfold powPush at h2
        rw [hcv i, hcv0] at h2
        simp only at h2
        rw [if_neg (not_not.2 hvs)] at h2
        cases hex : fixLib.expo (v.get []) with
        | frac q => rw [hex] at h2; exact h2
        | int n =>
          rw [hex] at h2 hpu
          simp only at h2
          rw [if_pos (show n < 0 from hpu)] at h2
          exact h2
      obtain ⟨r, hr⟩ := hreg
      obtain ⟨σ, hσ, h⟩ := arg_near hw hT h0 hd hinit hz hz0 (hL x (by simp)) hv (f := powFun (fixLib.expo (v.get [])))
        (tc := tcPow (fixLib.expo (v.get []))) ⟨hd, fun I hI => near_powTc d (by
          have := hs I hI
          replace this : 0 < v0.get I := this
          cases fixLib.expo (v.get []) with
          | frac q => exact this
          | int n => exact Or.inr this.ne')⟩ (Or.inl rfl) hr
      refine ⟨σ, hσ, fun i hi v' hv' hs' hp' => ?_⟩
      rw [hcv i, hcv0] at hv'
      cases hv'
      exact h i hi
    · refine ⟨1, one_pos, fun i _ v hv' hs' hp' => absurd ⟨v, ?_, hs', hp'⟩ hc⟩
      rw [← hcv i]; exact hv'
  | _ => exact ⟨1, one_pos, fun i _ => trivial⟩

end JB
end
end AB
