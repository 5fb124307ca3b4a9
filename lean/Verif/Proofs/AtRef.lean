/-
The code's own tables (with the cap in `taylor_remainder_ratio`) are right at the reference point.
-/
import Verif.Proofs.IsoLib
import Verif.Props.TotalStatic

set_option linter.unusedSectionVars false

namespace AB
open PE EF Set

section
variable {K : Type} [Field K] [LinearOrder K] [IsStrictOrderedRing K]

/-- the value at `z = 0` of an enclosure whose first coefficient is an array -/
theorem enclosed_at_zero {E : Encl K} (hE : WellFormedEncl E) {s : List ℕ} {y a : ND K}
    (h : Encloses E ⟨s, fun _ => 0⟩ y) (h0 : E[0]? = some (.arr a)) {I : List ℕ} (hI : ValidIdx y.shape I) :
    y.get I = a.bget I := by
  obtain ⟨-, h⟩ := (encloses_iff hE).1 h
  obtain ⟨w, hw, e⟩ := h I hI
  have hm := (hw 0).1 (.arr a) h0 [] ValidIdx.nil
  rw [Coef.mem_arr, List.append_nil] at hm
  rw [e, selVal, Finset.sum_eq_single 0]
  · rw [pair_zero_deg]; exact hm
  · intro i _ hi
    simp [pair, JB.zp_zero_fun _ i hi]
  · intro h
    exfalso; apply h
    rcases E with _ | ⟨c, E⟩
    · cases h0
    · simp

/-- soundness at the reference point is enough for `SoundGeneratorAt 0` -/
theorem soundGeneratorAt_lift {f : K → K} {tc : ℕ → K → Py (List K)} {g : K → K → K → ℕ → Py (SEncl K)}
    {ok : K → K → K → ℕ → Prop} (hs : ScalarSoundOn (fun d x0 x => d = 0 ∨ x = x0) f tc g ok) (s : List ℕ) :
    SoundGeneratorAt ⟨s, fun _ => 0⟩ f (fun _ => True) (guardGen ok (liftGen tc g)) := by
  intro x0 lo hi d e R hsh hR hne hx0 _ hg
  obtain ⟨k1, k2, k3, k4, k5⟩ := soundGenerator_lift_on hs x0 lo hi d e R hsh hR hx0 hg
  refine ⟨k1, k2, k3, k4, fun y δ hreach => k5 y δ fun I hI => ?_⟩
  obtain ⟨arg, ha, hy, a0, ha0, h⟩ := hreach
  rcases h with rfl | ⟨h, -⟩
  · exact Or.inr (enclosed_at_zero ha hy ha0 hI)
  · exact Or.inl h

end

theorem notCapped_zero (x0 e : ℝ) : NotCapped x0 0 e := Or.inr (by norm_num)

theorem has_at_ref {s : SEncl ℝ} {v : ℝ} (hl : s.1.length ≠ 0) (h : s.2.1 ≤ s.2.2) (h0 : s.1.getD 0 0 = v) :
    SEncl.Has s 0 v := by
  refine ⟨s.2.1, le_rfl, h, ?_⟩
  obtain ⟨n, hn⟩ := Nat.exists_eq_succ_of_ne_zero hl
  rw [hn, Finset.sum_eq_single 0]
  · rw [h0, pow_zero, mul_one, zero_pow (Nat.succ_ne_zero n), mul_zero, add_zero]
  · intro i _ hi
    rw [zero_pow hi, mul_zero]
  · intro h
    simp at h

theorem taylorPoly_length {fid : FunctionId} {k : ℕ} {x0 : ℝ} {l : List ℝ}
    (h : getTaylorPolynomialCoefficients fid k x0 = .ok l) : l.length = k + 1 := by
  have := (Poly.mapM_ok h).length_eq
  simpa using this.symm

theorem scalarSoundOn_builtin (n : FName) :
    ScalarSoundOn (fun d x0 x => d = 0 ∨ x = x0) (mathFun n) (fun d x => getTaylorPolynomialCoefficients ⟨n, 0⟩ d x)
      (fun x0 a b d => getElementwiseTaylorEnclosure ⟨n, 0⟩ x0 a b d) (BuiltinTable n) := by
  intro x0 a b d s h1 h2 hok hg
  simp only at hg
  obtain ⟨l, hl, hs⟩ := elementwise_fst hg
  have hll := taylorPoly_length hl
  have hord := (scalarIsotone_builtin n x0 x0 a b a b d s s le_rfl h1 h2 le_rfl h1 h2 (fun _ => rfl) hok hok hg hg).2.1
  have hlen : s.1.length = d := by rw [hs, List.length_take]; omega
  refine ⟨hlen, hord, ?_, l, hl, fun i hi => by rw [hs, getD_take hi]⟩
  intro x hx hx' hP
  rcases Nat.eq_zero_or_pos d with rfl | hd
  · have hreg : BuiltinRegion n x0 a b 0 := by
      refine ⟨notCapped_zero _ _, notCapped_zero _ _, ?_⟩
      cases n with
      | softplus => exact Or.inl (by norm_num)
      | _ => exact hok
    obtain ⟨s', e, -, -, q⟩ := builtin_of_region ⟨h1, h2⟩ hreg
    rw [hg] at e
    cases e
    exact q x hx hx'
  · rcases hP with h | rfl
    · omega
    · rw [sub_self]
      refine has_at_ref (by omega) hord ?_
      rw [hs, getD_take hd]
      rcases Nat.exists_eq_succ_of_ne_zero hd.ne' with ⟨m, rfl⟩
      have hF := Poly.mapM_ok hl
      obtain ⟨v, hv, e⟩ : ∃ v, l[0]? = some v ∧ (do
          let fd ← getFunction (FunctionId.derivativeId ⟨n, 0⟩ 0)
          return fd x / ((0 : ℕ).factorial : ℝ) : Py ℝ) = .ok v := by
        have h0 : (List.range (m + 1 + 1))[0]? = some 0 := by simp
        exact (Poly.forall₂_getElem? hF 0).2 0 h0
      simp only [py_bind_ok, py_pure] at e
      obtain ⟨fd, hfd, rfl⟩ := e
      obtain ⟨-, rfl⟩ := getFunction_eq.1 hfd
      rw [List.getD_eq_getElem?_getD, hv]
      simp [derivFun_zero]

theorem scalarSoundOn_pow (p : Expo ℝ) {f : ℝ → ℝ}
    (hf : ∀ x0 a b k, PowTable p x0 a b k → ∀ x, a ≤ x → x ≤ b → (a ≤ x0 ∧ x0 ≤ b) → powFun p x = f x) :
    ScalarSoundOn (fun d x0 x => d = 0 ∨ x = x0) f (fun d x => .ok (powCoeffs (fun x p : ℝ => x ^ p) p d x))
      (fun x0 a b d => powEnclosure (fun x p : ℝ => x ^ p) p x0 a b d) (PowTable p) := by
  intro x0 a b d s h1 h2 hok hg
  simp only at hg
  have hs := pow_fst hg
  have hord := (scalarIsotone_pow p x0 x0 a b a b d s s le_rfl h1 h2 le_rfl h1 h2 (fun _ => rfl) hok hok hg hg).2.1
  have hlen : s.1.length = d := by rw [hs, List.length_take]; simp [powCoeffs]
  refine ⟨hlen, hord, ?_, _, rfl, fun i hi => by rw [hs, getD_take hi]⟩
  intro x hx hx' hP
  rw [← hf x0 a b d hok x hx hx' ⟨h1, h2⟩]
  rcases Nat.eq_zero_or_pos d with rfl | hd
  · obtain ⟨s', e, -, -, q⟩ := C34_pow ⟨h1, h2⟩ hok.1 hok.2 (notCapped_zero _ _) (notCapped_zero _ _)
    rw [hg] at e
    cases e
    exact q x hx hx'
  · rcases hP with h | rfl
    · omega
    · rw [sub_self]
      refine has_at_ref (by omega) hord ?_
      rw [hs, getD_take hd, List.getD_eq_getElem?_getD]
      unfold powCoeffs
      rw [List.getElem?_map, List.getElem?_range (by omega)]
      simp [fallProd, powShift_zero]

namespace JB

theorem root_at {s : String} {q : ℝ} (h : rootExponent s = some q) (xs : List ℕ) :
    ∃ f, realSem.fn s = some f ∧ SoundGeneratorAt ⟨xs, fun _ => 0⟩ f (fun _ => True)
      (guardGen (PowTable (.frac q)) (powGen (fun x p : ℝ => x ^ p) (.frac q))) := by
  unfold rootExponent at h
  split at h <;> cases h
  · refine ⟨cbrt, rfl, soundGeneratorAt_lift (scalarSoundOn_pow _ ?_) xs⟩
    intro x0 a b k hok x hx hx' _
    have h0 : 0 ≤ a := by
      rcases hok.1 with h | h
      · exact h.le
      · exact h.1.ge
    exact (cbrt_of_nonneg (h0.trans hx)).symm
  · refine ⟨_, rfl, soundGeneratorAt_lift (scalarSoundOn_pow _ ?_) xs⟩
    intro x0 a b k hok x hx hx' _
    exact (rsqrt_eq x).symm
  · refine ⟨_, rfl, soundGeneratorAt_lift (scalarSoundOn_pow _ ?_) xs⟩
    intro x0 a b k hok x hx hx' _
    exact (Real.sqrt_eq_rpow x).symm

/-- the tables, restricted to the regions they are right about, are right at the reference point — whatever the cap
in `taylor_remainder_ratio` does -/
theorem tableLib_soundAt (xs : List ℕ) : LibSoundAt ⟨xs, fun _ => 0⟩ tableLib realSem where
  fn := safeLib_sound.fn
  pow := rfl
  gen n g h := by
    simp only [tableLib] at h
    cases hn : builtinName n with
    | some b =>
      simp only [hn, Option.some.injEq] at h
      subst h
      exact ⟨_, realSem_builtin hn, soundGeneratorAt_lift (scalarSoundOn_builtin b) xs,
        keepsShape_guard (keepsShape_lift _ _)⟩
    | none =>
      simp only [hn, Option.map_eq_some_iff] at h
      obtain ⟨q, hq, rfl⟩ := h
      obtain ⟨f, hf, hs⟩ := root_at hq xs
      exact ⟨f, hf, hs, keepsShape_guard (keepsShape_lift _ _)⟩
  powInt n _ := ⟨soundGeneratorAt_lift (scalarSoundOn_pow (.int n) (fun _ _ _ _ _ _ _ _ _ => rfl)) xs,
    keepsShape_guard (keepsShape_lift _ _)⟩
  expoInt := safeLib_sound.expoInt
  expoFrac p q h := by
    have h : realExpo p = .frac q := h
    unfold realExpo at h
    split_ifs at h with hp
    cases h
    exact ⟨soundGeneratorAt_lift (scalarSoundOn_pow (.frac p) (fun _ _ _ _ _ _ _ _ _ => rfl)) xs,
      keepsShape_guard (keepsShape_lift _ _)⟩

theorem tableLib_arr : LibArr tableLib where
  gen n g h := by
    simp only [tableLib] at h
    cases hn : builtinName n with
    | some b =>
      simp only [hn, Option.some.injEq] at h
      subst h
      exact arrGen_guard (arrGen_lift _ _)
    | none =>
      simp only [hn, Option.map_eq_some_iff] at h
      obtain ⟨q, hq, rfl⟩ := h
      exact arrGen_guard (arrGen_lift _ _)
  pow p := arrGen_guard (arrGen_lift _ _)

theorem full_lift {K : Type} [Field K] [LinearOrder K] (tc : ℕ → K → Py (List K))
    (g : K → K → K → ℕ → Py (SEncl K)) : GenFull (liftGen tc g) := by
  intro x0 tr d e h
  unfold liftGen at h
  cases hR : bshape x0.shape tr.1.shape with
  | none => simp only [hR] at h; cases h
  | some R =>
    simp only [hR, py_bind_ok, py_pure] at h
    obtain ⟨_, -, rfl⟩ := h
    refine ⟨by simp, ?_⟩
    rw [List.getElem?_append_right (by simp)]
    simp

theorem full_guard {ok : ℝ → ℝ → ℝ → ℕ → Prop} {gen : TEA.Generator ℝ} (h : GenFull gen) :
    GenFull (guardGen ok gen) := fun x0 tr d e he => h x0 tr d e (guardGen_ok he).2

theorem tableLib_full : LibFull tableLib where
  gen n g h := by
    simp only [tableLib] at h
    cases hn : builtinName n with
    | some b =>
      simp only [hn, Option.some.injEq] at h
      subst h
      exact full_guard (full_lift _ _)
    | none =>
      simp only [hn, Option.map_eq_some_iff] at h
      obtain ⟨q, hq, rfl⟩ := h
      exact full_guard (full_lift _ _)
  pow p := full_guard (full_lift _ _)

end JB
end AB
