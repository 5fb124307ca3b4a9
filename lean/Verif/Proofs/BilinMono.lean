/-
`arbitrary_bilinear` only depends on the successful calls of the operation it is given.
-/
import Verif.Proofs.EncBilinear

set_option linter.unusedSectionVars false

namespace AB
variable {K : Type} [Field K] [LinearOrder K] [IsStrictOrderedRing K]

/-- every success of `f` is a success of `g` with the same result -/
def OkLe {α : Type} (f g : Py α) : Prop := ∀ r, f = .ok r → g = .ok r

namespace OkLe
variable {α β : Type}
theorem refl (f : Py α) : OkLe f f := fun _ h => h
theorem bind {f g : Py α} {k k' : α → Py β} (h : OkLe f g) (hk : ∀ a, OkLe (k a) (k' a)) :
    OkLe (f >>= k) (g >>= k') := by
  intro r hr
  rw [py_bind_ok] at hr ⊢
  obtain ⟨a, h1, h2⟩ := hr
  exact ⟨a, h a h1, hk a r h2⟩

theorem foldlM {γ : Type} {f g : β → γ → Py β} {l : List γ} (h : ∀ b, ∀ c ∈ l, OkLe (f b c) (g b c)) (b : β) :
    OkLe (l.foldlM f b) (l.foldlM g b) := by
  induction l generalizing b with
  | nil => exact refl _
  | cons c l ih =>
    rw [List.foldlM_cons, List.foldlM_cons]
    exact bind (h b c (by simp)) fun b' => ih (fun b c hc => h b c (by simp [hc])) b'
end OkLe

namespace IA

theorem okLe_mapM {α β : Type} {f g : α → Py β} (h : ∀ a, OkLe (f a) (g a)) (l : List α) :
    OkLe (l.mapM f) (l.mapM g) := by
  induction l with
  | nil => exact OkLe.refl _
  | cons a l ih =>
    rw [List.mapM_cons, List.mapM_cons]
    exact (h a).bind fun b => ih.bind fun c => OkLe.refl _

theorem okLe_bilinearGeneral {op op' : ND K → ND K → Py (ND K)} (h : ∀ u v, OkLe (op u v) (op' u v))
    (a b : Coef K) : OkLe (bilinearGeneral a b op) (bilinearGeneral a b op') := by
  unfold bilinearGeneral
  cases a <;> cases b <;> simp only
  · exact (h _ _).bind fun _ => OkLe.refl _
  · exact (h _ _).bind fun _ => (h _ _).bind fun _ => (OkLe.refl _).bind fun _ =>
      (h _ _).bind fun _ => (h _ _).bind fun _ => OkLe.refl _
  · exact (h _ _).bind fun _ => (h _ _).bind fun _ => (OkLe.refl _).bind fun _ =>
      (h _ _).bind fun _ => (h _ _).bind fun _ => OkLe.refl _
  · exact (okLe_mapM (fun p : ND K × ND K => h p.1 p.2) _).bind fun _ => (OkLe.refl _).bind fun _ =>
      (okLe_mapM (fun p : ND K × ND K => h p.1 p.2) _).bind fun _ => OkLe.refl _

theorem okLe_arbitraryBilinear {op op' : ND K → ND K → Py (ND K)} (h : ∀ u v, OkLe (op u v) (op' u v))
    (a b : Coef K) : OkLe (arbitraryBilinear a b op) (arbitraryBilinear a b op') := by
  unfold arbitraryBilinear
  cases a <;> cases b <;> simp only
  · exact (h _ _).bind fun _ => OkLe.refl _
  all_goals rw [if_neg Bool.false_ne_true, if_neg Bool.false_ne_true]; exact okLe_bilinearGeneral h _ _

/-- a successful bilinear operation on sets calls the operation on arrays successfully -/
theorem arbitraryBilinear_call {op : ND K → ND K → Py (ND K)} {a b r : Coef K}
    (h : arbitraryBilinear a b op = .ok r) : ∃ u v s, op u v = .ok s := by
  by_contra hc
  push Not at hc
  have : OkLe (arbitraryBilinear a b op) (arbitraryBilinear a b fun _ _ => .error .typeError) := by
    apply okLe_arbitraryBilinear
    intro u v s hs
    exact absurd hs (hc u v s)
  have := this r h
  unfold arbitraryBilinear at this
  cases a <;> cases b <;> simp only [bilinearGeneral] at this <;> cases this

end IA

namespace TEA
variable (T : TEA K)

theorem okLe_bilinear {pbb pbb' : ND K → ND K → ℕ → ℕ → Py (ND K)} {a b : Encl K}
    (h : ∀ i < a.length, ∀ j < b.length, ∀ i' ≤ i, ∀ j' ≤ j, i' + j' ≤ T.maxDegree → ∀ u v,
      OkLe (pbb u v (i' * T.xNdim) (j' * T.xNdim)) (pbb' u v (i' * T.xNdim) (j' * T.xNdim))) :
    OkLe (T.arbitraryBilinear a b pbb) (T.arbitraryBilinear a b pbb') := by
  unfold arbitraryBilinear
  apply OkLe.foldlM
  intro o t ht
  obtain ⟨x, hx, ht⟩ := List.mem_flatMap.1 ht
  obtain ⟨y, hy, rfl⟩ := List.mem_map.1 ht
  have hi : x.1 < a.length := by
    have := List.of_mem_zip hx
    simpa using this.1
  have hj : y.1 < b.length := by
    have := List.of_mem_zip hy
    simpa using this.1
  unfold bilinearStep
  refine OkLe.bind ?_ fun c => OkLe.refl _
  unfold termEnclosureCoefficient
  simp only
  by_cases hd : x.1 + y.1 ≤ T.maxDegree
  · rw [if_pos hd, if_pos hd]
    exact IA.okLe_arbitraryBilinear (h x.1 hi y.1 hj x.1 le_rfl y.1 le_rfl hd) _ _
  · rw [if_neg hd, if_neg hd]
    by_cases he : (x.1 - min x.1 (x.1 + y.1 - T.maxDegree)) + (y.1 - (x.1 + y.1 - T.maxDegree -
      min x.1 (x.1 + y.1 - T.maxDegree))) ≠ T.maxDegree
    · rw [if_pos he, if_pos he]; exact OkLe.refl _
    · rw [if_neg he, if_neg he]
      refine (OkLe.refl _).bind fun _ => (OkLe.refl _).bind fun _ => ?_
      split_ifs
      all_goals
        first
          | refine (OkLe.refl _).bind fun _ => (OkLe.refl _).bind fun _ => ?_
          | refine (OkLe.refl _).bind fun _ => ?_
      all_goals
        refine IA.okLe_arbitraryBilinear (h x.1 hi y.1 hj _ ?_ _ ?_ ?_) _ _ <;> omega

/-- every step of a successful fold succeeds -/
theorem foldlM_step {β γ : Type} {f : β → γ → Py β} {l : List γ} {b r : β} (h : l.foldlM f b = .ok r) :
    ∀ c ∈ l, ∃ b1 b2, f b1 c = .ok b2 := by
  induction l generalizing b with
  | nil => simp
  | cons d l ih =>
    rw [List.foldlM_cons, py_bind_ok] at h
    obtain ⟨b', h1, h2⟩ := h
    intro c hc
    rcases List.mem_cons.1 hc with rfl | hc
    · exact ⟨_, _, h1⟩
    · exact ih h2 c hc

theorem mem_enum {E : Encl K} {i : ℕ} (hi : i < E.length) : (i, E[i]) ∈ Poly.enum E := by
  unfold Poly.enum
  rw [List.mem_iff_getElem]
  refine ⟨i, by simpa using hi, by simp⟩

/-- every pair of degrees whose sum does not exceed the maximum makes a successful call -/
theorem bilinear_call {pbb : ND K → ND K → ℕ → ℕ → Py (ND K)} {a b c : Encl K}
    (h : T.arbitraryBilinear a b pbb = .ok c) {i j : ℕ} (hi : i < a.length) (hj : j < b.length)
    (hd : i + j ≤ T.maxDegree) : ∃ u v s, pbb u v (i * T.xNdim) (j * T.xNdim) = .ok s := by
  unfold arbitraryBilinear at h
  obtain ⟨o, o', h1⟩ := foldlM_step h ((i, a[i]), (j, b[j])) (by
    refine List.mem_flatMap.2 ⟨_, mem_enum hi, List.mem_map.2 ⟨_, mem_enum hj, rfl⟩⟩)
  obtain ⟨c, -, -, h2, -⟩ := bilinearStep_inv T o _ o' h1
  unfold termEnclosureCoefficient at h2
  simp only [if_pos hd] at h2
  exact IA.arbitraryBilinear_call h2

end TEA
end AB
