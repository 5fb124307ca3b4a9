/-
Two runs of the same generic program (`Model/Polynomials.lean`) on related values: they return related values or raise the same
exception.
-/
import Verif.Proofs.PolyAlg

set_option linter.unusedSectionVars false

namespace AB

/-- both calls return, and the values are related, or both raise the same exception -/
def PyRel {A B : Type} (R : A → B → Prop) (x : Py A) (y : Py B) : Prop :=
  (∃ a b, x = .ok a ∧ y = .ok b ∧ R a b) ∨ ∃ e, x = .error e ∧ y = .error e

namespace PyRel
variable {A B C D : Type} {R : A → B → Prop} {S : C → D → Prop}

theorem ok {a : A} {b : B} (h : R a b) : PyRel R (.ok a) (.ok b) := Or.inl ⟨a, b, rfl, rfl, h⟩
theorem err (e : PyErr) : PyRel R (.error e) (.error e) := Or.inr ⟨e, rfl, rfl⟩

theorem bind {x : Py A} {y : Py B} {f : A → Py C} {g : B → Py D} (h : PyRel R x y)
    (hf : ∀ a b, R a b → PyRel S (f a) (g b)) : PyRel S (x >>= f) (y >>= g) := by
  rcases h with ⟨a, b, rfl, rfl, h⟩ | ⟨e, rfl, rfl⟩
  · exact hf a b h
  · exact Or.inr ⟨e, rfl, rfl⟩

theorem ok_left {x : Py A} {y : Py B} (h : PyRel R x y) {a : A} (hx : x = .ok a) : ∃ b, y = .ok b ∧ R a b := by
  rcases h with ⟨a', b, rfl, h1, h⟩ | ⟨e, rfl, -⟩
  · cases hx; exact ⟨b, h1, h⟩
  · cases hx

theorem foldlM {f : C → A → Py C} {g : D → B → Py D} {l : List A} {m : List B} (h : List.Forall₂ R l m)
    (hf : ∀ c d a b, S c d → R a b → PyRel S (f c a) (g d b)) {c : C} {d : D} (hc : S c d) :
    PyRel S (l.foldlM f c) (m.foldlM g d) := by
  induction h generalizing c d with
  | nil => exact ok hc
  | cons h1 _ ih =>
    rw [List.foldlM_cons, List.foldlM_cons]
    exact bind (hf _ _ _ _ hc h1) fun _ _ h => ih h

theorem mapM {f : A → Py C} {g : B → Py D} {l : List A} {m : List B} (h : List.Forall₂ R l m)
    (hf : ∀ a b, R a b → PyRel S (f a) (g b)) : PyRel (List.Forall₂ S) (l.mapM f) (m.mapM g) := by
  induction h with
  | nil => exact ok .nil
  | cons h1 _ ih =>
    rw [List.mapM_cons, List.mapM_cons]
    exact bind (hf _ _ h1) fun _ _ h2 => bind ih fun _ _ h3 => ok (.cons h2 h3)

end PyRel

namespace Poly
variable {F G : Type} {R : F → G → Prop}

/-- an index and related values -/
def IRel (R : F → G → Prop) (x : ℕ × F) (y : ℕ × G) : Prop := x.1 = y.1 ∧ R x.2 y.2

theorem zip_rel {is : List ℕ} {a : List F} {b : List G} (h : List.Forall₂ R a b) :
    List.Forall₂ (IRel R) (is.zip a) (is.zip b) := by
  induction h generalizing is with
  | nil => simp
  | cons h1 _ ih =>
    cases is with
    | nil => simp
    | cons i is => exact .cons ⟨rfl, h1⟩ ih

theorem enum_rel {a : List F} {b : List G} (h : List.Forall₂ R a b) : List.Forall₂ (IRel R) (enum a) (enum b) := by
  unfold enum
  rw [h.length_eq]
  exact zip_rel h

theorem set_rel {a : List F} {b : List G} (h : List.Forall₂ R a b) (i : ℕ) {x : F} {y : G} (hx : R x y) :
    List.Forall₂ R (a.set i x) (b.set i y) := by
  induction h generalizing i with
  | nil => simp
  | cons h1 h2 ih =>
    cases i with
    | zero => exact .cons hx h2
    | succ i => exact .cons h1 (ih i)

theorem getElem?_rel {a : List F} {b : List G} (h : List.Forall₂ R a b) (i : ℕ) :
    (∃ x y, a[i]? = some x ∧ b[i]? = some y ∧ R x y) ∨ (a[i]? = none ∧ b[i]? = none) := by
  induction h generalizing i with
  | nil => right; simp
  | cons h1 _ ih =>
    cases i with
    | zero => left; exact ⟨_, _, rfl, rfl, h1⟩
    | succ i => simpa using ih i

theorem replicate_rel {x : F} {y : G} (h : R x y) (n : ℕ) : List.Forall₂ R (List.replicate n x) (List.replicate n y) := by
  induction n with
  | zero => exact .nil
  | succ n ih => exact .cons h ih

theorem refl_rel (l : List ℕ) : List.Forall₂ (fun a b => a = b) l l := by
  induction l with
  | nil => exact .nil
  | cons a l ih => exact .cons rfl ih

theorem arbitraryBilinear_sim {add : F → F → Py F} {add' : G → G → Py G} {zero : F} {zero' : G}
    {tpc : F → F → ℕ → ℕ → Py F} {tpc' : G → G → ℕ → ℕ → Py G} (h0 : R zero zero')
    (hadd : ∀ x x' y y', R x x' → R y y' → PyRel R (add x y) (add' x' y'))
    (htpc : ∀ x x' y y' i j, R x x' → R y y' → PyRel R (tpc x y i j) (tpc' x' y' i j))
    {a b : List F} {a' b' : List G} (ha : List.Forall₂ R a a') (hb : List.Forall₂ R b b') :
    PyRel (List.Forall₂ R) (arbitraryBilinear a b add zero tpc) (arbitraryBilinear a' b' add' zero' tpc') := by
  unfold arbitraryBilinear
  have hl : List.Forall₂ (fun (s : (ℕ × F) × (ℕ × F)) (t : (ℕ × G) × (ℕ × G)) => IRel R s.1 t.1 ∧ IRel R s.2 t.2)
      ((enum a).flatMap fun x => (enum b).map fun y => (x, y)) ((enum a').flatMap fun x => (enum b').map fun y => (x, y)) := by
    have h1 := enum_rel ha
    have h2 := enum_rel hb
    generalize enum a = u, enum a' = v at h1
    induction h1 with
    | nil => exact .nil
    | cons h _ ih =>
      rw [List.flatMap_cons, List.flatMap_cons]
      refine List.rel_append ?_ ih
      rw [List.forall₂_map_left_iff, List.forall₂_map_right_iff]
      exact h2.imp fun _ _ h3 => ⟨h, h3⟩
  refine PyRel.foldlM (S := List.Forall₂ R) hl ?_ (by rw [ha.length_eq, hb.length_eq]; exact replicate_rel h0 _)
  rintro o o' ⟨⟨i, x⟩, j, y⟩ ⟨⟨i', x'⟩, j', y'⟩ ho ⟨⟨h1, h2⟩, h3, h4⟩
  simp only at h1 h2 h3 h4
  subst h1 h3
  unfold bilinearStep
  refine PyRel.bind (htpc x x' y y' i j h2 h4) fun c c' hc => ?_
  dsimp only
  rcases getElem?_rel ho (i + j) with ⟨u, v, e1, e2, huv⟩ | ⟨e1, e2⟩
  · rw [e1, e2]
    exact PyRel.bind (hadd _ _ _ _ huv hc) fun _ _ h => PyRel.ok (set_rel ho _ h)
  · rw [e1, e2]; exact PyRel.err _

theorem integerPower_sim {add : F → F → Py F} {add' : G → G → Py G} {zero one : F} {zero' one' : G}
    {tpc : F → F → ℕ → ℕ → Py F} {tpc' : G → G → ℕ → ℕ → Py G} {tpow : F → ℕ → ℕ → Py F} {tpow' : G → ℕ → ℕ → Py G}
    {smul : ℕ → F → Py F} {smul' : ℕ → G → Py G} (h0 : R zero zero') (h1 : R one one')
    (hadd : ∀ x x' y y', R x x' → R y y' → PyRel R (add x y) (add' x' y'))
    (htpc : ∀ x x' y y' i j, R x x' → R y y' → PyRel R (tpc x y i j) (tpc' x' y' i j))
    (htpow : ∀ x x' i j, R x x' → PyRel R (tpow x i j) (tpow' x' i j))
    (hsmul : ∀ n x x', R x x' → PyRel R (smul n x) (smul' n x'))
    {a : List F} {a' : List G} (ha : List.Forall₂ R a a') (p : ℤ) :
    PyRel (List.Forall₂ R) (integerPower add one tpc tpow smul zero a p) (integerPower add' one' tpc' tpow' smul' zero' a' p) := by
  unfold integerPower
  split_ifs
  · exact PyRel.err _
  · exact PyRel.ok (.cons h1 .nil)
  · rw [ha.length_eq]
    refine PyRel.mapM (refl_rel _) ?_
    rintro i _ rfl
    unfold getCoeff
    rw [ha.length_eq]
    refine PyRel.bind (R := fun a b => a = b) ?_ ?_
    · cases iterPartitions (i : ℤ) (p.toNat : ℤ) (a'.length : ℤ) with
      | ok v => exact PyRel.ok rfl
      | error e => exact PyRel.err e
    · rintro ps _ rfl
      refine PyRel.foldlM (R := fun a b => a = b) (l := ps) (m := ps) (List.forall₂_same.2 fun _ _ => rfl) ?_ h0
      rintro c c' q _ hc rfl
      unfold coeffStep
      split_ifs
      · exact PyRel.err _
      · exact PyRel.err _
      · refine PyRel.bind (R := fun s t => R s.1 t.1 ∧ s.2 = t.2) ?_ ?_
        · unfold partitionProduct
          have hz : List.Forall₂ (fun (s : (ℕ × F) × ℕ) (t : (ℕ × G) × ℕ) => IRel R s.1 t.1 ∧ s.2 = t.2)
              ((enum a).zip q) ((enum a').zip q) := by
            have := enum_rel ha
            generalize enum a = u, enum a' = v at this
            rename_i hq1 hq2
            clear hc hq1 hq2
            induction this generalizing q with
            | nil => simp
            | cons h _ ih =>
              cases q with
              | nil => simp
              | cons n q => exact .cons ⟨h, rfl⟩ (ih q)
          refine PyRel.foldlM hz ?_ ⟨h1, rfl⟩
          rintro ⟨s, n⟩ ⟨s', n'⟩ ⟨⟨j, x⟩, m⟩ ⟨⟨j', x'⟩, m'⟩ ⟨hs, hn⟩ ⟨⟨hj, hx⟩, hm⟩
          simp only at hs hn hj hx hm
          subst hn hj hm
          unfold productStep
          refine PyRel.bind (htpow _ _ _ _ hx) fun _ _ h2 => ?_
          exact PyRel.bind (htpc _ _ _ _ _ _ hs h2) fun _ _ h3 => PyRel.ok ⟨h3, rfl⟩
        · rintro ⟨s, n⟩ ⟨s', n'⟩ ⟨hs, hn⟩
          simp only at hs hn
          subst hn
          dsimp only
          split_ifs
          · exact PyRel.err _
          · refine PyRel.bind (R := fun a b => a = b) ?_ ?_
            · cases multinomialCoefficient q with
              | ok v => exact PyRel.ok rfl
              | error e => exact PyRel.err e
            · rintro m _ rfl
              exact PyRel.bind (hsmul _ _ _ hs) fun _ _ h => hadd _ _ _ _ hc h

end Poly
end AB
