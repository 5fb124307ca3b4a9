/-
Decidability of the specification vocabulary, used only to check concrete instances.
-/
import Verif.Spec.Enclosure
import Verif.Proofs.Broadcast

namespace AB

/-- an array given by its shape and its entries in row-major order -/
def ND.mk' {K : Type} [Zero K] (S : List ℕ) (l : List K) : ND K :=
  ⟨S, fun I => l.getD ((idx S).idxOf I) 0⟩

instance decForallValid {S : List ℕ} {P : List ℕ → Prop} [DecidablePred P] :
    Decidable (∀ I, ValidIdx S I → P I) :=
  decidable_of_iff (∀ I ∈ idx S, P I) ⟨fun h I hI => h I (mem_idx.2 hI), fun h I hI => h I (mem_idx.1 hI)⟩

instance {S I : List ℕ} : Decidable (ValidIdx S I) := decidable_of_iff (I ∈ idx S) mem_idx

variable {K : Type}

instance [DecidableEq K] [LE K] [DecidableRel (α := K) (· ≤ ·)] (c : Coef K) (I : List ℕ) (v : K) :
    Decidable (c.AtIdx I v) := by
  cases c <;> unfold Coef.AtIdx <;> infer_instance

instance [DecidableEq K] (c : Coef K) (I : List ℕ) (v : K) : Decidable (c.IsEndpoint I v) := by
  cases c <;> unfold Coef.IsEndpoint <;> infer_instance

instance [DecidableEq K] [LE K] [DecidableRel (α := K) (· ≤ ·)] (c : Coef K) (y : ND K) :
    Decidable (c.Contains y) := by
  unfold Coef.Contains; infer_instance

instance [DecidableEq K] [LE K] [DecidableRel (α := K) (· ≤ ·)] (c : Coef K) (y : ND K) :
    Decidable (c.Covers y) := by
  unfold Coef.Covers; infer_instance

instance (c : Coef K) : Decidable c.SameShape := by
  cases c <;> unfold Coef.SameShape <;> infer_instance

instance [LE K] [DecidableRel (α := K) (· ≤ ·)] (c : Coef K) : Decidable c.Ordered := by
  cases c <;> unfold Coef.Ordered <;> infer_instance

instance [LE K] [DecidableRel (α := K) (· ≤ ·)] (c : Coef K) : Decidable c.WellFormed := by
  unfold Coef.WellFormed; infer_instance

instance [LE K] [DecidableRel (α := K) (· ≤ ·)] (E : Encl K) : Decidable (WellFormedEncl E) := by
  unfold WellFormedEncl; infer_instance

instance (c : Coef K) : Decidable c.IsArr := by
  cases c <;> unfold Coef.IsArr <;> infer_instance

instance [DecidableEq K] (a b : ND K) : Decidable (a.Same b) := by
  unfold ND.Same; infer_instance

/-- `x` returns and its value satisfies `P` -/
def Py.Returns {α : Type} (x : Py α) (P : α → Prop) : Prop := ∃ r, x = .ok r ∧ P r

instance {α : Type} {x : Py α} {P : α → Prop} [DecidablePred P] : Decidable (x.Returns P) :=
  match x with
  | .ok r => decidable_of_iff (P r) ⟨fun h => ⟨r, rfl, h⟩, fun ⟨r', e, h⟩ => by cases e; exact h⟩
  | .error e => .isFalse fun ⟨r', e', _⟩ => by cases e'

instance {α : Type} {x : Py α} : Decidable (∃ r, x = .ok r) :=
  match x with
  | .ok r => .isTrue ⟨r, rfl⟩
  | .error e => .isFalse fun ⟨r', e'⟩ => by cases e'

instance decPyEx {α : Type} {x : Py α} {P : α → Prop} [DecidablePred P] :
    Decidable (∃ r, x = .ok r ∧ P r) :=
  inferInstanceAs (Decidable (x.Returns P))

instance [Field K] [LinearOrder K] (E : Encl K) (z y : ND K) : Decidable (Encloses E z y) := by
  unfold Encloses; infer_instance

instance [Field K] [LinearOrder K] (E : Encl K) (z y : ND K) : Decidable (ElemEncloses E z y) := by
  unfold ElemEncloses; infer_instance

end AB
