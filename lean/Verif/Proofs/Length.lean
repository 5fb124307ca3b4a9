/-
Helper lemmas: lower bounds on the number of coefficients.
-/
import Verif.Spec.Length
import Verif.Proofs.Live
import Verif.Proofs.PolyExact

set_option linter.unusedSectionVars false

namespace AB
variable {K : Type} [Field K] [LinearOrder K] [IsStrictOrderedRing K]

namespace JB
open TEA
variable {lib : Lib K} {T T0 : TEA K} {len : ℤ → ℕ}

theorem push_terms (hfull : LibFull lib) (hT : 1 ≤ T.maxDegree) {p : Prim K} {atoms : List (Atom K)} {outvars : List ℤ}
    (hop : TermsOp T.maxDegree len p atoms outvars) {ins : List (Inter K)}
    (hins : List.Forall₂ (fun a i => Atom.terms len a ≤ i.encl.length ∧ i.encl.length ≤ T.maxDegree + 1) atoms ins)
    {f : List (Inter K) → Py (Encl K)} (hf : pushforward lib T p = some f) {e : Encl K} (he : f ins = .ok e) :
    ∃ o, outvars = [o] ∧ len o ≤ max 1 e.length := by
  have two : ∀ {a b : Atom K}, atoms = [a, b] → ∃ i j, ins = [i, j] ∧
      (a.terms len ≤ i.encl.length ∧ i.encl.length ≤ T.maxDegree + 1) ∧
      (b.terms len ≤ j.encl.length ∧ j.encl.length ≤ T.maxDegree + 1) := by
    rintro a b rfl
    cases hins with
    | cons h1 h2 =>
      cases h2 with
      | cons h2 h3 =>
        cases h3
        exact ⟨_, _, rfl, h1, h2⟩
  have one : ∀ {a : Atom K}, atoms = [a] → ∃ i, ins = [i] ∧
      (a.terms len ≤ i.encl.length ∧ i.encl.length ≤ T.maxDegree + 1) := by
    rintro a rfl
    cases hins with
    | cons h1 h2 =>
      cases h2
      exact ⟨_, rfl, h1⟩
  have lin : ∀ {a : Atom K} {o : ℤ}, atoms = [a] → len o ≤ a.terms len →
      (∀ i, f [i] = mapOverEnclosure i.encl (p.bind1 lib.sem)) → len o ≤ max 1 e.length := by
    intro a o ha hd hg
    obtain ⟨i, rfl, h1⟩ := one ha
    rw [hg] at he
    have := (mapOver_get he).1
    omega
  cases p with
  | add =>
    rcases atoms with _ | ⟨a, _ | ⟨b, _ | ⟨c, l⟩⟩⟩ <;> rcases outvars with _ | ⟨o, _ | ⟨o', lo⟩⟩ <;> try exact absurd hop id
    cases hf
    obtain ⟨i, j, rfl, h1, h2⟩ := two rfl
    have := add_len he
    have hop : len o ≤ max (a.terms len) (b.terms len) := hop
    exact ⟨o, rfl, by omega⟩
  | sub =>
    rcases atoms with _ | ⟨a, _ | ⟨b, _ | ⟨c, l⟩⟩⟩ <;> rcases outvars with _ | ⟨o, _ | ⟨o', lo⟩⟩ <;> try exact absurd hop id
    cases hf
    obtain ⟨i, j, rfl, h1, h2⟩ := two rfl
    simp only [TEA.subtract, py_bind_ok] at he
    obtain ⟨nb, hnb, he⟩ := he
    have := add_len he
    have := negative_len hnb
    have hop : len o ≤ max (a.terms len) (b.terms len) := hop
    exact ⟨o, rfl, by omega⟩
  | mul =>
    rcases atoms with _ | ⟨a, _ | ⟨b, _ | ⟨c, l⟩⟩⟩ <;> rcases outvars with _ | ⟨o, _ | ⟨o', lo⟩⟩ <;> try exact absurd hop id
    cases hf
    obtain ⟨i, j, rfl, h1, h2⟩ := two rfl
    have := multiply_len he
    have hop : len o ≤ min (T.maxDegree + 1) (a.terms len + b.terms len - 1) := hop
    exact ⟨o, rfl, by omega⟩
  | dotGeneral lc rc lb rb =>
    rcases atoms with _ | ⟨a, _ | ⟨b, _ | ⟨c, l⟩⟩⟩ <;> rcases outvars with _ | ⟨o, _ | ⟨o', lo⟩⟩ <;> try exact absurd hop id
    cases hf
    obtain ⟨i, j, rfl, h1, h2⟩ := two rfl
    have := bilinear_len he
    have hop : len o ≤ min (T.maxDegree + 1) (a.terms len + b.terms len - 1) := hop
    exact ⟨o, rfl, by omega⟩
  | conv op =>
    rcases atoms with _ | ⟨a, _ | ⟨b, _ | ⟨c, l⟩⟩⟩ <;> rcases outvars with _ | ⟨o, _ | ⟨o', lo⟩⟩ <;> try exact absurd hop id
    cases hf
    obtain ⟨i, j, rfl, h1, h2⟩ := two rfl
    have := bilinear_len he
    have hop : len o ≤ min (T.maxDegree + 1) (a.terms len + b.terms len - 1) := hop
    exact ⟨o, rfl, by omega⟩
  | integerPow n =>
    rcases atoms with _ | ⟨a, _ | ⟨b, l⟩⟩ <;> rcases outvars with _ | ⟨o, _ | ⟨o', lo⟩⟩ <;> try exact absurd hop id
    cases hf
    obtain ⟨i, rfl, h1⟩ := one rfl
    obtain ⟨hn, hop⟩ : 1 ≤ n ∧ len o ≤ min (T.maxDegree + 1) ((a.terms len - 1) * n.toNat + 1) := hop
    dsimp only at he
    rw [if_pos (by omega)] at he
    have := powerNat_len (by omega) he
    have hle : (a.terms len - 1) * n.toNat ≤ (i.encl.length - 1) * n.toNat := Nat.mul_le_mul_right _ (by omega)
    exact ⟨o, rfl, by omega⟩
  | neg =>
    rcases atoms with _ | ⟨a, _ | ⟨b, l⟩⟩ <;> rcases outvars with _ | ⟨o, _ | ⟨o', lo⟩⟩ <;> try exact absurd hop id
    cases hf
    obtain ⟨i, rfl, h1⟩ := one rfl
    have := negative_len he
    have hop : len o ≤ a.terms len := hop
    exact ⟨o, rfl, by omega⟩
  | elementwise name =>
    rcases atoms with _ | ⟨a, _ | ⟨b, l⟩⟩ <;> rcases outvars with _ | ⟨o, _ | ⟨o', lo⟩⟩ <;> try exact absurd hop id
    obtain ⟨i, rfl, h1⟩ := one rfl
    unfold pushforward at hf
    rw [Option.map_eq_some_iff] at hf
    obtain ⟨g, hg, rfl⟩ := hf
    have hop : len o ≤ min 2 (a.terms len) := hop
    by_cases h2 : 2 ≤ i.encl.length
    · have := (live_elementwise (hfull.gen name g hg) he ⟨fun h => by omega, fun _ => h2⟩).2 hT
      exact ⟨o, rfl, by omega⟩
    · exact ⟨o, rfl, by omega⟩
  | broadcastInDim shape dims =>
    rcases atoms with _ | ⟨a, _ | ⟨b, l⟩⟩ <;> rcases outvars with _ | ⟨o, _ | ⟨o', lo⟩⟩ <;> try exact absurd hop id
    cases hf
    obtain ⟨i, rfl, h1⟩ := one rfl
    simp only [broadcastInDimPush, py_bind_ok] at he
    obtain ⟨_, -, hg⟩ := he
    have hl := (Poly.mapM_ok hg).length_eq
    rw [Poly.enum_length] at hl
    have hop : len o ≤ a.terms len := hop
    exact ⟨o, rfl, by omega⟩
  | pow =>
    rcases atoms with _ | ⟨a, _ | ⟨b, _ | ⟨c, l⟩⟩⟩ <;> rcases outvars with _ | ⟨o, _ | ⟨o', lo⟩⟩ <;> exact absurd hop id
  | div =>
    rcases atoms with _ | ⟨a, _ | ⟨b, _ | ⟨c, l⟩⟩⟩ <;> rcases outvars with _ | ⟨o, _ | ⟨o', lo⟩⟩ <;> exact absurd hop id
  | other name impl =>
    rcases atoms with _ | ⟨a, _ | ⟨b, _ | ⟨c, l⟩⟩⟩ <;> rcases outvars with _ | ⟨o, _ | ⟨o', lo⟩⟩ <;> exact absurd hop id
  | convertElementType _ =>
    rcases atoms with _ | ⟨a, _ | ⟨b, l⟩⟩ <;> rcases outvars with _ | ⟨o, _ | ⟨o', lo⟩⟩ <;> try exact absurd hop id
    cases hf
    exact ⟨o, rfl, lin rfl hop fun _ => rfl⟩
  | reshape s =>
    rcases atoms with _ | ⟨a, _ | ⟨b, l⟩⟩ <;> rcases outvars with _ | ⟨o, _ | ⟨o', lo⟩⟩ <;> try exact absurd hop id
    cases hf
    exact ⟨o, rfl, lin rfl hop fun _ => rfl⟩
  | reduceSum s =>
    rcases atoms with _ | ⟨a, _ | ⟨b, l⟩⟩ <;> rcases outvars with _ | ⟨o, _ | ⟨o', lo⟩⟩ <;> try exact absurd hop id
    cases hf
    exact ⟨o, rfl, lin rfl hop fun _ => rfl⟩
  | reduceWindowSum s =>
    rcases atoms with _ | ⟨a, _ | ⟨b, l⟩⟩ <;> rcases outvars with _ | ⟨o, _ | ⟨o', lo⟩⟩ <;> try exact absurd hop id
    cases hf
    exact ⟨o, rfl, lin rfl hop fun _ => rfl⟩
  | squeeze s =>
    rcases atoms with _ | ⟨a, _ | ⟨b, l⟩⟩ <;> rcases outvars with _ | ⟨o, _ | ⟨o', lo⟩⟩ <;> try exact absurd hop id
    cases hf
    exact ⟨o, rfl, lin rfl hop fun _ => rfl⟩
  | transpose s =>
    rcases atoms with _ | ⟨a, _ | ⟨b, l⟩⟩ <;> rcases outvars with _ | ⟨o, _ | ⟨o', lo⟩⟩ <;> try exact absurd hop id
    cases hf
    exact ⟨o, rfl, lin rfl hop fun _ => rfl⟩
  | jit s =>
    rcases atoms with _ | ⟨a, _ | ⟨b, l⟩⟩ <;> rcases outvars with _ | ⟨o, _ | ⟨o', lo⟩⟩ <;> try exact absurd hop id
    cases hf
    exact ⟨o, rfl, lin rfl hop fun _ => rfl⟩

/-- the arguments of an operation that follows the certificate are not all constants if its result has more than one
coefficient -/
theorem terms_live {p : Prim K} {md : ℕ} {atoms : List (Atom K)} {outvars : List ℤ}
    (hop : TermsOp md len p atoms outvars) (h : ∃ o ∈ outvars, 2 ≤ len o) : ∃ a ∈ atoms, 2 ≤ a.terms len := by
  obtain ⟨o, ho, h2⟩ := h
  cases p <;> rcases atoms with _ | ⟨a, _ | ⟨b, _ | ⟨c, l⟩⟩⟩ <;> rcases outvars with _ | ⟨o', _ | ⟨o'', lo⟩⟩ <;>
    first
      | exact absurd hop id
      | skip
  all_goals
    obtain rfl : o = o' := by simpa using ho
    simp only [TermsOp] at hop
  all_goals
    first
      | exact ⟨a, by simp, by omega⟩
      | (by_cases ha : 2 ≤ a.terms len
         · exact ⟨a, by simp, ha⟩
         · exact ⟨b, by simp, by omega⟩)
      | (refine ⟨a, by simp, ?_⟩
         by_contra hc
         have : a.terms len - 1 = 0 := by omega
         rw [this] at hop
         omega)

end JB
end AB
