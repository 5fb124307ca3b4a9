import Verif.Model.ND
import Mathlib.Tactic.Ring
import Mathlib.Tactic.Linarith
import Mathlib.Data.List.Forall2

namespace AB

/-- `S` broadcasts to `R` (reversed lists). -/
def bleR : List ℕ → List ℕ → Prop
  | [], _ => True
  | _ :: _, [] => False
  | s :: S, r :: R => (s = 1 ∨ s = r) ∧ bleR S R

/-- `S` broadcasts to `R`. -/
def ble (S R : List ℕ) : Prop := bleR S.reverse R.reverse

theorem bleR_refl (S : List ℕ) : bleR S S := by
  induction S with
  | nil => trivial
  | cons s S ih => exact ⟨Or.inr rfl, ih⟩

theorem bleR_trans {S T R : List ℕ} (h : bleR S T) (h' : bleR T R) : bleR S R := by
  induction S generalizing T R with
  | nil => trivial
  | cons s S ih =>
    match T, R, h, h' with
    | t :: T, r :: R, h, h' =>
      refine ⟨?_, ih h.2 h'.2⟩
      rcases h.1 with h1 | h1
      · exact Or.inl h1
      · rcases h'.1 with h2 | h2
        · exact Or.inl (h1.trans h2)
        · exact Or.inr (h1.trans h2)
    | t :: T, [], h, h' => exact h'.elim
    | [], _, h, h' => exact h.elim

theorem bleR_length {S R : List ℕ} (h : bleR S R) : S.length ≤ R.length := by
  induction S generalizing R with
  | nil => simp
  | cons s S ih =>
    match R, h with
    | r :: R, h => simpa using ih h.2
    | [], h => exact h.elim

theorem bleR_append {S R S' R' : List ℕ} (h : bleR S R) (hl : S.length = R.length)
    (h' : bleR S' R') : bleR (S ++ S') (R ++ R') := by
  induction S generalizing R with
  | nil => 
    have : R = [] := by simpa using hl.symm
    subst this; simpa using h'
  | cons s S ih =>
    match R, h, hl with
    | r :: R, h, hl => exact ⟨h.1, ih h.2 (by simpa using hl)⟩
    | [], h, hl => exact h.elim

theorem ble_refl (S : List ℕ) : ble S S := bleR_refl _
theorem ble_trans {S T R : List ℕ} (h : ble S T) (h' : ble T R) : ble S R := bleR_trans h h'
theorem ble_length {S R : List ℕ} (h : ble S R) : S.length ≤ R.length := by
  simpa using bleR_length h
theorem ble_nil (R : List ℕ) : ble [] R := trivial

theorem ble_append {S R S' R' : List ℕ} (h' : ble S' R') (h : ble S R)
    (hl : S.length = R.length) : ble (S' ++ S) (R' ++ R) := by
  unfold ble at *
  rw [List.reverse_append, List.reverse_append]
  exact bleR_append h (by simpa using hl) h'

theorem bleR_append_inv {S R S' R' : List ℕ} (hl : S.length = R.length)
    (h : bleR (S ++ S') (R ++ R')) : bleR S R ∧ bleR S' R' := by
  induction S generalizing R with
  | nil =>
    have : R = [] := by simpa using hl.symm
    subst this; exact ⟨trivial, by simpa using h⟩
  | cons s S ih =>
    match R, hl with
    | r :: R, hl =>
      have := ih (R := R) (by simpa using hl) h.2
      exact ⟨⟨h.1, this.1⟩, this.2⟩
    | [], hl => simp at hl

theorem ble_append_inv {S R S' R' : List ℕ} (hl : S.length = R.length)
    (h : ble (S' ++ S) (R' ++ R)) : ble S' R' ∧ ble S R := by
  unfold ble at *
  rw [List.reverse_append, List.reverse_append] at h
  have := bleR_append_inv (by simpa using hl) h
  exact ⟨this.2, this.1⟩

theorem bleR_append_right {S R : List ℕ} (h : bleR S R) (T : List ℕ) : bleR S (R ++ T) := by
  induction S generalizing R with
  | nil => trivial
  | cons s S ih =>
    match R, h with
    | r :: R, h => exact ⟨h.1, ih h.2⟩
    | [], h => exact h.elim

theorem ble_prepend {S R : List ℕ} (h : ble S R) (T : List ℕ) : ble S (T ++ R) := by
  unfold ble at *
  rw [List.reverse_append]; exact bleR_append_right h _

theorem bdim_le {s t d : ℕ} (h : bdim s t = some d) :
    (s = 1 ∨ s = d) ∧ (t = 1 ∨ t = d) := by
  unfold bdim at h
  split_ifs at h <;> simp_all

theorem bshapeR_le {S T R : List ℕ} (h : bshapeR S T = some R) : bleR S R ∧ bleR T R := by
  induction S generalizing T R with
  | nil =>
    simp [bshapeR] at h; subst h; exact ⟨trivial, bleR_refl _⟩
  | cons s S ih =>
    cases T with
    | nil => simp [bshapeR] at h; subst h; exact ⟨bleR_refl _, trivial⟩
    | cons t T =>
      simp only [bshapeR] at h
      split at h
      · rename_i d R' hd hR
        simp at h; subst h
        have := ih hR
        have hd := bdim_le hd
        exact ⟨⟨hd.1, this.1⟩, ⟨hd.2, this.2⟩⟩
      · simp at h

theorem bshapeR_lub {S T R : List ℕ} (h : bleR S R) (h' : bleR T R) :
    ∃ R', bshapeR S T = some R' ∧ bleR R' R := by
  induction S generalizing T R with
  | nil => exact ⟨T, by simp [bshapeR], h'⟩
  | cons s S ih =>
    cases T with
    | nil => exact ⟨s :: S, by simp [bshapeR], h⟩
    | cons t T =>
      match R, h, h' with
      | r :: R, h, h' =>
        obtain ⟨R', h1, h2⟩ := ih h.2 h'.2
        have : ∃ d, bdim s t = some d ∧ (d = 1 ∨ d = r) := by
          unfold bdim
          rcases h.1 with h | h <;> rcases h'.1 with h' | h' <;> split_ifs <;> simp_all
        obtain ⟨d, hd, hd'⟩ := this
        exact ⟨d :: R', by simp [bshapeR, hd, h1], hd', h2⟩
      | [], h, _ => exact h.elim

theorem bshape_le {S T R : List ℕ} (h : bshape S T = some R) : ble S R ∧ ble T R := by
  unfold bshape at h
  simp only [Option.map_eq_some_iff] at h
  obtain ⟨R', h, rfl⟩ := h
  unfold ble; rw [List.reverse_reverse]
  exact bshapeR_le h

theorem bshape_lub {S T R : List ℕ} (h : ble S R) (h' : ble T R) :
    ∃ R', bshape S T = some R' ∧ ble R' R := by
  obtain ⟨R', h1, h2⟩ := bshapeR_lub h h'
  exact ⟨R'.reverse, by simp [bshape, h1], by unfold ble; rwa [List.reverse_reverse]⟩

theorem bshapeR_length {S T R : List ℕ} (h : bshapeR S T = some R) :
    R.length = max S.length T.length := by
  induction S generalizing T R with
  | nil => simp [bshapeR] at h; subst h; simp
  | cons s S ih =>
    cases T with
    | nil => simp [bshapeR] at h; subst h; simp
    | cons t T =>
      simp only [bshapeR] at h
      split at h
      · rename_i d R' hd hR
        simp at h; subst h
        simp [ih hR]
      · simp at h

theorem bshape_length {S T R : List ℕ} (h : bshape S T = some R) :
    R.length = max S.length T.length := by
  unfold bshape at h
  simp only [Option.map_eq_some_iff] at h
  obtain ⟨R', h, rfl⟩ := h
  simpa using bshapeR_length h

theorem bleR_antisymm {S T : List ℕ} (h : bleR S T) (h' : bleR T S) : S = T := by
  induction S generalizing T with
  | nil => cases T with
    | nil => rfl
    | cons => exact h'.elim
  | cons s S ih =>
    match T, h, h' with
    | t :: T, h, h' =>
      have := ih h.2 h'.2
      subst this
      rcases h.1 with h1 | h1
      · rcases h'.1 with h2 | h2
        · rw [h1, h2]
        · rw [h2]
      · rw [h1]
    | [], h, _ => exact h.elim

theorem ble_antisymm {S T : List ℕ} (h : ble S T) (h' : ble T S) : S = T := by
  have := bleR_antisymm h h'
  simpa using this

theorem bshape_eq_of_ble {S T : List ℕ} (h : ble S T) : bshape S T = some T := by
  obtain ⟨R, h1, h2⟩ := bshape_lub h (ble_refl T)
  rw [h1]; congr 1
  exact ble_antisymm h2 (bshape_le h1).2

theorem bshape_eq_of_ble' {S T : List ℕ} (h : ble T S) : bshape S T = some S := by
  obtain ⟨R, h1, h2⟩ := bshape_lub (ble_refl S) h
  rw [h1]; congr 1
  exact ble_antisymm h2 (bshape_le h1).1

theorem bshape_self (S : List ℕ) : bshape S S = some S := bshape_eq_of_ble (ble_refl S)
theorem bshape_nil_left (S : List ℕ) : bshape [] S = some S := bshape_eq_of_ble (ble_nil _)
theorem bshape_nil_right (S : List ℕ) : bshape S [] = some S := bshape_eq_of_ble' (ble_nil _)

/-- scalar reading rule of one axis -/
def ax (s i : ℕ) : ℕ := if s = 1 then 0 else i

theorem bidx_def (S I : List ℕ) : bidx S I = (List.zipWith ax S.reverse I.reverse).reverse := rfl

@[simp] theorem bidx_length (S I : List ℕ) : (bidx S I).length = min S.length I.length := by
  simp [bidx]

@[simp] theorem bidx_nil (I : List ℕ) : bidx [] I = [] := by simp [bidx]

theorem zipWith_ax_ax {S R I : List ℕ} (h : bleR S R) (hl : R.length ≤ I.length) :
    List.zipWith ax S (List.zipWith ax R I) = List.zipWith ax S I := by
  induction S generalizing R I with
  | nil => simp
  | cons s S ih =>
    match R, I, h, hl with
    | r :: R, i :: I, h, hl =>
      simp only [List.zipWith_cons_cons]
      rw [ih h.2 (by simpa using hl)]
      congr 1
      unfold ax
      rcases h.1 with h1 | h1
      · simp [h1]
      · subst h1; split <;> rfl
    | r :: R, [], h, hl => simp at hl
    | [], _, h, _ => exact h.elim

theorem bidx_bidx {S R I : List ℕ} (h : ble S R) (hl : R.length ≤ I.length) :
    bidx S (bidx R I) = bidx S I := by
  simp only [bidx_def, List.reverse_reverse]
  rw [zipWith_ax_ax h (by simpa using hl)]

theorem bidx_append {S T I J : List ℕ} (h : T.length = J.length) :
    bidx (S ++ T) (I ++ J) = bidx S I ++ bidx T J := by
  simp only [bidx_def, List.reverse_append]
  rw [List.zipWith_append (by simpa using h), List.reverse_append]

theorem bidx_drop_left {S I : List ℕ} (L : List ℕ) (h : S.length ≤ I.length) :
    bidx S (L ++ I) = bidx S I := by
  simp only [bidx_def, List.reverse_append]
  congr 1
  have h : S.reverse.length ≤ I.reverse.length := by simpa using h
  generalize S.reverse = S' at *
  generalize I.reverse = I' at *
  induction S' generalizing I' with
  | nil => simp
  | cons s S ih =>
    match I', h with
    | i :: I', h => simp [ih I' (by simpa using h)]
    | [], h => simp at h

theorem zipWith_ax_valid {S I : List ℕ} (h : List.Forall₂ (fun s i => i < s) S I) :
    List.zipWith ax S I = I := by
  induction h with
  | nil => rfl
  | cons h _ ih =>
    simp only [List.zipWith_cons_cons, ih]
    unfold ax
    split <;> simp_all

theorem ValidIdx.length {S I : List ℕ} (h : ValidIdx S I) : S.length = I.length :=
  List.Forall₂.length_eq h

theorem bidx_valid {S I : List ℕ} (h : ValidIdx S I) : bidx S I = I := by
  rw [bidx_def, zipWith_ax_valid, List.reverse_reverse]
  exact List.rel_reverse h

theorem ValidIdx.nil : ValidIdx [] [] := List.Forall₂.nil

theorem validIdx_append {S T I J : List ℕ} (h : ValidIdx S I) (h' : ValidIdx T J) :
    ValidIdx (S ++ T) (I ++ J) := List.rel_append h h'

theorem validIdx_append_iff {S T I J : List ℕ} (hl : S.length = I.length) :
    ValidIdx (S ++ T) (I ++ J) ↔ ValidIdx S I ∧ ValidIdx T J := by
  constructor
  · intro h
    induction S generalizing I with
    | nil =>
      have : I = [] := by simpa using hl.symm
      subst this; exact ⟨.nil, by simpa using h⟩
    | cons s S ih =>
      match I, hl with
      | i :: I, hl =>
        simp only [List.cons_append, ValidIdx, List.forall₂_cons] at h
        have := ih (I := I) (by simpa using hl) h.2
        exact ⟨.cons h.1 this.1, this.2⟩
      | [], hl => simp at hl
  · rintro ⟨h, h'⟩; exact validIdx_append h h'

theorem validIdx_split {S T L : List ℕ} (h : ValidIdx (S ++ T) L) :
    ∃ I J, L = I ++ J ∧ ValidIdx S I ∧ ValidIdx T J := by
  refine ⟨L.take S.length, L.drop S.length, (List.take_append_drop _ _).symm, ?_⟩
  have hl := h.length
  simp at hl
  rw [← List.take_append_drop S.length L] at h
  exact (validIdx_append_iff (by simp; omega)).1 h

theorem mem_idx {S I : List ℕ} : I ∈ idx S ↔ ValidIdx S I := by
  induction S generalizing I with
  | nil => simp [idx, ValidIdx]
  | cons s S ih =>
    simp only [idx, List.mem_flatMap, List.mem_range, List.mem_map, ValidIdx]
    constructor
    · rintro ⟨i, hi, J, hJ, rfl⟩
      exact .cons hi (ih.1 hJ)
    · intro h
      cases h with
      | cons h1 h2 => exact ⟨_, h1, _, ih.2 h2, rfl⟩

theorem zipWith_ax_lt {S R I : List ℕ} (h : bleR S R)
    (hI : List.Forall₂ (fun s i => i < s) R I) :
    List.Forall₂ (fun s i => i < s) S (List.zipWith ax S I) := by
  induction S generalizing R I with
  | nil => simp
  | cons s S ih =>
    match R, I, h, hI with
    | r :: R, i :: I, h, .cons h1 h2 =>
      refine .cons ?_ (ih h.2 h2)
      unfold ax
      rcases h.1 with h | h
      · simp [h]
      · split <;> omega
    | [], _, h, _ => exact h.elim

theorem validIdx_bidx {S R I : List ℕ} (h : ble S R) (hI : ValidIdx R I) :
    ValidIdx S (bidx S I) := by
  have := zipWith_ax_lt h (List.rel_reverse hI)
  have := List.rel_reverse this
  rwa [List.reverse_reverse] at this

/-- Every index valid for `S` extends to an index valid for a nonempty broadcast target. -/
theorem idx_sum_append {M : Type} [AddCommMonoid M] (S T : List ℕ) (f : List ℕ → M) :
    ((idx (S ++ T)).map f).sum =
      ((idx S).map fun I => ((idx T).map fun J => f (I ++ J)).sum).sum := by
  induction S generalizing f with
  | nil => simp [idx]
  | cons s S ih =>
    simp only [List.cons_append, idx, List.map_flatMap]
    rw [List.flatMap_def, List.flatMap_def, List.sum_flatten, List.sum_flatten, List.map_map,
      List.map_map]
    congr 1
    apply List.map_congr_left
    intro i _
    simp only [Function.comp, List.map_map]
    exact ih fun I => f (i :: I)

namespace ND
variable {K : Type}

theorem bget_def (a : ND K) (I : List ℕ) : a.bget I = a.get (bidx a.shape I) := rfl

theorem bget_valid (a : ND K) {I : List ℕ} (h : ValidIdx a.shape I) : a.bget I = a.get I := by
  rw [bget_def, bidx_valid h]

@[simp] theorem bget_scalar (c : K) (I : List ℕ) : (scalar c).bget I = c := rfl
@[simp] theorem shape_scalar (c : K) : (scalar c).shape = [] := rfl
@[simp] theorem bget_map (f : K → K) (a : ND K) (I : List ℕ) : (a.map f).bget I = f (a.bget I) :=
  rfl
@[simp] theorem shape_map (f : K → K) (a : ND K) : (a.map f).shape = a.shape := rfl
@[simp] theorem bget_onesLike [One K] (a : ND K) (I : List ℕ) : (a.onesLike).bget I = 1 := rfl
@[simp] theorem shape_onesLike [One K] (a : ND K) : (a.onesLike).shape = a.shape := rfl

theorem bget_bidx (a : ND K) {R I : List ℕ} (h : ble a.shape R) (hl : R.length ≤ I.length) :
    a.bget (bidx R I) = a.bget I := by
  rw [bget_def, bget_def, bidx_bidx h hl]

theorem bget_drop (a : ND K) {I : List ℕ} (L : List ℕ) (h : a.shape.length ≤ I.length) :
    a.bget (L ++ I) = a.bget I := by
  rw [bget_def, bget_def, bidx_drop_left L h]

theorem map2_ok {f : K → K → K} {a b r : ND K} (h : map2 f a b = .ok r) :
    bshape a.shape b.shape = some r.shape ∧
    ∀ I, r.shape.length ≤ I.length → r.bget I = f (a.bget I) (b.bget I) := by
  unfold map2 at h
  split at h
  · cases h
  · rename_i R hR
    cases h
    refine ⟨hR, fun I hI => ?_⟩
    have := bshape_le hR
    show f (a.bget (bidx R I)) (b.bget (bidx R I)) = _
    rw [bget_bidx a this.1 hI, bget_bidx b this.2 hI]

theorem map2_shape {f : K → K → K} {a b r : ND K} (h : map2 f a b = .ok r) :
    ble a.shape r.shape ∧ ble b.shape r.shape := bshape_le (map2_ok h).1

theorem map2_lub (f : K → K → K) {a b : ND K} {R : List ℕ} (h : ble a.shape R)
    (h' : ble b.shape R) : ∃ r, map2 f a b = .ok r ∧ ble r.shape R := by
  obtain ⟨R', h1, h2⟩ := bshape_lub h h'
  unfold map2; rw [h1]; exact ⟨_, rfl, h2⟩

theorem map2_same (f : K → K → K) {a b : ND K} (h : a.shape = b.shape) :
    map2 f a b = .ok ⟨a.shape, fun I => f (a.bget I) (b.bget I)⟩ := by
  unfold map2; rw [← h, bshape_self]

end ND
end AB
