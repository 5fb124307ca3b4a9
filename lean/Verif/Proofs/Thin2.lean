/-
Widths of outer powers and tensor products; families of lists.
-/
import Verif.Proofs.Thin

set_option linter.unusedSectionVars false

namespace AB
variable {K : Type} [Field K] [LinearOrder K] [IsStrictOrderedRing K]
open IA (repS)

theorem okEq {ι α : Type} {f g : ι → α} (h : ∀ i, (.ok (f i) : Py α) = .ok (g i)) : g = f :=
  funext fun i => (Except.ok.inj (h i)).symm

namespace IA
variable {ι : Type} {w : ι → K} {i0 : ι} {A B r : ι → Coef K}

theorem thin_running {d m : ℕ} (hA : Thin w i0 A) (h : ∀ i, runningOuterProduct (A i) d m = .ok (r i)) : Thin w i0 r := by
  induction m generalizing r with
  | zero =>
    rw [okEq h]; exact hA
  | succ m ih =>
    simp only [runningOuterProduct, py_bind_ok] at h
    choose s hs h using h
    exact thin_outerProduct (ih hs) hA h

theorem diag_entry (x : ND K) {i j : ℕ} {n : ℕ} (hx : x.shape = [n]) (hi : i < n) (hj : j < n) :
    x.diag.bget [i, j] = if i = j then x.bget [i] else 0 := by
  have hsd : x.diag.shape = [n, n] := by show x.shape ++ x.shape = _; rw [hx]; rfl
  rw [ND.bget_valid _ (by rw [hsd]; exact .cons hi (.cons hj .nil)),
    ND.bget_valid x (by rw [hx]; exact .cons hi .nil)]
  simp [ND.diag]

theorem thin_diag (hw : ∀ i, 0 ≤ w i) {k : ℤ} (hA : Thin w i0 A) (h : ∀ i, generalizedDiagInterval (A i) k = .ok (r i)) :
    Thin w i0 r := by
  refine ⟨fun i => iso_diag (hA.nest i) (h i) (h i0), fun L hL => ?_⟩
  by_cases hk1 : k = 1
  · subst hk1
    have e : ∀ c : Coef K, generalizedDiagInterval c 1 = .ok c := by
      intro c; cases c <;> rfl
    have : r = A := funext fun i => by have := h i; rw [e] at this; exact (Except.ok.inj this).symm
    subst this
    exact hA.wid L hL
  have key : ∀ i, k = 2 ∧ (A i).shape.length = 1 ∧ (r i).lo = (A i).lo.diag ∧ (r i).hi = (A i).hi.diag ∧
      (r i).shape = (A i).shape ++ (A i).shape := by
    intro i
    have hi := h i
    have nd : ∀ {x y : ND K}, generalizedDiagNdarray x k = .ok y → k = 2 ∧ x.ndim = 1 ∧ y = x.diag := by
      intro x y hy
      unfold generalizedDiagNdarray at hy
      rw [if_neg hk1] at hy
      split_ifs at hy with h1 h2
      cases hy
      exact ⟨h1, h2, rfl⟩
    cases hc : A i with
    | arr a =>
      rw [hc] at hi
      simp only [generalizedDiagInterval, py_bind_ok, py_pure] at hi
      obtain ⟨s, hs, e⟩ := hi
      obtain ⟨h1, h2, rfl⟩ := nd hs
      rw [← e]
      exact ⟨h1, h2, rfl, rfl, rfl⟩
    | ivl a b =>
      rw [hc] at hi
      simp only [generalizedDiagInterval, py_bind_ok, py_pure] at hi
      obtain ⟨s, hs, t, ht, e⟩ := hi
      obtain ⟨h1, h2, rfl⟩ := nd hs
      obtain ⟨-, -, rfl⟩ := nd ht
      rw [← e]
      exact ⟨h1, h2, rfl, rfl, rfl⟩
  obtain ⟨n, hn⟩ := List.length_eq_one_iff.1 (key i0).2.1
  rw [(key i0).2.2.2.2, hn] at hL
  cases hL with
  | @cons _ a _ _ h1 h2 => cases h2 with
    | @cons _ b _ _ h2 h3 =>
      cases h3
      have hs : ∀ i, (A i).lo.shape = [n] ∧ (A i).hi.shape = [n] := fun i =>
        ⟨by rw [Coef.lo_shape, hA.shape, hn], by rw [(hA.nest i).wf'.wf.hi_shape, hA.shape, hn]⟩
      by_cases hab : a = b
      · refine (hA.entry (ble_refl _) (L := [a]) (by rw [hn]; exact .cons h1 .nil)).wid.mono fun i => le_of_eq ?_
        rw [(key i).2.2.1, (key i).2.2.2.1, diag_entry _ (hs i).1 h1 h2, diag_entry _ (hs i).2 h1 h2, if_pos hab, if_pos hab]
      · refine .zero hw fun i => ?_
        rw [(key i).2.2.1, (key i).2.2.2.1, diag_entry _ (hs i).1 h1 h2, diag_entry _ (hs i).2 h1 h2, if_neg hab, if_neg hab]

theorem firstEndpoint_ones (hA : Thin w i0 A) (i : ι) : (firstEndpoint (A i)).onesLike = (firstEndpoint (A i0)).onesLike := by
  have e : ∀ c : Coef K, (firstEndpoint c).onesLike = ⟨c.shape, fun _ => 1⟩ := by
    intro c; cases c <;> rfl
  rw [e, e, hA.shape]

theorem thin_outerPower (hw : ∀ i, 0 ≤ w i) {k d : ℕ} (hA : Thin w i0 A) (h : ∀ i, outerPower (A i) (k : ℤ) d = .ok (r i)) :
    Thin w i0 r := by
  unfold outerPower at h
  simp only [if_neg (by omega : ¬ ((k : ℤ) < 0))] at h
  by_cases hk : (k : ℤ) = 0
  · simp only [if_pos hk] at h
    rw [okEq h]; exact .arr hw _
  simp only [if_neg hk, hA.ndim] at h
  by_cases hn : (A i0).ndim = 0
  · simp only [if_pos hn] at h
    exact thin_power hw hA h
  simp only [if_neg hn, py_bind_ok] at h
  choose rop hrop h using h
  have nR := thin_running hA hrop
  by_cases hd : d = 0
  · have hd' : ¬ d > 0 := by omega
    simp only [firstEndpoint_ones hA] at h
    subst hd
    cases hg : generalizedDiagNdarray (firstEndpoint (A i0)).onesLike (k : ℤ) with
    | error e =>
      simp only [hg] at h
      have : r = rop := funext fun i => by
        have := h i
        cases e <;> simp at this
        exact this.symm
      rw [this]; exact nR
    | ok eye =>
      simp only [hg, ne_eq, not_true_eq_false, if_false, py_bind_ok] at h
      choose pw hpw dg hdg pr hpr hadd using h
      exact thin_add (thin_multiply nR (.arr hw _) hpr) (thin_diag hw (thin_power hw hA hpw) hdg) hadd
  · simp only [ne_eq, hd, not_false_eq_true, if_true] at h
    rw [okEq h]; exact nR

theorem thin_tensordot (hw : ∀ i, 0 ≤ w i) {n : ℕ} (hA : Thin w i0 A) (hB : Thin w i0 B)
    (h : ∀ i, tensordot (A i) (B i) n = .ok (r i)) : Thin w i0 r := by
  obtain ⟨-, t1, t2, t3, r5, -, -⟩ := tensordot_mem (hA.nest i0).wf.wf (hB.nest i0).wf.wf (h i0)
  have hsh : ∀ (x y t : ND K), x.shape = (A i0).shape → y.shape = (B i0).shape →
      ND.tensordot x y n = .ok t → t.shape = (r i0).shape := by
    intro x y t hx hy ht
    have := (ND.tensordot_ok ht).2.2.2.1
    rw [hx, hy, show x.ndim = (A i0).ndim by unfold ND.ndim Coef.ndim; rw [hx]] at this
    rw [this, r5]
  have hval : ∀ L, ValidIdx (r i0).shape L → ∃ L1 L2, L = L1 ++ L2 ∧
      ValidIdx ((A i0).shape.take ((A i0).ndim - n)) L1 ∧ ValidIdx ((B i0).shape.drop n) L2 ∧ ∀ (x y t : ND K),
      x.shape = (A i0).shape → y.shape = (B i0).shape →
      ND.tensordot x y n = .ok t → t.bget L = ((idx ((B i0).shape.take n)).map fun J =>
        x.bget (L1 ++ J) * y.bget (J ++ L2)).sum := by
    intro L hL
    rw [r5] at hL
    obtain ⟨L1, L2, rfl, h1, h2⟩ := validIdx_split hL
    refine ⟨L1, L2, rfl, h1, h2, fun x y t hx hy ht => ?_⟩
    have l1 : (A i0).ndim - n ≤ L1.length := by
      rw [← h1.length, List.length_take]; exact le_min le_rfl (Nat.sub_le _ _)
    have l2 : L2.length = (B i0).ndim - n := by rw [← h2.length, List.length_drop]; rfl
    have := (ND.tensordot_ok ht).2.2.2.2 L1 L2 (by unfold ND.ndim; rw [hx]; exact l1)
      (by unfold ND.ndim; rw [hy]; exact l2)
    rw [hy] at this; exact this
  have pA : ∀ L1 J, ValidIdx ((A i0).shape.take ((A i0).ndim - n)) L1 → J ∈ idx ((B i0).shape.take n) →
      ValidIdx (A i0).shape (L1 ++ J) := by
    intro L1 J h1 hJ
    rw [← List.take_append_drop ((A i0).ndim - n) (A i0).shape, t3]
    exact validIdx_append h1 (mem_idx.1 hJ)
  have pB : ∀ L2 J, ValidIdx ((B i0).shape.drop n) L2 → J ∈ idx ((B i0).shape.take n) →
      ValidIdx (B i0).shape (J ++ L2) := by
    intro L2 J h2 hJ
    rw [← List.take_append_drop n (B i0).shape]
    exact validIdx_append (mem_idx.1 hJ) h2
  by_cases hn : n = 0
  · subst hn
    refine thin_bilinear1 (R := (r i0).shape) hA hB ⟨hsh, fun L hL => ?_⟩ h
    obtain ⟨L1, L2, rfl, h1, h2, hv⟩ := hval L hL
    have q1 := pA L1 [] h1 (by simp [idx])
    have q2 := pB L2 [] h2 (by simp [idx])
    rw [List.append_nil] at q1
    exact ⟨L1, L2, ⟨_, ble_refl _, q1⟩, ⟨_, ble_refl _, q2⟩, fun x y s hx hy hs => by
      have := hv x y s hx hy hs
      simpa [idx] using this⟩
  · have h' : ∀ i, arbitraryBilinear (A i) (B i) (fun x y => ND.tensordot x y n) false = .ok (r i) := by
      intro i
      have := h i
      unfold tensordot at this
      rwa [show (n == 0) = false by simpa using hn] at this
    refine thin_bilinear (R := (r i0).shape) hw hA hB ⟨hsh, fun L hL => ?_⟩ h'
    obtain ⟨L1, L2, rfl, h1, h2, hv⟩ := hval L hL
    refine ⟨(idx ((B i0).shape.take n)).map fun J => (1, L1 ++ J, J ++ L2), ?_, fun x y s hx hy hs => ?_⟩
    · intro t ht
      obtain ⟨J, hJ, rfl⟩ := List.mem_map.1 ht
      exact ⟨zero_le_one, ⟨_, ble_refl _, pA L1 J h1 hJ⟩, ⟨_, ble_refl _, pB L2 J h2 hJ⟩⟩
    · rw [hv x y s hx hy hs, List.map_map]
      simp [Function.comp_def]

end IA

/-! ### families of lists -/

section lists
variable {ι α β : Type}

/-- the lists have the same length, and corresponding entries form families satisfying `P` -/
def FamList (P : (ι → α) → Prop) (E : ι → List α) : Prop :=
  ∃ L : List (ι → α), (∀ x ∈ L, P x) ∧ ∀ i, E i = L.map fun x => x i

theorem FamList.imp {P Q : (ι → α) → Prop} {E : ι → List α} (h : FamList P E) (hi : ∀ x, P x → Q x) : FamList Q E := by
  obtain ⟨L, h1, h2⟩ := h
  exact ⟨L, fun x hx => hi x (h1 x hx), h2⟩

theorem FamList.length {P : (ι → α) → Prop} {E : ι → List α} (h : FamList P E) (i j : ι) : (E i).length = (E j).length := by
  obtain ⟨L, -, h2⟩ := h
  rw [h2, h2, List.length_map, List.length_map]

theorem FamList.nil {P : (ι → α) → Prop} : FamList P (fun _ : ι => []) := ⟨[], by simp, fun _ => rfl⟩

theorem FamList.cons {P : (ι → α) → Prop} {x : ι → α} {E : ι → List α} (hx : P x) (h : FamList P E) :
    FamList P fun i => x i :: E i := by
  obtain ⟨L, h1, h2⟩ := h
  refine ⟨x :: L, ?_, fun i => by beta_reduce; rw [h2 i]; rfl⟩
  intro y hy
  rcases List.mem_cons.1 hy with rfl | hy
  · exact hx
  · exact h1 y hy

theorem FamList.append {P : (ι → α) → Prop} {E F : ι → List α} (h : FamList P E) (h' : FamList P F) :
    FamList P fun i => E i ++ F i := by
  obtain ⟨L, h1, h2⟩ := h
  obtain ⟨M, k1, k2⟩ := h'
  refine ⟨L ++ M, fun x hx => ?_, fun i => by beta_reduce; rw [h2 i, k2 i, List.map_append]⟩
  rcases List.mem_append.1 hx with hx | hx
  · exact h1 x hx
  · exact k1 x hx

theorem FamList.take {P : (ι → α) → Prop} {E : ι → List α} (h : FamList P E) (n : ℕ) : FamList P fun i => (E i).take n := by
  obtain ⟨L, h1, h2⟩ := h
  exact ⟨L.take n, fun x hx => h1 x (List.mem_of_mem_take hx), fun i => by beta_reduce; rw [h2 i, List.map_take]⟩

theorem FamList.drop {P : (ι → α) → Prop} {E : ι → List α} (h : FamList P E) (n : ℕ) : FamList P fun i => (E i).drop n := by
  obtain ⟨L, h1, h2⟩ := h
  exact ⟨L.drop n, fun x hx => h1 x (List.mem_of_mem_drop hx), fun i => by beta_reduce; rw [h2 i, List.map_drop]⟩

theorem FamList.const {P : (ι → α) → Prop} (l : List α) (h : ∀ x ∈ l, P fun _ => x) : FamList P fun _ : ι => l := by
  refine ⟨l.map fun x _ => x, fun x hx => ?_, fun i => by rw [List.map_map]; simp [Function.comp_def]⟩
  obtain ⟨y, hy, rfl⟩ := List.mem_map.1 hx
  exact h y hy

theorem FamList.map {P : (ι → α) → Prop} {Q : (ι → β) → Prop} {E : ι → List α} (h : FamList P E) {f : ι → α → β}
    (hf : ∀ x, P x → Q fun i => f i (x i)) : FamList Q fun i => (E i).map (f i) := by
  obtain ⟨L, h1, h2⟩ := h
  refine ⟨L.map fun x i => f i (x i), fun y hy => ?_, fun i => by beta_reduce; rw [h2 i, List.map_map, List.map_map]; rfl⟩
  obtain ⟨x, hx, rfl⟩ := List.mem_map.1 hy
  exact hf x (h1 x hx)

/-- empty lists, or a head and a tail -/
theorem FamList.cases {P : (ι → α) → Prop} {E : ι → List α} (h : FamList P E) :
    (∀ i, E i = []) ∨ ∃ (x : ι → α) (F : ι → List α), P x ∧ FamList P F ∧ ∀ i, E i = x i :: F i := by
  obtain ⟨L, h1, h2⟩ := h
  cases L with
  | nil => exact .inl fun i => h2 i
  | cons x L => exact .inr ⟨x, fun i => L.map fun y : ι → α => y i, h1 x (by simp),
      ⟨L, fun y hy => h1 y (List.mem_cons_of_mem _ hy), fun _ => rfl⟩, fun i => h2 i⟩

theorem FamList.head {P : (ι → α) → Prop} {x : ι → α} {E : ι → List α} (h : FamList P fun i => x i :: E i) [Nonempty ι] :
    P x ∧ FamList P E := by
  rcases h.cases with h | ⟨y, F, hy, hF, he⟩
  · exact absurd (h (Classical.arbitrary ι)) (by simp)
  · have e1 : x = y := funext fun i => (List.cons.inj (he i)).1
    have e2 : E = F := funext fun i => (List.cons.inj (he i)).2
    rw [e1, e2]; exact ⟨hy, hF⟩

theorem fam_foldlM {P : (ι → α) → Prop} {Q : (ι → β) → Prop} {f : ι → β → α → Py β}
    (hf : ∀ s x t, Q s → P x → (∀ i, f i (s i) (x i) = .ok (t i)) → Q t) {E : ι → List α} (hE : FamList P E)
    {s t : ι → β} (hs : Q s) (h : ∀ i, (E i).foldlM (f i) (s i) = .ok (t i)) : Q t := by
  obtain ⟨L, h1, h2⟩ := hE
  simp only [h2] at h
  clear h2
  induction L generalizing s with
  | nil =>
    rw [okEq h]; exact hs
  | cons x L ih =>
    simp only [List.map_cons, List.foldlM_cons, py_bind_ok] at h
    choose u hu h using h
    exact ih (hf s x u hs (h1 x (by simp)) hu) (fun y hy => h1 y (List.mem_cons_of_mem _ hy)) h

theorem fam_mapM {P : (ι → α) → Prop} {Q : (ι → β) → Prop} {f : ι → α → Py β}
    (hf : ∀ x t, P x → (∀ i, f i (x i) = .ok (t i)) → Q t) {E : ι → List α} (hE : FamList P E)
    {t : ι → List β} (h : ∀ i, (E i).mapM (f i) = .ok (t i)) : FamList Q t := by
  obtain ⟨L, h1, h2⟩ := hE
  simp only [h2] at h
  clear h2
  induction L generalizing t with
  | nil =>
    have : t = fun _ => [] := funext fun i => by
      have := h i
      rw [List.map_nil, List.mapM_nil] at this
      exact (Except.ok.inj this).symm
    rw [this]; exact .nil
  | cons x L ih =>
    simp only [List.map_cons, List.mapM_cons, py_bind_ok] at h
    choose u hu v hv h using h
    have : t = fun i => u i :: v i := funext fun i => (Except.ok.inj (h i)).symm
    rw [this]
    exact .cons (hf x u (h1 x (by simp)) hu) (ih (fun y hy => h1 y (List.mem_cons_of_mem _ hy)) hv)

theorem fam_enum {P : (ι → α) → Prop} {E : ι → List α} (hE : FamList P E) :
    FamList (fun x : ι → ℕ × α => ∃ (n : ℕ) (c : ι → α), P c ∧ x = fun i => (n, c i)) fun i => Poly.enum (E i) := by
  obtain ⟨L, h1, h2⟩ := hE
  refine ⟨(Poly.enum L).map fun p i => (p.1, p.2 i), fun x hx => ?_, fun i => ?_⟩
  · obtain ⟨p, hp, rfl⟩ := List.mem_map.1 hx
    refine ⟨p.1, p.2, h1 p.2 ?_, rfl⟩
    unfold Poly.enum at hp
    exact (List.of_mem_zip hp).2
  · unfold Poly.enum
    beta_reduce; rw [h2 i, List.length_map, List.zip_map_right, List.map_map]
    rfl

theorem fam_pairs {P : (ι → α) → Prop} {Q : (ι → β) → Prop} {E : ι → List α} {F : ι → List β} (hE : FamList P E)
    (hF : FamList Q F) : FamList (fun x : ι → α × β => ∃ a b, P a ∧ Q b ∧ x = fun i => (a i, b i))
      fun i => (E i).flatMap fun x => (F i).map fun y => (x, y) := by
  obtain ⟨L, h1, h2⟩ := hE
  obtain ⟨M, k1, k2⟩ := hF
  refine ⟨L.flatMap fun a => M.map fun b i => (a i, b i), fun x hx => ?_, fun i => ?_⟩
  · obtain ⟨a, ha, hx⟩ := List.mem_flatMap.1 hx
    obtain ⟨b, hb, rfl⟩ := List.mem_map.1 hx
    exact ⟨a, b, h1 a ha, k1 b hb, rfl⟩
  · beta_reduce; rw [h2 i, k2 i, List.map_flatMap, List.flatMap_map]
    simp only [List.map_map]
    rfl

theorem fam_set {P : (ι → α) → Prop} {E : ι → List α} (hE : FamList P E) {x : ι → α} (hx : P x) (n : ℕ) :
    FamList P fun i => (E i).set n (x i) := by
  obtain ⟨L, h1, h2⟩ := hE
  refine ⟨L.set n x, fun y hy => ?_, fun i => by beta_reduce; rw [h2 i, List.map_set]⟩
  rcases List.mem_or_eq_of_mem_set hy with h | h
  · exact h1 y h
  · rw [h]; exact hx

theorem fam_getElem? {P : (ι → α) → Prop} {E : ι → List α} (hE : FamList P E) (n : ℕ) :
    (∀ i, (E i)[n]? = none) ∨ ∃ x, P x ∧ ∀ i, (E i)[n]? = some (x i) := by
  obtain ⟨L, h1, h2⟩ := hE
  cases h : L[n]? with
  | none => exact .inl fun i => by rw [h2 i, List.getElem?_map, h]; rfl
  | some x => exact .inr ⟨x, h1 x (List.mem_of_getElem? h), fun i => by rw [h2 i, List.getElem?_map, h]; rfl⟩

theorem fam_zip {P : (ι → α) → Prop} {E : ι → List α} (hE : FamList P E) (q : List β) :
    FamList (fun x : ι → α × β => ∃ (c : ι → α) (m : β), P c ∧ x = fun i => (c i, m)) fun i => (E i).zip q := by
  obtain ⟨L, h1, h2⟩ := hE
  refine ⟨(L.zip q).map fun p i => (p.1 i, p.2), fun x hx => ?_, fun i => ?_⟩
  · obtain ⟨p, hp, rfl⟩ := List.mem_map.1 hx
    exact ⟨p.1, p.2, h1 p.1 (List.of_mem_zip hp).1, rfl⟩
  · beta_reduce; rw [h2 i, List.zip_map_left, List.map_map]
    rfl

end lists
end AB
