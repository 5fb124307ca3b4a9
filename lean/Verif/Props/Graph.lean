/-
C36, C37, C39: matching and termination of the graph editor (/repo/autobound/graph_editor.py).
-/
import Verif.Spec.Program
import Mathlib.Tactic.Common
import Mathlib.Data.List.Forall2
import Mathlib.Order.Lattice

set_option linter.unusedSectionVars false

namespace AB
namespace GE
variable {V D : Type} [DecidableEq V] {deq : D → D → Bool} {cb : V → V → Bool}

theorem bind_sound {l : List (V × V)} {m m' : VMap V} (h : l.foldlM (bindVar cb) m = some m') :
    (∀ u w, m u = some w → m' u = some w) ∧ (∀ p ∈ l, m' p.1 = some p.2) ∧
    (∀ u w, m' u = some w → m u = some w ∨ ((u, w) ∈ l ∧ cb u w = true)) := by
  induction l generalizing m with
  | nil => cases h; exact ⟨fun _ _ h => h, by simp, fun _ _ h => Or.inl h⟩
  | cons p l ih =>
    rw [List.foldlM_cons] at h
    obtain ⟨m1, h1, h⟩ := Option.bind_eq_some_iff.1 h
    obtain ⟨i1, i2, i3⟩ := ih h
    unfold bindVar at h1
    split at h1
    · rename_i w hw
      split_ifs at h1 with hne
      cases h1
      refine ⟨i1, ?_, fun u w hu => (i3 u w hu).imp id fun h => ⟨by simp [h.1], h.2⟩⟩
      intro q hq
      rcases List.mem_cons.1 hq with rfl | hq
      · rw [i1 _ _ hw, not_not.1 hne]
      · exact i2 q hq
    · rename_i hw
      split_ifs at h1 with hcb
      cases h1
      refine ⟨fun u w hu => i1 u w ?_, ?_, fun u w hu => ?_⟩
      · unfold VMap.set
        rw [if_neg]
        · exact hu
        · rintro rfl; rw [hw] at hu; cases hu
      · intro q hq
        rcases List.mem_cons.1 hq with rfl | hq
        · exact i1 _ _ (by simp [VMap.set])
        · exact i2 q hq
      · rcases i3 u w hu with h | h
        · unfold VMap.set at h
          split_ifs at h with he
          · cases h; subst he; right; exact ⟨by simp, hcb⟩
          · exact Or.inl h
        · exact Or.inr ⟨by simp [h.1], h.2⟩

theorem bind_complete {f : V → V} {l : List (V × V)} {m : VMap V} (hm : ∀ u w, m u = some w → w = f u)
    (hl : ∀ p ∈ l, p.2 = f p.1 ∧ cb p.1 p.2 = true) :
    ∃ m', l.foldlM (bindVar cb) m = some m' ∧ ∀ u w, m' u = some w → w = f u := by
  induction l generalizing m with
  | nil => exact ⟨m, rfl, hm⟩
  | cons p l ih =>
    obtain ⟨h1, h2⟩ := hl p (by simp)
    have : ∃ m1, bindVar cb m p = some m1 ∧ ∀ u w, m1 u = some w → w = f u := by
      unfold bindVar
      split
      · rename_i w hw
        rw [if_neg (by rw [hm _ _ hw, h1]; simp)]
        exact ⟨m, rfl, hm⟩
      · rw [if_pos h2]
        refine ⟨_, rfl, fun u w hu => ?_⟩
        unfold VMap.set at hu
        split_ifs at hu with he
        · cases hu; subst he; exact h1
        · exact hm u w hu
    obtain ⟨m1, e1, e2⟩ := this
    obtain ⟨m', e3, e4⟩ := ih e2 fun p hp => hl p (by simp [hp])
    exact ⟨m', by rw [List.foldlM_cons, e1]; exact e3, e4⟩

theorem zip_app {m : VMap V} {as bs : List V} (hl : as.length = bs.length)
    (h : ∀ p ∈ as.zip bs, m p.1 = some p.2) : as.map m.app = bs := by
  induction as generalizing bs with
  | nil => cases bs <;> simp_all
  | cons a as ih =>
    cases bs with
    | nil => simp at hl
    | cons b bs =>
      simp only [List.map_cons, List.cons.injEq]
      refine ⟨?_, ih (by simpa using hl) fun p hp => h p (by simp [hp])⟩
      have := h (a, b) (by simp)
      simp only [VMap.app, this, Option.getD_some]

theorem mem_zip_of_mem {as bs : List V} (hl : as.length = bs.length) {a : V} (ha : a ∈ as) :
    ∃ b, (a, b) ∈ as.zip bs := by
  induction as generalizing bs with
  | nil => cases ha
  | cons a' as ih =>
    cases bs with
    | nil => simp at hl
    | cons b bs =>
      rcases List.mem_cons.1 ha with rfl | ha
      · exact ⟨b, by simp⟩
      · obtain ⟨b', hb'⟩ := ih (by simpa using hl) ha
        exact ⟨b', by simp [hb']⟩

theorem map_zip {f : V → V} {as bs : List V} (h : as.map f = bs) : ∀ p ∈ as.zip bs, p.2 = f p.1 := by
  subst h
  induction as with
  | nil => simp
  | cons a as ih =>
    intro p hp
    rcases List.mem_cons.1 (by simpa using hp : p ∈ (a, f a) :: as.zip (as.map f)) with rfl | hp
    · rfl
    · exact ih p hp

theorem matchOp_sound {m m' : VMap V} {ps : Op V D × Op V D} (h : matchOp deq cb m ps = some m') :
    (∀ u w, m u = some w → m' u = some w) ∧
    (deq ps.1.data ps.2.data = true ∧ ps.1.inputs.map m'.app = ps.2.inputs ∧
      ps.1.outputs.map m'.app = ps.2.outputs) ∧
    (∀ u, u ∈ ps.1.inputs ∨ u ∈ ps.1.outputs → ∃ w, m' u = some w) ∧
    (∀ u w, m' u = some w → m u = some w ∨ ((u ∈ ps.1.inputs ∨ u ∈ ps.1.outputs) ∧ cb u w = true)) := by
  unfold matchOp at h
  split_ifs at h with h1 h2
  push Not at h1
  obtain ⟨i1, i2, i3⟩ := bind_sound h
  refine ⟨i1, ⟨by simpa using h2, zip_app h1.1 fun p hp => i2 p (by simp [hp]),
    zip_app h1.2 fun p hp => i2 p (by simp [hp])⟩, ?_, ?_⟩
  · rintro u (hu | hu)
    · obtain ⟨b, hb⟩ := mem_zip_of_mem h1.1 hu
      exact ⟨b, i2 (u, b) (by simp [hb])⟩
    · obtain ⟨b, hb⟩ := mem_zip_of_mem h1.2 hu
      exact ⟨b, i2 (u, b) (by simp [hb])⟩
  · intro u w hu
    refine (i3 u w hu).imp id fun h => ⟨?_, h.2⟩
    rcases List.mem_append.1 h.1 with h | h
    · exact Or.inl (List.of_mem_zip h).1
    · exact Or.inr (List.of_mem_zip h).1

theorem app_of_some {m : VMap V} {u w : V} (h : m u = some w) : m.app u = w := by
  simp [VMap.app, h]

theorem fold_sound {P S : List (Op V D)} (hl : P.length = S.length) {m m' : VMap V}
    (h : (P.zip S).foldlM (matchOp deq cb) m = some m') :
    (∀ u w, m u = some w → m' u = some w) ∧
    List.Forall₂ (fun p s => deq p.data s.data = true ∧ p.inputs.map m'.app = s.inputs ∧
      p.outputs.map m'.app = s.outputs) P S ∧
    (∀ p ∈ P, ∀ u, u ∈ p.inputs ∨ u ∈ p.outputs → ∃ w, m' u = some w) ∧
    (∀ u w, m' u = some w → m u = some w ∨
      ((∃ p ∈ P, u ∈ p.inputs ∨ u ∈ p.outputs) ∧ cb u w = true)) := by
  induction P generalizing S m with
  | nil =>
    cases S with
    | nil => cases h; exact ⟨fun _ _ h => h, .nil, by simp, fun _ _ h => Or.inl h⟩
    | cons => simp at hl
  | cons p P ih =>
    cases S with
    | nil => simp at hl
    | cons s S =>
      rw [List.zip_cons_cons, List.foldlM_cons] at h
      obtain ⟨m1, h1, h⟩ := Option.bind_eq_some_iff.1 h
      obtain ⟨a1, ⟨a2, a3, a4⟩, a5, a6⟩ := matchOp_sound h1
      obtain ⟨b1, b2, b3, b4⟩ := ih (by simpa using hl) h
      have ext : ∀ u, u ∈ p.inputs ∨ u ∈ p.outputs → m'.app u = m1.app u := by
        intro u hu
        obtain ⟨w, hw⟩ := a5 u hu
        rw [app_of_some hw, app_of_some (b1 u w hw)]
      refine ⟨fun u w hu => b1 u w (a1 u w hu), .cons ⟨a2, ?_, ?_⟩ b2, ?_, ?_⟩
      · rw [← a3]; exact List.map_congr_left fun u hu => ext u (Or.inl hu)
      · rw [← a4]; exact List.map_congr_left fun u hu => ext u (Or.inr hu)
      · intro q hq u hu
        rcases List.mem_cons.1 hq with rfl | hq
        · obtain ⟨w, hw⟩ := a5 u hu
          exact ⟨w, b1 u w hw⟩
        · exact b3 q hq u hu
      · intro u w hu
        rcases b4 u w hu with h | ⟨⟨q, hq, h⟩, hc⟩
        · rcases a6 u w h with h | ⟨h, hc⟩
          · exact Or.inl h
          · exact Or.inr ⟨⟨p, by simp, h⟩, hc⟩
        · exact Or.inr ⟨⟨q, by simp [hq], h⟩, hc⟩

/-- **C36.** If `match` returns the dict `m` then substituting `m` in the pattern gives the subject (same
operations with `==` data), `m` binds exactly the variables of the pattern, and every binding was allowed
by `can_bind`. -/
theorem C36_match_sound {P S : List (Op V D)} {m : VMap V} (h : matchOps deq cb P S = some m) :
    IsMatch deq cb P S m.app ∧
    List.Forall₂ (fun e s => deq e.data s.data = true ∧ e.inputs = s.inputs ∧ e.outputs = s.outputs)
      (P.map (·.subs m)) S ∧
    (∀ u, (m u).isSome = true ↔ ∃ p ∈ P, u ∈ p.inputs ∨ u ∈ p.outputs) := by
  unfold matchOps at h
  split_ifs at h with hl
  obtain ⟨-, h2, h3, h4⟩ := fold_sound (not_not.1 hl) h
  refine ⟨⟨h2, fun p hp u hu => ?_⟩, ?_, fun u => ⟨fun hu => ?_, fun ⟨p, hp, hu⟩ => ?_⟩⟩
  · obtain ⟨w, hw⟩ := h3 p hp u hu
    rcases h4 u w hw with h | h
    · cases h
    · rw [app_of_some hw]; exact h.2
  · rw [List.forall₂_map_left_iff]
    exact h2
  · obtain ⟨w, hw⟩ := Option.isSome_iff_exists.1 hu
    rcases h4 u w hw with h | h
    · cases h
    · exact h.1
  · obtain ⟨w, hw⟩ := h3 p hp u hu
    rw [hw]; rfl

theorem matchOp_complete {f : V → V} {m : VMap V} {p s : Op V D} (hm : ∀ u w, m u = some w → w = f u)
    (h1 : deq p.data s.data = true) (h2 : p.inputs.map f = s.inputs) (h3 : p.outputs.map f = s.outputs)
    (h4 : ∀ u, u ∈ p.inputs ∨ u ∈ p.outputs → cb u (f u) = true) :
    ∃ m', matchOp deq cb m (p, s) = some m' ∧ ∀ u w, m' u = some w → w = f u := by
  have l1 : p.inputs.length = s.inputs.length := by rw [← h2, List.length_map]
  have l2 : p.outputs.length = s.outputs.length := by rw [← h3, List.length_map]
  unfold matchOp
  simp only
  rw [if_neg (by simp [l1, l2]), if_neg (by simp [h1])]
  refine bind_complete hm fun q hq => ?_
  rcases List.mem_append.1 hq with h | h
  · have e := map_zip h2 q h
    exact ⟨e, by rw [e]; exact h4 _ (Or.inl (List.of_mem_zip h).1)⟩
  · have e := map_zip h3 q h
    exact ⟨e, by rw [e]; exact h4 _ (Or.inr (List.of_mem_zip h).1)⟩

/-- **C37 (complete, canonical).** If some mapping `f` turns the pattern into the subject with allowed
bindings, then `match` returns a dict, and it is `f` on every variable of the pattern. -/
theorem C37_match_complete {P S : List (Op V D)} {f : V → V} (h : IsMatch deq cb P S f) :
    ∃ m, matchOps deq cb P S = some m ∧
      ∀ p ∈ P, ∀ u, u ∈ p.inputs ∨ u ∈ p.outputs → m u = some (f u) := by
  have hl := h.same.length_eq
  have key : ∀ (P S : List (Op V D)) (m : VMap V), (∀ u w, m u = some w → w = f u) →
      List.Forall₂ (fun p s => deq p.data s.data = true ∧ p.inputs.map f = s.inputs ∧
        p.outputs.map f = s.outputs) P S →
      (∀ p ∈ P, ∀ u, u ∈ p.inputs ∨ u ∈ p.outputs → cb u (f u) = true) →
      ∃ m', (P.zip S).foldlM (matchOp deq cb) m = some m' ∧ ∀ u w, m' u = some w → w = f u := by
    intro P S m hm hf
    induction hf generalizing m with
    | nil => exact fun _ => ⟨m, rfl, hm⟩
    | cons hps _ ih =>
      intro hb
      obtain ⟨m1, e1, e2⟩ := matchOp_complete hm hps.1 hps.2.1 hps.2.2 (hb _ (by simp))
      obtain ⟨m', e3, e4⟩ := ih m1 e2 fun p hp => hb p (by simp [hp])
      exact ⟨m', by rw [List.zip_cons_cons, List.foldlM_cons, e1]; exact e3, e4⟩
  obtain ⟨m, e1, e2⟩ := key P S (fun _ => none) (by simp) h.same h.binds
  have e0 : matchOps deq cb P S = some m := by
    unfold matchOps
    rw [if_neg (by simp [hl])]
    exact e1
  refine ⟨m, e0, fun p hp u hu => ?_⟩
  obtain ⟨w, hw⟩ := Option.isSome_iff_exists.1 (((C36_match_sound e0).2.2 u).2 ⟨p, hp, hu⟩)
  rw [hw, e2 u w hw]

/-- **C37 (rejection).** `match` returns `None` exactly when no mapping works. -/
theorem C37_match_none {P S : List (Op V D)} :
    matchOps deq cb P S = none ↔ ¬ ∃ f, IsMatch deq cb P S f := by
  constructor
  · rintro h ⟨f, hf⟩
    obtain ⟨m, hm, -⟩ := C37_match_complete hf
    rw [h] at hm; cases hm
  · intro h
    cases hm : matchOps deq cb P S with
    | none => rfl
    | some m => exact absurd ⟨_, (C36_match_sound hm).1⟩ h

/-- C36, C37 apply e.g. to a two-operation pattern with a repeated variable. -/
example : ∃ m, matchOps (fun a b : String => a == b) (fun _ _ => true)
    [⟨"add", [0, 0], [1]⟩, ⟨"mul", [1, 0], [2]⟩] [⟨"add", [7, 7], [4]⟩, ⟨"mul", [4, 7], [9]⟩] = some m ∧
    m 0 = some 7 ∧ m 1 = some 4 ∧ m 2 = some 9 ∧ m 3 = none := ⟨_, rfl, rfl, rfl, rfl, rfl⟩

/-- and a subject that disagrees on the repeated variable is rejected -/
example : matchOps (fun a b : String => a == b) (fun _ _ => true)
    [⟨"add", [0, 0], [1]⟩] [⟨"add", [7, 8], [4]⟩] = none := rfl

/-! ### C39 -/

theorem loop_total {P R ops : List (Op V D)} (hP : P ≠ []) (n : ℕ) : ∀ (fuel i : ℕ) (out : List (Op V D)),
    ops.length ≤ i + n → n < fuel → ∃ r, replaceLoop deq cb P R ops fuel i out = some r := by
  have hk : 0 < P.length := List.length_pos_iff.2 hP
  induction n with
  | zero =>
    intro fuel i out hi hf
    obtain ⟨fuel, rfl⟩ := Nat.exists_eq_succ_of_ne_zero (by omega : fuel ≠ 0)
    unfold replaceLoop
    rw [dif_neg (by omega)]
    exact ⟨_, rfl⟩
  | succ n ih =>
    intro fuel i out hi hf
    obtain ⟨fuel, rfl⟩ := Nat.exists_eq_succ_of_ne_zero (by omega : fuel ≠ 0)
    unfold replaceLoop
    split_ifs with h
    · cases matchOps deq cb P ((ops.drop i).take P.length) with
      | some m => exact ih _ _ _ (by omega) (by omega)
      | none => exact ih _ _ _ (by omega) (by omega)
    · exact ⟨_, rfl⟩

/-- **C39 (termination).** With a non-empty pattern `replace` returns, and the loop condition is evaluated
at most `len(operations) + 1` times. -/
theorem C39_terminates {G : Type} {P R : List (Op V D)} (hP : P ≠ []) (g : Graph V D G) :
    ∃ r, replace deq cb P R g (g.operations.length + 1) = some r := by
  obtain ⟨r, hr⟩ := loop_total (deq := deq) (cb := cb) (R := R) (ops := g.operations) hP g.operations.length
    (g.operations.length + 1) 0 [] (by omega) (by omega)
  exact ⟨_, by unfold replace; rw [hr]; rfl⟩

theorem loop_mono {P R ops : List (Op V D)} : ∀ (fuel fuel' i : ℕ) (out r : List (Op V D)), fuel ≤ fuel' →
    replaceLoop deq cb P R ops fuel i out = some r → replaceLoop deq cb P R ops fuel' i out = some r := by
  intro fuel
  induction fuel with
  | zero => intro _ _ _ _ _ h; cases h
  | succ fuel ih =>
    intro fuel' i out r hf h
    obtain ⟨fuel', rfl⟩ := Nat.exists_eq_succ_of_ne_zero (by omega : fuel' ≠ 0)
    unfold replaceLoop at h ⊢
    split_ifs at h ⊢ with hi
    · cases hm : matchOps deq cb P ((ops.drop i).take P.length) with
      | some m => rw [hm] at h; exact ih _ _ _ _ (by omega) h
      | none => rw [hm] at h; exact ih _ _ _ _ (by omega) h
    · exact h

/-- **C39 (determinism).** The result does not depend on how long one is willing to wait. -/
theorem C39_result_unique {G : Type} {P R : List (Op V D)} {g r r' : Graph V D G} {n n' : ℕ}
    (h : replace deq cb P R g n = some r) (h' : replace deq cb P R g n' = some r') : r = r' := by
  unfold replace at h h'
  obtain ⟨o, ho, rfl⟩ := Option.map_eq_some_iff.1 h
  obtain ⟨o', ho', rfl⟩ := Option.map_eq_some_iff.1 h'
  have h1 := loop_mono n (max n n') _ _ _ (Nat.le_max_left _ _) ho
  have h2 := loop_mono n' (max n n') _ _ _ (Nat.le_max_right _ _) ho'
  rw [h1] at h2
  cases h2; rfl

/-- **C39 (divergence).** With the empty pattern `replace` returns if and only if the graph has no
operations; otherwise the loop never ends, however long one waits. -/
theorem C39_empty_pattern {G : Type} (R : List (Op V D)) (g : Graph V D G) :
    (∃ n r, replace deq cb [] R g n = some r) ↔ g.operations = [] := by
  constructor
  · rintro ⟨n, r, h⟩
    by_contra hne
    have : ∀ (n : ℕ) (out : List (Op V D)), replaceLoop deq cb [] R g.operations n 0 out = none := by
      intro n
      induction n with
      | zero => intro out; rfl
      | succ n ih =>
        intro out
        unfold replaceLoop
        rw [dif_pos (List.length_pos_iff.2 hne)]
        exact ih _
    unfold replace at h
    rw [this] at h
    cases h
  · intro h
    exact ⟨1, ⟨g.inputs, g.outputs, [], g.data⟩, by unfold replace replaceLoop; simp [h]⟩

end GE
end AB
