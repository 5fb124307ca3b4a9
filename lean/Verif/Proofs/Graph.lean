/- Execution of operation sequences: framing, agreement, renaming. -/
import Verif.Props.Graph

set_option linter.unusedSectionVars false

namespace AB
namespace GE
variable {V D α : Type} [DecidableEq V] {𝓘 : Interp V D α}

theorem assign_frame {e e' : Env V α} {vs : List V} {xs : List α} (h : assign e vs xs = some e') {v : V}
    (hv : v ∉ vs) : e' v = e v := by
  induction vs generalizing e xs with
  | nil => cases xs <;> simp [assign] at h; rw [h]
  | cons w vs ih =>
    cases xs with
    | nil => simp [assign] at h
    | cons x xs =>
      simp only [assign] at h
      rw [ih h (by simp_all), if_neg]
      rintro rfl; simp at hv

theorem look_congr {e e' : Env V α} {v : V} (h : e v = e' v) : 𝓘.look e v = 𝓘.look e' v := by
  unfold Interp.look; rw [h]

theorem step_inv {e e' : Env V α} {o : Op V D} (h : 𝓘.step e o = some e') :
    ∃ xs ys, o.inputs.mapM (𝓘.look e) = some xs ∧ 𝓘.interp o.data xs = some ys ∧
      assign e o.outputs ys = some e' := by
  unfold Interp.step at h
  obtain ⟨xs, h1, h⟩ := Option.bind_eq_some_iff.1 h
  obtain ⟨ys, h2, h⟩ := Option.bind_eq_some_iff.1 h
  exact ⟨xs, ys, h1, h2, h⟩

theorem step_of {e e' : Env V α} {o : Op V D} {xs ys : List α} (h1 : o.inputs.mapM (𝓘.look e) = some xs)
    (h2 : 𝓘.interp o.data xs = some ys) (h3 : assign e o.outputs ys = some e') :
    𝓘.step e o = some e' := by
  unfold Interp.step
  rw [h1]; show (𝓘.interp o.data xs).bind _ = _
  rw [h2]; exact h3

theorem run_frame {ops : List (Op V D)} {e e' : Env V α} (h : 𝓘.run ops e = some e') {v : V}
    (hv : ¬ writesOf ops v) : e' v = e v := by
  induction ops generalizing e with
  | nil => cases h; rfl
  | cons o ops ih =>
    unfold Interp.run at h
    rw [List.foldlM_cons] at h
    obtain ⟨e1, h1, h⟩ := Option.bind_eq_some_iff.1 h
    obtain ⟨xs, ys, -, -, h3⟩ := step_inv h1
    rw [ih h fun ⟨o', ho', h'⟩ => hv ⟨o', by simp [ho'], h'⟩]
    exact assign_frame h3 fun h' => hv ⟨o, by simp, h'⟩

theorem run_cons {o : Op V D} {ops : List (Op V D)} {e : Env V α} :
    𝓘.run (o :: ops) e = (𝓘.step e o).bind (𝓘.run ops) := by
  unfold Interp.run; rw [List.foldlM_cons]; rfl

theorem run_append {A B : List (Op V D)} {e : Env V α} :
    𝓘.run (A ++ B) e = (𝓘.run A e).bind (𝓘.run B) := by
  unfold Interp.run; rw [List.foldlM_append]; rfl

/-- `e` and `e'` give the same values to the vertices in `L` -/
def Agree (𝓘 : Interp V D α) (L : V → Prop) (e e' : Env V α) : Prop :=
  ∀ v, L v → 𝓘.look e v = 𝓘.look e' v

theorem mapM_congr {β : Type} {l : List β} {f g : β → Option α} (h : ∀ x ∈ l, f x = g x) :
    l.mapM f = l.mapM g := by
  induction l with
  | nil => rfl
  | cons x l ih =>
    rw [List.mapM_cons, List.mapM_cons, h x (by simp), ih fun y hy => h y (by simp [hy])]

theorem assign_agree {L : V → Prop} {e1 e2 e1' : Env V α} {vs : List V} {xs : List α}
    (ha : Agree 𝓘 L e1 e2) (h : assign e1 vs xs = some e1') :
    ∃ e2', assign e2 vs xs = some e2' ∧ Agree 𝓘 (fun v => L v ∨ v ∈ vs) e1' e2' := by
  induction vs generalizing e1 e2 xs L with
  | nil =>
    cases xs <;> simp [assign] at h
    subst h
    exact ⟨e2, rfl, fun v hv => ha v (by simpa using hv)⟩
  | cons w vs ih =>
    cases xs with
    | nil => simp [assign] at h
    | cons x xs =>
      simp only [assign] at h ⊢
      obtain ⟨e2', h1, h2⟩ := ih (L := fun v => L v ∨ v = w) (e2 := fun y => if y = w then some x else e2 y)
        (by
          rintro v (hv | rfl)
          · by_cases hvw : v = w
            · exact look_congr (by simp [hvw])
            · have := ha v hv
              unfold Interp.look at this ⊢
              simpa [hvw] using this
          · exact look_congr (by simp)) h
      refine ⟨e2', h1, fun v hv => h2 v ?_⟩
      rcases hv with hv | hv
      · exact Or.inl (Or.inl hv)
      · rcases List.mem_cons.1 hv with rfl | hv
        · exact Or.inl (Or.inr rfl)
        · exact Or.inr hv

theorem run_agree {ops : List (Op V D)} {L : V → Prop} {e1 e2 e1' : Env V α} (ha : Agree 𝓘 L e1 e2)
    (hL : ∀ v, readsOf ops v → L v) (h : 𝓘.run ops e1 = some e1') :
    ∃ e2', 𝓘.run ops e2 = some e2' ∧ Agree 𝓘 (fun v => L v ∨ writesOf ops v) e1' e2' := by
  induction ops generalizing e1 e2 L with
  | nil =>
    cases h
    exact ⟨e2, rfl, fun v hv => ha v (by simpa [writesOf] using hv)⟩
  | cons o ops ih =>
    rw [run_cons] at h
    obtain ⟨e1a, h1, h⟩ := Option.bind_eq_some_iff.1 h
    obtain ⟨xs, ys, a1, a2, a3⟩ := step_inv h1
    obtain ⟨e2a, b1, b2⟩ := assign_agree ha a3
    obtain ⟨e2', c1, c2⟩ := ih b2 (fun v ⟨o', ho', h'⟩ => Or.inl (hL v ⟨o', by simp [ho'], h'⟩)) h
    have : 𝓘.step e2 o = some e2a := step_of (by
      rw [← a1]; exact mapM_congr fun v hv => (ha v (hL v ⟨o, by simp, hv⟩)).symm) a2 b1
    refine ⟨e2', by rw [run_cons, this]; exact c1, fun v hv => c2 v ?_⟩
    rcases hv with hv | ⟨o', ho', h'⟩
    · exact Or.inl (Or.inl hv)
    · rcases List.mem_cons.1 ho' with rfl | ho'
      · exact Or.inl (Or.inr h')
      · exact Or.inr ⟨o', ho', h'⟩

/-- two environments related by a renaming of the variables in `S` -/
def RelBy (𝓘 : Interp V D α) (S : V → Prop) (ρ : V → V) (ε e : Env V α) : Prop :=
  ∀ u, S u → 𝓘.look ε u = 𝓘.look e (ρ u)

theorem assign_isSome (e e' : Env V α) (vs ws : List V) (hl : vs.length = ws.length) (xs : List α) :
    (assign e vs xs).isSome = (assign e' ws xs).isSome := by
  induction vs generalizing e e' ws xs with
  | nil => cases ws <;> cases xs <;> simp_all [assign]
  | cons v vs ih =>
    cases ws with
    | nil => simp at hl
    | cons w ws =>
      cases xs with
      | nil => rfl
      | cons x xs => exact ih _ _ ws (by simpa using hl) xs

theorem assign_rel {S : V → Prop} {ρ : V → V} {ε e ε' e' : Env V α} {vs : List V} {xs : List α}
    (hr : RelBy 𝓘 S ρ ε e) (hlit : ∀ u, S u → 𝓘.lit (ρ u) = 𝓘.lit u)
    (hinj : ∀ u ∈ vs, ∀ u', S u' → ρ u' = ρ u → u' = u)
    (h : assign ε vs xs = some ε') (h' : assign e (vs.map ρ) xs = some e') : RelBy 𝓘 S ρ ε' e' := by
  induction vs generalizing ε e xs with
  | nil =>
    cases xs <;> simp [assign] at h h'
    subst h h'; exact hr
  | cons w vs ih =>
    cases xs with
    | nil => simp [assign] at h
    | cons x xs =>
      simp only [assign, List.map_cons] at h h'
      refine ih ?_ (fun u hu => hinj u (by simp [hu])) h h'
      intro u hu
      by_cases huw : u = w
      · subst huw
        unfold Interp.look
        rw [hlit u hu]; simp
      · have : ρ u ≠ ρ w := fun he => huw (hinj w (by simp) u hu he)
        have hh := hr u hu
        unfold Interp.look at hh ⊢
        simpa [huw, this] using hh

/-- executing a renamed sequence: both executions succeed or both fail, with related results -/
theorem run_rename {S : V → Prop} {ρ : V → V} {P Q : List (Op V D)}
    (hPQ : List.Forall₂ (fun p q => 𝓘.interp p.data = 𝓘.interp q.data ∧ p.inputs.map ρ = q.inputs ∧
      p.outputs.map ρ = q.outputs) P Q)
    (hlit : ∀ u, S u → 𝓘.lit (ρ u) = 𝓘.lit u) (hS : ∀ u, readsOf P u ∨ writesOf P u → S u)
    (hinj : ∀ u, writesOf P u → ∀ u', S u' → ρ u' = ρ u → u' = u) {ε e : Env V α}
    (hr : RelBy 𝓘 S ρ ε e) :
    (∀ ε', 𝓘.run P ε = some ε' → ∃ e', 𝓘.run Q e = some e' ∧ RelBy 𝓘 S ρ ε' e') ∧
    (∀ e', 𝓘.run Q e = some e' → ∃ ε', 𝓘.run P ε = some ε' ∧ RelBy 𝓘 S ρ ε' e') := by
  induction hPQ generalizing ε e with
  | nil =>
    exact ⟨fun ε' h => by cases h; exact ⟨e, rfl, hr⟩, fun e' h => by cases h; exact ⟨ε, rfl, hr⟩⟩
  | @cons p q P Q hpq _ ih =>
    obtain ⟨d, hi, ho⟩ := hpq
    have ih := fun {ε e : Env V α} => @ih (fun u hu => hS u (hu.imp
      (fun ⟨o, ho, h⟩ => ⟨o, by simp [ho], h⟩) (fun ⟨o, ho, h⟩ => ⟨o, by simp [ho], h⟩)))
      (fun u ⟨o, ho, h⟩ => hinj u ⟨o, by simp [ho], h⟩) ε e
    have hin : p.inputs.mapM (𝓘.look ε) = q.inputs.mapM (𝓘.look e) := by
      have hS' : ∀ u ∈ p.inputs, S u := fun u hu => hS u (Or.inl ⟨p, by simp, hu⟩)
      rw [← hi]
      clear hi
      generalize p.inputs = l at hS'
      induction l with
      | nil => rfl
      | cons v vs ih' =>
        rw [List.map_cons, List.mapM_cons, List.mapM_cons, hr v (hS' v (by simp)),
          ih' fun u hu => hS' u (by simp [hu])]
    have hl : p.outputs.length = q.outputs.length := by rw [← ho, List.length_map]
    have hw : ∀ u ∈ p.outputs, ∀ u', S u' → ρ u' = ρ u → u' = u := fun u hu =>
      hinj u ⟨p, by simp, hu⟩
    constructor
    · intro ε' h
      rw [run_cons] at h
      obtain ⟨ε1, h1, h⟩ := Option.bind_eq_some_iff.1 h
      obtain ⟨xs, ys, a1, a2, a3⟩ := step_inv h1
      obtain ⟨e1, b1⟩ := Option.isSome_iff_exists.1 (by
        rw [← assign_isSome ε e p.outputs q.outputs hl ys, a3]; rfl :
          (assign e q.outputs ys).isSome = true)
      have hr1 := assign_rel hr hlit hw a3 (by rw [ho]; exact b1)
      obtain ⟨e', c1, c2⟩ := (ih hr1).1 ε' h
      refine ⟨e', ?_, c2⟩
      rw [run_cons, step_of (hin ▸ a1) (d ▸ a2) b1]
      exact c1
    · intro e' h
      rw [run_cons] at h
      obtain ⟨e1, h1, h⟩ := Option.bind_eq_some_iff.1 h
      obtain ⟨xs, ys, a1, a2, a3⟩ := step_inv h1
      obtain ⟨ε1, b1⟩ := Option.isSome_iff_exists.1 (by
        rw [assign_isSome ε e p.outputs q.outputs hl ys, a3]; rfl :
          (assign ε p.outputs ys).isSome = true)
      have hr1 := assign_rel hr hlit hw b1 (by rw [ho]; exact a3)
      obtain ⟨ε', c1, c2⟩ := (ih hr1).2 e' h
      refine ⟨ε', ?_, c2⟩
      rw [run_cons, step_of (hin ▸ a1) (d ▸ a2) b1]
      exact c1

end GE
end AB
