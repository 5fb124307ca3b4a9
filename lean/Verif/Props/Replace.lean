/-
C38: `graph_editor.replace` preserves meaning (/repo/autobound/graph_editor.py:108-151).
-/
import Verif.Proofs.Graph
import Mathlib.Data.List.Nodup

set_option linter.unusedSectionVars false

namespace AB
namespace GE
variable {V D α G : Type} [DecidableEq V] {𝓘 : Interp V D α} {deq : D → D → Bool} {cb : V → V → Bool}

theorem forall₂_writes {f : V → V} {P S : List (Op V D)}
    (h : List.Forall₂ (fun p s => deq p.data s.data = true ∧ p.inputs.map f = s.inputs ∧
      p.outputs.map f = s.outputs) P S) :
    (∀ v, writesOf S v ↔ ∃ u, writesOf P u ∧ f u = v) ∧ (∀ v, readsOf S v ↔ ∃ u, readsOf P u ∧ f u = v) ∧
    S.flatMap (·.outputs) = (P.flatMap (·.outputs)).map f := by
  induction h with
  | nil => simp [writesOf, readsOf]
  | @cons p s P S hps _ ih =>
    obtain ⟨-, h1, h2⟩ := hps
    obtain ⟨i1, i2, i3⟩ := ih
    refine ⟨fun v => ⟨?_, ?_⟩, fun v => ⟨?_, ?_⟩, ?_⟩
    · rintro ⟨o, ho, hv⟩
      rcases List.mem_cons.1 ho with rfl | ho
      · rw [← h2] at hv
        obtain ⟨u, hu, rfl⟩ := List.mem_map.1 hv
        exact ⟨u, ⟨p, by simp, hu⟩, rfl⟩
      · obtain ⟨u, ⟨o, ho, hu⟩, e⟩ := (i1 v).1 ⟨o, ho, hv⟩
        exact ⟨u, ⟨o, by simp [ho], hu⟩, e⟩
    · rintro ⟨u, ⟨o, ho, hu⟩, rfl⟩
      rcases List.mem_cons.1 ho with rfl | ho
      · exact ⟨s, by simp, by rw [← h2]; exact List.mem_map_of_mem hu⟩
      · obtain ⟨o', ho', h'⟩ := (i1 (f u)).2 ⟨u, ⟨o, ho, hu⟩, rfl⟩
        exact ⟨o', by simp [ho'], h'⟩
    · rintro ⟨o, ho, hv⟩
      rcases List.mem_cons.1 ho with rfl | ho
      · rw [← h1] at hv
        obtain ⟨u, hu, rfl⟩ := List.mem_map.1 hv
        exact ⟨u, ⟨p, by simp, hu⟩, rfl⟩
      · obtain ⟨u, ⟨o, ho, hu⟩, e⟩ := (i2 v).1 ⟨o, ho, hv⟩
        exact ⟨u, ⟨o, by simp [ho], hu⟩, e⟩
    · rintro ⟨u, ⟨o, ho, hu⟩, rfl⟩
      rcases List.mem_cons.1 ho with rfl | ho
      · exact ⟨s, by simp, by rw [← h1]; exact List.mem_map_of_mem hu⟩
      · obtain ⟨o', ho', h'⟩ := (i2 (f u)).2 ⟨u, ⟨o, ho, hu⟩, rfl⟩
        exact ⟨o', by simp [ho'], h'⟩
    · rw [List.flatMap_cons, List.flatMap_cons, List.map_append, h2, i3]

/-- variables used from position `i` on -/
def Live (g : Graph V D G) (i : ℕ) (v : V) : Prop := readsOf (g.operations.drop i) v ∨ v ∈ g.outputs

theorem writesOf_mono {A B : List (Op V D)} (h : ∀ o ∈ A, o ∈ B) {v : V} (hv : writesOf A v) : writesOf B v :=
  hv.imp fun _ h' => ⟨h _ h'.1, h'.2⟩
theorem readsOf_mono {A B : List (Op V D)} (h : ∀ o ∈ A, o ∈ B) {v : V} (hv : readsOf A v) : readsOf B v :=
  hv.imp fun _ h' => ⟨h _ h'.1, h'.2⟩

theorem inj_of_nodup_map {f : V → V} {l : List V} (h : (l.map f).Nodup) {u u' : V} (hu : u ∈ l) (hu' : u' ∈ l)
    (e : f u = f u') : u = u' := List.inj_on_of_nodup_map h hu hu' e

theorem forall₂_imp_mem {β γ : Type} {R S : β → γ → Prop} {a : List β} {b : List γ} (h : List.Forall₂ R a b)
    (hi : ∀ x y, x ∈ a → y ∈ b → R x y → S x y) : List.Forall₂ S a b := by
  induction h with
  | nil => exact .nil
  | cons hr _ ih =>
    exact .cons (hi _ _ List.mem_cons_self List.mem_cons_self hr)
      (ih fun x y hx hy => hi x y (List.mem_cons_of_mem _ hx) (List.mem_cons_of_mem _ hy))

theorem nodup_mid {β : Type} {a b c : List β} (h : (a ++ b ++ c).Nodup) : b.Nodup :=
  ((List.nodup_append.1 (List.nodup_append.1 h).1).2.1)

theorem mem_writes {ops : List (Op V D)} {v : V} : writesOf ops v ↔ v ∈ ops.flatMap (·.outputs) := by
  simp [writesOf, List.mem_flatMap]

section
variable {P R : List (Op V D)} {g : Graph V D G}
  (hdata : ∀ p ∈ P, ∀ o ∈ g.operations, deq p.data o.data = true → 𝓘.interp p.data = 𝓘.interp o.data)
  (hcb : ∀ u v, cb u v = true → 𝓘.lit u = 𝓘.lit v)
  {outs : List V} {internal : V → Prop} (hrule : RuleOk 𝓘 P R outs internal)
  (hg : Rewritable deq cb P outs internal g)
include hdata hcb hrule hg

/-- one matched occurrence -/
theorem occurrence {i : ℕ} {m : VMap V}
    (hm : matchOps deq cb P ((g.operations.drop i).take P.length) = some m) {e1 e2 e1' : Env V α}
    (ha : Agree 𝓘 (Live g i) e1 e2)
    (h : 𝓘.run ((g.operations.drop i).take P.length) e1 = some e1') :
    ∃ e2', 𝓘.run (R.map (·.subs m)) e2 = some e2' ∧ Agree 𝓘 (Live g (i + P.length)) e1' e2' := by
  set occ := (g.operations.drop i).take P.length with hocc
  set B := g.operations.drop (i + P.length) with hB
  have hsplit : g.operations = g.operations.take i ++ occ ++ B := by
    rw [hocc, hB, List.append_assoc, ← List.drop_drop, List.take_append_drop, List.take_append_drop]
  have hdrop : g.operations.drop i = occ ++ B := by
    rw [hocc, hB, ← List.drop_drop, List.take_append_drop]
  have hocc_mem : ∀ o ∈ occ, o ∈ g.operations := by
    intro o ho; rw [hsplit]; simp [ho]
  obtain ⟨hM, -, hdom⟩ := C36_match_sound hm
  obtain ⟨w1, w2, w3⟩ := forall₂_writes hM.same
  have hunused := hg.unused _ occ B _ hsplit hM
  have hinp := hg.inputs_outside _ occ B _ hsplit hM
  have hnd : (P.flatMap (·.outputs)).map m.app |>.Nodup := by
    rw [← w3]
    have := hg.once
    rw [hsplit, List.flatMap_append, List.flatMap_append] at this
    exact nodup_mid this
  have hinjP : ∀ u u', writesOf P u → writesOf P u' → m.app u = m.app u' → u = u' := fun u u' h h' e =>
    inj_of_nodup_map hnd (mem_writes.1 h) (mem_writes.1 h') e
  have hlit : ∀ u, 𝓘.lit (m.app u) = 𝓘.lit u := by
    intro u
    by_cases hu : ∃ p ∈ P, u ∈ p.inputs ∨ u ∈ p.outputs
    · obtain ⟨p, hp, hu⟩ := hu
      exact (hcb _ _ (hM.binds p hp u hu)).symm
    · have : m u = none := by
        by_contra hne
        exact hu ((hdom u).1 (Option.isSome_iff_ne_none.2 hne))
      simp [VMap.app, this]
  have happ_int : ∀ u, internal u → m.app u = u := by
    intro u hu
    have : m u = none := by
      by_contra hne
      obtain ⟨p, hp, h'⟩ := (hdom u).1 (Option.isSome_iff_ne_none.2 hne)
      rcases h' with h' | h'
      · exact (hrule.internal_fresh u hu).1 ⟨p, hp, h'⟩
      · exact (hrule.internal_fresh u hu).2 ⟨p, hp, h'⟩
    simp [VMap.app, this]
  -- the occurrence runs from `e2` too
  obtain ⟨e2o, r1, r2⟩ := run_agree ha (fun v hv => Or.inl (readsOf_mono (by
    rw [hdrop]; simp +contextual) hv)) h
  -- pattern side
  obtain ⟨ε1, p1, p2⟩ := (run_rename (S := fun u => readsOf P u ∨ writesOf P u) (ρ := m.app)
    (forall₂_imp_mem hM.same fun p s hp ho hps => ⟨hdata p hp s (hocc_mem s ho) hps.1, hps.2⟩) (fun u _ => hlit u) (fun u hu => hu) (by
      intro u hu u' hu' he
      by_cases hw : writesOf P u'
      · exact hinjP u' u hw hu he
      · exfalso
        exact hinp u' (hu'.resolve_right hw) hw ((w1 _).2 ⟨u, hu, he.symm⟩))
    (ε := fun u => e2 (m.app u)) (e := e2) (by
      intro u _; unfold Interp.look; rw [hlit u])).2 e2o r1
  obtain ⟨ε2, q1, q2⟩ := hrule.equiv _ _ p1
  -- replacement side
  have hwR : ∀ u, writesOf R u → (writesOf P u ∧ u ∈ outs) ∨ internal u := fun u hu =>
    (hrule.writes u hu).imp (fun h => ⟨hrule.outs_written u h, h⟩) id
  have hnotint : ∀ u v, internal u → (writesOf occ v ∨ readsOf occ v) → v ≠ u := by
    rintro u v hu hv rfl
    rcases hv with hv | hv
    · exact (hg.internal_fresh v hu).2.1 (writesOf_mono hocc_mem hv)
    · exact (hg.internal_fresh v hu).1 (readsOf_mono hocc_mem hv)
  obtain ⟨e2', s1, s2⟩ := (run_rename (𝓘 := 𝓘) (S := fun u => readsOf R u ∨ writesOf R u ∨ u ∈ outs) (ρ := m.app)
    (P := R) (Q := R.map (·.subs m)) (by
      rw [List.forall₂_map_right_iff, List.forall₂_same]
      exact fun _ _ => ⟨rfl, rfl, rfl⟩)
    (fun u _ => hlit u) (fun u hu => hu.elim Or.inl fun h => Or.inr (Or.inl h)) (by
      intro u hu u' hu' he
      -- classify u'
      have hcl : (writesOf P u' ) ∨ internal u' ∨ 𝓘.lit u' ≠ none ∨ (readsOf P u' ∧ ¬ writesOf P u') := by
        rcases hu' with h | h | h
        · rcases hrule.reads u' h with h | h | h
          · exact (hwR u' h).imp (fun h => h.1) Or.inl
          · exact Or.inr (Or.inr (Or.inl h))
          · exact Or.inr (Or.inr (Or.inr h))
        · exact (hwR u' h).imp (fun h => h.1) Or.inl
        · exact Or.inl (hrule.outs_written u' h)
      have hul : 𝓘.lit u = none := hrule.not_const u (Or.inr hu)
      rcases hwR u hu with ⟨hPu, -⟩ | hint
      · have hwo : writesOf occ (m.app u) := (w1 _).2 ⟨u, hPu, rfl⟩
        rcases hcl with h | h | h | h
        · exact hinjP u' u h hPu he
        · rw [happ_int u' h] at he
          exact absurd he.symm (hnotint u' _ h (Or.inl hwo))
        · rw [← hlit u', he, hlit u, hul] at h
          exact absurd rfl h
        · exact absurd (he ▸ hwo) (hinp u' h.1 h.2)
      · rw [happ_int u hint] at he
        rcases hcl with h | h | h | h
        · exact absurd he (hnotint u _ hint (Or.inl ((w1 _).2 ⟨u', h, rfl⟩)))
        · rwa [happ_int u' h] at he
        · rw [← hlit u', he, hul] at h
          exact absurd rfl h
        · exact absurd he (hnotint u _ hint (Or.inr ((w2 _).2 ⟨u', h.1, rfl⟩))))
    (ε := fun u => e2 (m.app u)) (e := e2) (by
      intro u _; unfold Interp.look; rw [hlit u])).1 ε2 q1
  refine ⟨e2', s1, fun v hv => ?_⟩
  have hv' : readsOf B v ∨ v ∈ g.outputs := hv
  have hLi : Live g i v := by
    rcases hv' with h | h
    · exact Or.inl (readsOf_mono (by rw [hdrop]; simp +contextual) h)
    · exact Or.inr h
  rw [r2 v (Or.inl hLi)]
  by_cases hwv : writesOf occ v
  · obtain ⟨u, hu, rfl⟩ := (w1 v).1 hwv
    have hout : u ∈ outs := by
      by_contra hne
      obtain ⟨n1, n2⟩ := hunused u hu hne
      exact hv'.elim n1 n2
    rw [← p2 u (Or.inr hu), ← s2 u (Or.inr (Or.inr hout))]
    exact q2 u hout
  · have hnR : ¬ writesOf (R.map (·.subs m)) v := by
      rintro ⟨o, ho, hov⟩
      obtain ⟨o', ho', rfl⟩ := List.mem_map.1 ho
      obtain ⟨u, hu, rfl⟩ := List.mem_map.1 hov
      rcases hwR u ⟨o', ho', hu⟩ with ⟨h, -⟩ | h
      · exact hwv ((w1 _).2 ⟨u, h, rfl⟩)
      · rw [happ_int u h] at hv'
        obtain ⟨n1, -, n2⟩ := hg.internal_fresh u h
        rcases hv' with h' | h'
        · exact n1 (readsOf_mono (fun o ho => by rw [hsplit]; simp [ho]) h')
        · exact n2 h'
    exact look_congr (by rw [run_frame r1 hwv, run_frame s1 hnR])

theorem loop_preserves : ∀ (fuel i : ℕ) (out r : List (Op V D)),
    replaceLoop deq cb P R g.operations fuel i out = some r → ∀ e1 e2 ef : Env V α,
    Agree 𝓘 (Live g i) e1 e2 → 𝓘.run (g.operations.drop i) e1 = some ef →
    ∃ rest ef', r = out ++ rest ∧ 𝓘.run rest e2 = some ef' ∧ Agree 𝓘 (· ∈ g.outputs) ef ef' := by
  intro fuel
  induction fuel with
  | zero => intro i out r h; cases h
  | succ fuel ih =>
    intro i out r h e1 e2 ef ha hrun
    unfold replaceLoop at h
    split_ifs at h with hi
    · cases hm : matchOps deq cb P ((g.operations.drop i).take P.length) with
      | some m =>
        rw [hm] at h
        have hs : g.operations.drop i =
            (g.operations.drop i).take P.length ++ g.operations.drop (i + P.length) := by
          rw [← List.drop_drop, List.take_append_drop]
        rw [hs, run_append] at hrun
        obtain ⟨e1', h1, h2⟩ := Option.bind_eq_some_iff.1 hrun
        obtain ⟨e2', h3, h4⟩ := occurrence hdata hcb hrule hg hm ha h1
        obtain ⟨rest, ef', a1, a2, a3⟩ := ih _ _ _ h e1' e2' ef h4 h2
        refine ⟨R.map (·.subs m) ++ rest, ef', by rw [a1, List.append_assoc], ?_, a3⟩
        rw [run_append, h3]; exact a2
      | none =>
        rw [hm] at h
        have hd := List.drop_eq_getElem_cons hi
        rw [hd, run_cons] at hrun
        obtain ⟨e1', h1, h2⟩ := Option.bind_eq_some_iff.1 hrun
        have h1' : 𝓘.run [g.operations[i]] e1 = some e1' := by
          rw [run_cons, h1]; rfl
        obtain ⟨e2', h3, h4⟩ := run_agree ha (fun v hv => Or.inl (readsOf_mono (by
          intro o ho
          rw [List.mem_singleton.1 ho, hd]; exact List.mem_cons_self) hv)) h1'
        obtain ⟨rest, ef', a1, a2, a3⟩ := ih _ _ _ h e1' e2' ef (fun v hv => h4 v (Or.inl (by
          rcases hv with hv | hv
          · refine Or.inl (readsOf_mono ?_ hv)
            intro o ho
            rw [hd]; exact List.mem_cons_of_mem _ ho
          · exact Or.inr hv))) h2
        refine ⟨g.operations[i] :: rest, ef', by rw [a1, List.append_assoc]; rfl, ?_, a3⟩
        rw [show g.operations[i] :: rest = [g.operations[i]] ++ rest from rfl, run_append, h3]
        exact a2
    · cases h
      rw [List.drop_eq_nil_of_le (by omega)] at hrun
      cases hrun
      exact ⟨[], e2, by simp, rfl, fun v hv => ha v (Or.inr hv)⟩

/-- **C38.** If `pattern` and `replacement` compute the same outputs (`RuleOk`) and `g` may be rewritten
(`Rewritable`), then the graph returned by `replace` has the inputs and outputs of `g`, and computes the
same output values as `g` for all input values on which `g` runs - for every meaning of the operations. -/
theorem C38_replace_preserves {n : ℕ} {g' : Graph V D G} (h : replace deq cb P R g n = some g')
    (e : Env V α) (xs ys : List α) (hev : 𝓘.eval g e xs = some ys) :
    g'.inputs = g.inputs ∧ g'.outputs = g.outputs ∧ g'.data = g.data ∧ 𝓘.eval g' e xs = some ys := by
  unfold replace at h
  obtain ⟨r, hr, rfl⟩ := Option.map_eq_some_iff.1 h
  refine ⟨rfl, rfl, rfl, ?_⟩
  unfold Interp.eval at hev ⊢
  obtain ⟨e0, h1, hev⟩ := Option.bind_eq_some_iff.1 hev
  obtain ⟨ef, h2, hev⟩ := Option.bind_eq_some_iff.1 hev
  obtain ⟨rest, ef', a1, a2, a3⟩ := loop_preserves hdata hcb hrule hg n 0 [] r hr e0 e0 ef
    (fun _ _ => rfl) (by simpa using h2)
  have a1 : r = rest := by simpa using a1
  subst a1
  show (assign e g.inputs xs).bind _ = _
  rw [h1]
  show (𝓘.run r e0).bind _ = _
  rw [a2]
  show g.outputs.mapM (𝓘.look ef') = _
  rw [← hev]
  exact mapM_congr fun v hv => (a3 v hv).symm
end

end GE
end AB
