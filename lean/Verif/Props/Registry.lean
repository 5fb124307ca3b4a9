/-
C81: the effect of any history of registrations.
-/
import Verif.Spec.Registry
import Verif.Props.Register
import Verif.Model.RealLib

set_option linter.unusedSectionVars false

namespace AB
namespace JB
open TEA

/-! ### dicts -/

theorem lookup_cons' {β : Type} (k' : String) (e : String × β) (d : Dict β) :
    List.lookup k' (e :: d) = if k' = e.1 then some e.2 else List.lookup k' d := by
  obtain ⟨k, v⟩ := e
  by_cases h : k' = k
  · subst h; simp [List.lookup]
  · have : (k' == k) = false := by simpa using h
    simp [List.lookup, this, h]

theorem lookup_append_one {β : Type} (k k' : String) (v : β) : ∀ d : Dict β, List.lookup k d = none →
    List.lookup k' (d ++ [(k, v)]) = if k' = k then some v else List.lookup k' d
  | [], _ => by
    rw [List.nil_append, lookup_cons']
  | e :: d, h => by
    rw [lookup_cons'] at h
    split_ifs at h with he
    rw [List.cons_append, lookup_cons', lookup_cons', lookup_append_one k k' v d h]
    by_cases h1 : k' = e.1
    · rw [if_pos h1, if_pos h1, if_neg (fun h2 => he (h2.symm.trans h1))]
    · rw [if_neg h1, if_neg h1]

theorem lookup_map_set {β : Type} (k k' : String) (v : β) : ∀ d : Dict β, (List.lookup k d).isSome →
    List.lookup k' (d.map fun e => if e.1 = k then (k, v) else e) = if k' = k then some v else List.lookup k' d := by
  have other : k' ≠ k → ∀ d : Dict β, List.lookup k' (d.map fun e => if e.1 = k then (k, v) else e) = List.lookup k' d := by
    intro hne d
    induction d with
    | nil => rfl
    | cons e d ih =>
      rw [List.map_cons, lookup_cons', lookup_cons', ih]
      by_cases h1 : e.1 = k
      · rw [if_pos h1, if_neg hne, if_neg (fun h => hne (h.trans h1))]
      · rw [if_neg h1]
  intro d
  by_cases hk : k' = k
  · subst hk
    rw [if_pos rfl]
    induction d with
    | nil => intro h; cases h
    | cons e d ih =>
      intro h
      rw [List.map_cons, lookup_cons']
      by_cases h1 : e.1 = k'
      · rw [if_pos h1, if_pos rfl]
      · rw [if_neg h1, if_neg (Ne.symm h1)]
        rw [lookup_cons', if_neg (Ne.symm h1)] at h
        exact ih h
  · rw [if_neg hk, other hk]
    exact fun _ => rfl

theorem lookup_set {β : Type} (d : Dict β) (k k' : String) (v : β) :
    List.lookup k' (Dict.set d k v) = if k' = k then some v else List.lookup k' d := by
  unfold Dict.set
  by_cases h : (List.lookup k d).isSome
  · rw [if_pos h, lookup_map_set k k' v d h]
  · rw [if_neg h, lookup_append_one k k' v d (Option.not_isSome_iff_eq_none.1 h)]

/-- the keys of a dict are different -/
def Keys {β : Type} (d : Dict β) : Prop := (d.map Prod.fst).Nodup

theorem lookup_update {β : Type} (k : String) : ∀ (e d : Dict β), Keys e →
    List.lookup k (Dict.update d e) = (List.lookup k e).or (List.lookup k d)
  | [], d, _ => by unfold Dict.update; simp
  | (k', v) :: e, d, h => by
    have h' := List.nodup_cons.1 h
    have ih := lookup_update k e (Dict.set d k' v) h'.2
    rw [show Dict.update d ((k', v) :: e) = Dict.update (Dict.set d k' v) e from rfl, ih, lookup_set, lookup_cons']
    by_cases hk : k = k'
    · subst hk
      have hn : List.lookup k e = none := by
        rw [List.lookup_eq_none_iff]
        intro p hp
        have : k ≠ p.1 := fun h => h'.1 (List.mem_map.2 ⟨p, hp, h.symm⟩)
        simpa using this
      simp [hn]
    · simp [hk]

theorem isSome_lookup {β : Type} {k : String} : ∀ {d : Dict β}, (List.lookup k d).isSome ↔ k ∈ d.map Prod.fst
  | [] => by simp
  | e :: d => by
    rw [lookup_cons', List.map_cons, List.mem_cons]
    by_cases h : k = e.1
    · simp [h]
    · simp [h, isSome_lookup (d := d)]

theorem keys_set {β : Type} {d : Dict β} (h : Keys d) (k : String) (v : β) : Keys (Dict.set d k v) := by
  unfold Keys Dict.set
  by_cases hs : (List.lookup k d).isSome
  · rw [if_pos hs, List.map_map]
    have : d.map (Prod.fst ∘ fun e => if e.1 = k then (k, v) else e) = d.map Prod.fst := by
      refine List.map_congr_left fun e _ => ?_
      by_cases he : e.1 = k
      · simp [he]
      · simp [he]
    rw [this]
    exact h
  · rw [if_neg hs, List.map_append]
    refine List.nodup_append.2 ⟨h, by simp, ?_⟩
    intro a ha b hb
    rw [isSome_lookup] at hs
    simp at hb
    subst hb
    exact fun e => hs (e ▸ ha)

theorem lookup_map_val {β γ : Type} (f : β → γ) (k : String) : ∀ d : Dict β,
    List.lookup k (d.map fun e => (e.1, f e.2)) = (List.lookup k d).map f
  | [] => rfl
  | e :: d => by
    rw [List.map_cons, lookup_cons', lookup_cons', lookup_map_val f k d]
    by_cases h : k = e.1 <;> simp [h]

/-! ### histories -/

section
variable {K R : Type}

theorem after_cons (s : Registry K R) (c : Call K R) (A : List (Call K R)) :
    s.after (c :: A) = (s.after [c]).after A := by
  simp only [Registry.after]
  cases s.call c <;> rfl

theorem after_append (s : Registry K R) (A B : List (Call K R)) : s.after (A ++ B) = (s.after A).after B := by
  induction A generalizing s with
  | nil => rfl
  | cons c A ih => rw [List.cons_append, after_cons, ih, after_cons s c A]

theorem after_snoc (s : Registry K R) (A : List (Call K R)) (c : Call K R) :
    s.after (A ++ [c]) = match (s.after A).call c with | .ok s' => s' | .error _ => s.after A := by
  rw [after_append]
  simp only [Registry.after]
  cases (s.after A).call c <;> rfl

theorem after_names (s : Registry K R) (A : List (Call K R)) : ∀ name : String,
    name ∈ (s.after A).names ↔ name ∈ s.names ∨ ∃ c ∈ A, c.Names name := by
  induction A using List.reverseRecOn with
  | nil => simp [Registry.after]
  | append_singleton A c ih =>
    intro name
    rw [after_snoc]
    cases c with
    | primitive p g =>
      have : (s.after A).call (.primitive p g) = .ok ((s.after A).registerPrimitive p g) := rfl
      rw [this]
      show name ∈ (s.after A).names ↔ _
      rw [ih]
      simp [Call.Names]
    | function f rule g =>
      have : (s.after A).call (.function f rule g) = if autoboundName f ∈ (s.after A).names then .error .valueError else _ := rfl
      rw [this]
      by_cases h : autoboundName f ∈ (s.after A).names
      · rw [if_pos h]
        dsimp only
        rw [ih]
        constructor
        · rintro (h1 | ⟨c, h1, h2⟩)
          · exact Or.inl h1
          · exact Or.inr ⟨c, by simp [h1], h2⟩
        · rintro (h1 | ⟨c, h1, h2⟩)
          · exact Or.inl h1
          · rcases List.mem_append.1 h1 with h1 | h1
            · exact Or.inr ⟨c, h1, h2⟩
            · rw [List.mem_singleton] at h1
              subst h1
              replace h2 : autoboundName f = name := h2
              rw [← h2]
              exact (ih _).1 h
      · rw [if_neg h]
        show name ∈ autoboundName f :: (s.after A).names ↔ _
        rw [List.mem_cons, ih]
        constructor
        · rintro (h1 | h1 | ⟨c, h1, h2⟩)
          · exact Or.inr ⟨.function f rule g, by simp, h1.symm⟩
          · exact Or.inl h1
          · exact Or.inr ⟨c, by simp [h1], h2⟩
        · rintro (h1 | ⟨c, h1, h2⟩)
          · exact Or.inr (Or.inl h1)
          · rcases List.mem_append.1 h1 with h1 | h1
            · exact Or.inr (Or.inr ⟨c, h1, h2⟩)
            · rw [List.mem_singleton] at h1
              subst h1
              exact Or.inl (Eq.symm h2)

/-! ### C81 -/

theorem not_accepted_iff (s : Registry K R) (A : List (Call K R)) (c : Call K R) :
    (s.after A).call c = .error .valueError ↔ ¬ Accepted s A c := by
  cases c with
  | primitive p g =>
    constructor
    · intro h; cases h
    · intro h; exact absurd (fun name hn => absurd hn (by simp [Call.Names])) h
  | function f rule g =>
    have hc : (s.after A).call (.function f rule g) =
        if autoboundName f ∈ (s.after A).names then .error .valueError else _ := rfl
    rw [hc]
    have hn : autoboundName f ∈ (s.after A).names ↔ ¬ Accepted s A (.function f rule g) := by
      rw [after_names]
      constructor
      · rintro (h | ⟨c, h1, h2⟩) ha
        · exact (ha _ rfl).1 h
        · exact (ha _ rfl).2 c h1 h2
      · intro h
        by_contra hh
        push Not at hh
        refine h fun name hname => ?_
        replace hname : autoboundName f = name := hname
        rw [← hname]
        exact hh
    by_cases h : autoboundName f ∈ (s.after A).names
    · rw [if_pos h]; exact ⟨fun _ => hn.1 h, fun _ => rfl⟩
    · rw [if_neg h]
      exact ⟨fun h' => by (cases h'), fun h' => absurd (hn.2 h') h⟩

/-- **C81 (when a registration raises).** After any history, a registration raises `ValueError` exactly when it is for a
Jax function whose name was registered before; the state is then what it was. -/
theorem C81_raises (s : Registry K R) (history : List (Call K R)) (c : Call K R) :
    ((s.after history).call c = .error .valueError ↔ ¬ Accepted s history c) ∧
    ((∃ s', (s.after history).call c = .ok s') ↔ Accepted s history c) ∧
    (¬ Accepted s history c → s.after (history ++ [c]) = s.after history) := by
  have h := not_accepted_iff s history c
  refine ⟨h, ?_, ?_⟩
  · constructor
    · rintro ⟨s', hs⟩
      by_contra ha
      rw [h.2 ha] at hs; cases hs
    · intro ha
      cases hc : (s.after history).call c with
      | ok s' => exact ⟨s', rfl⟩
      | error e =>
        cases c with
        | primitive p g => cases hc
        | function f rule g =>
          have hc' : (s.after history).call (.function f rule g) =
              if autoboundName f ∈ (s.after history).names then .error .valueError else _ := rfl
          by_cases hn : autoboundName f ∈ (s.after history).names
          · rw [if_pos hn] at hc'
            exact absurd ha (h.1 hc')
          · rw [if_neg hn, hc] at hc'; cases hc'
  · intro ha
    rw [after_snoc, h.2 ha]

theorem accepted_call {s : Registry K R} {A : List (Call K R)} {c : Call K R} (h : Accepted s A c) (p : String) :
    List.lookup p (s.after (A ++ [c])).enclosures =
      match c with
      | .primitive q g => if p = q then some g else List.lookup p (s.after A).enclosures
      | .function f _ g => if p = autoboundName f then some g else List.lookup p (s.after A).enclosures := by
  rw [after_snoc]
  obtain ⟨s', hs⟩ := (C81_raises s A c).2.1.2 h
  rw [hs]
  cases c with
  | primitive q g =>
    cases hs
    exact lookup_set _ _ _ _
  | function f rule g =>
    replace hs : (if autoboundName f ∈ (s.after A).names then (.error .valueError : Py (Registry K R)) else .ok _) = .ok s' := hs
    split_ifs at hs
    cases hs
    exact lookup_set _ _ _ _

theorem lookup_after_other {s : Registry K R} {A : List (Call K R)} {c : Call K R} {p : String}
    (h : Accepted s A c → ∀ g, ¬ c.Registers p g) :
    List.lookup p (s.after (A ++ [c])).enclosures = List.lookup p (s.after A).enclosures := by
  by_cases ha : Accepted s A c
  · rw [accepted_call ha]
    cases c with
    | primitive q g => exact if_neg fun e => h ha g ⟨e.symm, rfl⟩
    | function f rule g => exact if_neg fun e => h ha g ⟨e.symm, rfl⟩
  · rw [(C81_raises s A c).2.2 ha]

theorem lookup_after_none {s : Registry K R} {A : List (Call K R)} {p : String} (B : List (Call K R))
    (h : ∀ mid c' rest g', B = mid ++ c' :: rest → Accepted s (A ++ mid) c' → ¬ c'.Registers p g') :
    List.lookup p (s.after (A ++ B)).enclosures = List.lookup p (s.after A).enclosures := by
  induction B using List.reverseRecOn with
  | nil => rw [List.append_nil]
  | append_singleton B c ih =>
    rw [← List.append_assoc, lookup_after_other, ih]
    · intro mid c' rest g' e
      exact h mid c' (rest ++ [c]) g' (by rw [e]; simp)
    · intro ha g
      exact h B c [] g rfl ha

/-- **C81 (the table of enclosures).** After any history of calls, the enclosure function of a primitive is the one of
the last accepted registration for it; if there was none, it is what it was before. -/
theorem C81_table (s : Registry K R) (history : List (Call K R)) (p : String) :
    (∀ g, LastRegistered s history p g → List.lookup p (s.after history).enclosures = some g) ∧
    (NotRegistered s history p → List.lookup p (s.after history).enclosures = List.lookup p s.enclosures) := by
  constructor
  · rintro g ⟨before, c, later, rfl, ha, hr, hl⟩
    have h1 := lookup_after_none (s := s) (A := before ++ [c]) (p := p) later (by
      intro mid c' rest g' e hacc
      refine hl mid c' rest g' e ?_
      simpa using hacc)
    rw [List.append_assoc] at h1
    rw [show before ++ c :: later = before ++ ([c] ++ later) from rfl, h1, accepted_call ha]
    cases c with
    | primitive q g' => obtain ⟨rfl, rfl⟩ := hr; exact if_pos rfl
    | function f rule g' => obtain ⟨h2, rfl⟩ := hr; exact if_pos h2.symm
  · intro h
    have := lookup_after_none (s := s) (A := []) (p := p) history (by
      intro mid c' rest g' e hacc
      exact h mid c' rest g' e hacc)
    exact this

/-- Every primitive was either registered in the history, or not. -/
theorem C81_cases (s : Registry K R) (history : List (Call K R)) (p : String) :
    NotRegistered s history p ∨ ∃ g, LastRegistered s history p g := by
  induction history using List.reverseRecOn with
  | nil => exact Or.inl fun before c later g e => by simp at e
  | append_singleton A c ih =>
    by_cases hr : Accepted s A c ∧ ∃ g, c.Registers p g
    · obtain ⟨ha, g, hg⟩ := hr
      exact Or.inr ⟨g, A, c, [], rfl, ha, hg, fun mid c' rest g' e => by simp at e⟩
    · rcases ih with ih | ⟨g, before, c0, later, rfl, ha, hg, hl⟩
      · refine Or.inl fun before c' later g e ha hg => ?_
        rcases List.eq_nil_or_concat later with rfl | ⟨l', x, rfl⟩
        · obtain ⟨rfl, e2⟩ := List.append_inj' e rfl
          cases e2
          exact hr ⟨ha, g, hg⟩
        · rw [List.concat_eq_append, ← List.cons_append, ← List.append_assoc] at e
          obtain ⟨rfl, -⟩ := List.append_inj' e rfl
          exact ih before c' l' g rfl ha hg
      · refine Or.inr ⟨g, before, c0, later ++ [c], by simp, ha, hg, ?_⟩
        intro mid c' rest g' e hacc hg'
        rcases List.eq_nil_or_concat rest with rfl | ⟨l', x, rfl⟩
        · obtain ⟨rfl, e2⟩ := List.append_inj' e rfl
          cases e2
          exact hr ⟨hacc, g', hg'⟩
        · rw [List.concat_eq_append, ← List.cons_append, ← List.append_assoc] at e
          obtain ⟨rfl, -⟩ := List.append_inj' e rfl
          exact hl mid c' l' g' rfl hacc hg'

/-- The rewrite rules that an accepted call adds. -/
def Call.rules : Call K R → List R
  | .primitive _ _ => []
  | .function f rule _ => [rule (autoboundName f)]

/-- **C81 (the rewrite rules).** An accepted registration of a Jax function puts its rule, for the primitive of that
name, after those there were; no other call changes the rules. -/
theorem C81_rules (s : Registry K R) (history : List (Call K R)) (c : Call K R) :
    (Accepted s history c → (s.after (history ++ [c])).rules = (s.after history).rules ++ c.rules) ∧
    (¬ Accepted s history c → (s.after (history ++ [c])).rules = (s.after history).rules) := by
  refine ⟨fun h => ?_, fun h => by rw [(C81_raises s history c).2.2 h]⟩
  rw [after_snoc]
  obtain ⟨s', hs⟩ := (C81_raises s history c).2.1.2 h
  rw [hs]
  cases c with
  | primitive q g => cases hs; exact (List.append_nil _).symm
  | function f rule g =>
    replace hs : (if autoboundName f ∈ (s.after history).names then (.error .valueError : Py (Registry K R)) else .ok _) = .ok s' := hs
    split_ifs at hs
    cases hs
    rfl

theorem after_keys {s : Registry K R} (h : Keys s.enclosures) (A : List (Call K R)) : Keys (s.after A).enclosures := by
  induction A using List.reverseRecOn with
  | nil => exact h
  | append_singleton A c ih =>
    by_cases ha : Accepted s A c
    · rw [after_snoc]
      obtain ⟨s', hs⟩ := (C81_raises s A c).2.1.2 ha
      rw [hs]
      cases c with
      | primitive q g => cases hs; exact keys_set ih _ _
      | function f rule g =>
        replace hs : (if autoboundName f ∈ (s.after A).names then (.error .valueError : Py (Registry K R)) else .ok _) = .ok s' := hs
        split_ifs at hs
        cases hs
        exact keys_set ih _ _
    · rw [(C81_raises s A c).2.2 ha]; exact ih

end

/-! ### the table of the interpreter -/

section
variable {K R : Type} [Field K] [LinearOrder K]

theorem passThru_keys (lib : Lib K) : Keys (passThruNames.map fun n => (n, passThruPush lib)) := by
  unfold Keys
  rw [List.map_map]
  show (passThruNames.map id).Nodup
  rw [List.map_id]
  decide

theorem lookup_passThru (lib : Lib K) (n : String) :
    List.lookup n (passThruNames.map fun n => (n, passThruPush lib)) =
      if n ∈ passThruNames then some (passThruPush lib) else none := by
  generalize passThruNames = l
  induction l with
  | nil => rfl
  | cons m l ih =>
    rw [List.map_cons, lookup_cons', ih]
    by_cases h : n = m
    · simp [h]
    · simp [h]

theorem lookup_pushforwardFuns (lib : Lib K) {s : Registry K R} (hk : Keys s.enclosures) (T : TEA K) (n : String) :
    List.lookup n (pushforwardFuns lib s T) =
      if n ∈ passThruNames then some (passThruPush lib)
      else match List.lookup n s.enclosures with
        | some g => some (elementwisePush T g)
        | none => List.lookup n (fixedFuns lib T) := by
  unfold pushforwardFuns
  have hk2 : Keys (s.enclosures.map fun e => (e.1, elementwisePush T e.2)) := by
    unfold Keys; rw [List.map_map]; exact hk
  rw [lookup_update n _ _ (passThru_keys lib), lookup_passThru, lookup_update n _ _ hk2,
    lookup_map_val (elementwisePush T)]
  by_cases h : n ∈ passThruNames
  · rw [if_pos h, if_pos h]; rfl
  · rw [if_neg h, if_neg h]
    cases List.lookup n s.enclosures <;> rfl

/-- The names in the dict display of `_pushforward_funs`. -/
def fixedNames : List String :=
  ["add", "div", "integer_pow", "mul", "neg", "pow", "sub", "dot_general", "conv_general_dilated", "broadcast_in_dim"]

theorem lookup_fixed (lib : Lib K) (T : TEA K) (n : String) (h : n ∉ fixedNames) :
    List.lookup n (fixedFuns lib T) = none := by
  rw [← Option.not_isSome_iff_eq_none, isSome_lookup]
  exact h

/-- The name is that of an element-wise primitive: none of those with a rule of their own. -/
def FreeName (n : String) : Prop := n ∉ fixedNames ∧ n ∉ passThruNames

/-- The primitive is described the way the model describes it: the element-wise primitives, and those without a rule,
have names of their own. -/
def _root_.AB.Prim.Named (s : Registry K R) : Prim K → Prop
  | .elementwise n => FreeName n
  | .other n _ => FreeName n ∧ List.lookup n s.enclosures = none
  | _ => True

/-- **C81 (dispatch).** When none of the primitives with a rule of their own has been registered, the function the
interpreter uses for a primitive is that of the model `pushforward`, with the registered enclosures. -/
theorem C81_dispatch (lib : Lib K) {s : Registry K R} (hk : Keys s.enclosures)
    (hfree : ∀ n, (List.lookup n s.enclosures).isSome → FreeName n) (T : TEA K) (p : Prim K) (hp : p.Named s)
    (ins : List (Inter K)) :
    (List.lookup p.key (pushforwardFuns lib s T)).map (fun f => f p ins) =
      (pushforward (lib.inState s) T p).map (fun f => f ins) := by
  rw [lookup_pushforwardFuns lib hk]
  have hfix : ∀ n, n ∈ fixedNames → List.lookup n s.enclosures = none := by
    intro n hn
    rw [← Option.not_isSome_iff_eq_none]
    exact fun h => (hfree n h).1 hn
  have harith : ∀ n f, n ∈ fixedNames → n ∉ passThruNames → List.lookup n (fixedFuns lib T) = some f →
      (if n ∈ passThruNames then some (passThruPush lib)
      else match List.lookup n s.enclosures with
        | some g => some (elementwisePush T g)
        | none => List.lookup n (fixedFuns lib T)) = some f := by
    intro n f h1 h2 h3
    rw [if_neg h2, hfix n h1]
    exact h3
  have hpass : ∀ n, n ∈ passThruNames → (if n ∈ passThruNames then some (passThruPush lib)
      else match List.lookup n s.enclosures with
        | some g => some (elementwisePush T g)
        | none => List.lookup n (fixedFuns lib T)) = some (passThruPush lib) := fun n h => if_pos h
  cases p
  case elementwise n =>
    have hk : (Prim.elementwise n : Prim K).key = n := rfl
    rw [hk, if_neg hp.2]
    show _ = Option.map _ (Option.map _ (List.lookup n s.enclosures))
    cases h : List.lookup n s.enclosures with
    | some g =>
      simp only [Option.map_some, elementwisePush]
      rcases ins with _ | ⟨a, _ | ⟨b, l⟩⟩ <;> rfl
    | none => rw [lookup_fixed lib T n hp.1]; rfl
  case other n f =>
    have hk : (Prim.other n f : Prim K).key = n := rfl
    rw [hk, if_neg hp.1.2, hp.2, lookup_fixed lib T n hp.1.1]; rfl
  case add =>
    rw [show (Prim.add : Prim K).key = "add" from rfl, harith "add" (wrap2 T.add) (by decide) (by decide) rfl]
    rcases ins with _ | ⟨a, _ | ⟨b, _ | ⟨c, l⟩⟩⟩ <;> rfl
  case sub =>
    rw [show (Prim.sub : Prim K).key = "sub" from rfl, harith "sub" (wrap2 T.subtract) (by decide) (by decide) rfl]
    rcases ins with _ | ⟨a, _ | ⟨b, _ | ⟨c, l⟩⟩⟩ <;> rfl
  case mul =>
    rw [show (Prim.mul : Prim K).key = "mul" from rfl, harith "mul" (wrap2 T.multiply) (by decide) (by decide) rfl]
    rcases ins with _ | ⟨a, _ | ⟨b, _ | ⟨c, l⟩⟩⟩ <;> rfl
  case div =>
    rw [show (Prim.div : Prim K).key = "div" from rfl, harith "div" _ (by decide) (by decide) rfl]
    rcases ins with _ | ⟨a, _ | ⟨b, _ | ⟨c, l⟩⟩⟩ <;> rfl
  case neg =>
    rw [show (Prim.neg : Prim K).key = "neg" from rfl, harith "neg" _ (by decide) (by decide) rfl]
    rcases ins with _ | ⟨a, _ | ⟨b, l⟩⟩ <;> rfl
  case pow =>
    rw [show (Prim.pow : Prim K).key = "pow" from rfl, harith "pow" _ (by decide) (by decide) rfl]
    rcases ins with _ | ⟨a, _ | ⟨b, _ | ⟨c, l⟩⟩⟩ <;> rfl
  case integerPow y =>
    rw [show (Prim.integerPow y : Prim K).key = "integer_pow" from rfl, harith "integer_pow" _ (by decide) (by decide) rfl]
    rcases ins with _ | ⟨a, _ | ⟨b, l⟩⟩ <;> rfl
  case dotGeneral lc rc lb rb =>
    rw [show (Prim.dotGeneral lc rc lb rb : Prim K).key = "dot_general" from rfl,
      harith "dot_general" _ (by decide) (by decide) rfl]
    rcases ins with _ | ⟨a, _ | ⟨b, _ | ⟨c, l⟩⟩⟩ <;> rfl
  case conv op =>
    rw [show (Prim.conv op : Prim K).key = "conv_general_dilated" from rfl,
      harith "conv_general_dilated" _ (by decide) (by decide) rfl]
    rcases ins with _ | ⟨a, _ | ⟨b, _ | ⟨c, l⟩⟩⟩ <;> rfl
  case broadcastInDim shape dims =>
    rw [show (Prim.broadcastInDim shape dims : Prim K).key = "broadcast_in_dim" from rfl,
      harith "broadcast_in_dim" _ (by decide) (by decide) rfl]
    rcases ins with _ | ⟨a, _ | ⟨b, l⟩⟩ <;> rfl
  all_goals
    rw [hpass _ (by simp [Prim.key, passThruNames])]
    rcases ins with _ | ⟨a, _ | ⟨b, l⟩⟩ <;> rfl

/-- **C81 (a registration replaces the library's own rule).** For a primitive that is not passed through, the interpreter
uses the registered enclosure function, also when the library has a rule for it (`add`, `dot_general`, ...). -/
theorem C81_registered_wins (lib : Lib K) {s : Registry K R} (hk : Keys s.enclosures) {history : List (Call K R)}
    {n : String} {g : Generator K} (h : LastRegistered s history n g) (hn : n ∉ passThruNames) (T : TEA K) (p : Prim K)
    (a : Inter K) :
    (List.lookup n (pushforwardFuns lib (s.after history) T)).map (fun f => f p [a]) =
      some (T.elementwiseFun g a.encl a.tr) := by
  rw [lookup_pushforwardFuns lib (after_keys hk history), if_neg hn, (C81_table s history n).1 g h]
  rfl

/-- **C81 (a finding).** A registration for one of the primitives that are passed through (`convert_element_type`, `reshape`,
`reduce_sum`, `reduce_window_sum`, `squeeze`, `transpose`, `jit`) raises nothing and has no effect on the interpreter. -/
theorem C81_pass_thru_wins (lib : Lib K) {s : Registry K R} (hk : Keys s.enclosures) (history : List (Call K R))
    {n : String} (g : Generator K) (hn : n ∈ passThruNames) (T : TEA K) :
    (s.after history).call (.primitive n g) = .ok (s.after (history ++ [.primitive n g])) ∧
    ∀ m, List.lookup m (pushforwardFuns lib (s.after (history ++ [.primitive n g])) T) =
      List.lookup m (pushforwardFuns lib (s.after history) T) := by
  refine ⟨by rw [after_snoc]; rfl, fun m => ?_⟩
  rw [lookup_pushforwardFuns lib (after_keys hk _), lookup_pushforwardFuns lib (after_keys hk _)]
  by_cases hm : m ∈ passThruNames
  · rw [if_pos hm, if_pos hm]
  · rw [if_neg hm, if_neg hm, lookup_after_other]
    rintro - g' ⟨h, -⟩
    exact hm (h ▸ hn)

end

/-! ### soundness after any history -/

section
variable {K R : Type} [Field K] [LinearOrder K] [IsStrictOrderedRing K]

/-- The registered enclosure function is one for the function that the primitive computes. -/
def RightGenerator (sem : Sem K) (n : String) (g : Generator K) : Prop :=
  ∃ f, sem.fn n = some f ∧ SoundGenerator f (fun _ => True) g ∧ KeepsShape g

/-- After any history in which, for each primitive, the last registration is right, the tables are sound. -/
theorem C81_libSound {lib : Lib K} {sem : Sem K} {s : Registry K R} (hlib : LibSound (lib.inState s) sem)
    {history : List (Call K R)} (hright : ∀ n g, LastRegistered s history n g → RightGenerator sem n g) :
    LibSound (lib.inState (s.after history)) sem where
  fn := hlib.fn
  pow := hlib.pow
  gen n g hg := by
    replace hg : List.lookup n (s.after history).enclosures = some g := hg
    rcases C81_cases s history n with h | ⟨g', h⟩
    · rw [(C81_table s history n).2 h] at hg
      exact hlib.gen n g hg
    · rw [(C81_table s history n).1 g' h] at hg
      cases hg
      exact hright n g h
  powInt := hlib.powInt
  expoInt := hlib.expoInt
  expoFrac := hlib.expoFrac

/-- **C81 (soundness).** After any history of registrations, in any order and with any number of replacements and rejected
calls, the bounds of a program hold, if for each primitive the last registration is right: what was registered before it
does not matter. -/
theorem C81_sound {lib : Lib K} {sem : Sem K} {s : Registry K R} (hlib : LibSound (lib.inState s) sem)
    {history : List (Call K R)} (hright : ∀ n g, LastRegistered s history n g → RightGenerator sem n g)
    {jaxpr : Jaxpr K} {consts : List (ND K)} {maxDegree : ℤ} {propagate : Bool} {x0 lo hi x y : ND K} {bnd : Bounds K}
    (hlh : lo.shape = hi.shape) (h0 : (Coef.ivl lo hi).Contains x0) (hx : (Coef.ivl lo hi).Contains x)
    (hb : taylorBounds (lib.inState (s.after history)) jaxpr consts maxDegree propagate x0 lo hi = .ok bnd)
    (hfit : ProgramFits sem jaxpr consts x0)
    {vals0 : Vals K} (hev0 : evalEnv sem jaxpr consts x0 = .ok vals0) (hne0 : NonEmptyVals vals0)
    {vals : Vals K} (hev : evalEnv sem jaxpr consts x = .ok vals) (hne : NonEmptyVals vals)
    (hy : evalJaxpr sem jaxpr consts x = .ok y) :
    ∃ l u, bnd.lower x = .ok l ∧ bnd.upper x = .ok u ∧ l.shape = y.shape ∧ u.shape = y.shape ∧
      ∀ I, ValidIdx y.shape I → l.get I ≤ y.get I ∧ y.get I ≤ u.get I :=
  (C42_static (C81_libSound hlib hright) hlh h0 hx hb hfit hev0 hne0 hev hne hy).2

theorem pushforward_gen {lib lib' : Lib K} (h1 : lib'.sem = lib.sem) (h2 : lib'.powGen = lib.powGen)
    (h3 : lib'.expo = lib.expo) {T : TEA K} {p : Prim K} (h : ∀ n, p = .elementwise n → lib'.gen n = lib.gen n) :
    pushforward lib' T p = pushforward lib T p := by
  obtain ⟨sem, gen, pg, ex⟩ := lib
  obtain ⟨sem', gen', pg', ex'⟩ := lib'
  cases h1; cases h2; cases h3
  cases p
  case elementwise n =>
    show Option.map _ (gen' n) = Option.map _ (gen n)
    rw [show gen' n = gen n from h n rfl]
  all_goals rfl

theorem step_gen {lib lib' : Lib K} (h1 : lib'.sem = lib.sem) (h2 : lib'.powGen = lib.powGen)
    (h3 : lib'.expo = lib.expo) {T T0 : TEA K} {prop : Bool} {xs : List ℕ} {env : Env K} {eqn : Eqn K}
    (h : ∀ n, eqn.prim = .elementwise n → lib'.gen n = lib.gen n) :
    step lib' T T0 prop xs env eqn = step lib T T0 prop xs env eqn := by
  have e1 := pushforward_gen h1 h2 h3 (T := T) h
  have e2 := pushforward_gen h1 h2 h3 (T := T0) h
  unfold step eqnOutputs outRegion
  simp only [e1, e2, h1]

/-- **C81 (nothing else changes).** After any history, a program none of whose element-wise primitives was registered in it
has the result it had before. -/
theorem C81_other (lib : Lib K) {s : Registry K R} {history : List (Call K R)} {jaxpr : Jaxpr K}
    (h : ∀ eqn ∈ jaxpr.eqns, ∀ n, eqn.prim = .elementwise n → NotRegistered s history n) (consts : List (ND K))
    (maxDegree : ℤ) (propagate : Bool) (x0 lo hi : ND K) :
    taylorBounds (lib.inState (s.after history)) jaxpr consts maxDegree propagate x0 lo hi =
      taylorBounds (lib.inState s) jaxpr consts maxDegree propagate x0 lo hi := by
  have key : ∀ (T T0 : TEA K) (prop : Bool) (xs : List ℕ) (l : List (Eqn K)) (env : Env K),
      (∀ eqn ∈ l, ∀ n, eqn.prim = .elementwise n → NotRegistered s history n) →
      l.foldlM (step (lib.inState (s.after history)) T T0 prop xs) env =
        l.foldlM (step (lib.inState s) T T0 prop xs) env := by
    intro T T0 prop xs l
    induction l with
    | nil => intros; rfl
    | cons q l ih =>
      intro env hl
      rw [List.foldlM_cons, List.foldlM_cons, step_gen (lib := lib.inState s)
        (lib' := lib.inState (s.after history)) rfl rfl rfl
        fun n hn => (C81_table s history n).2 (hl q List.mem_cons_self n hn)]
      congr 1
      funext env'
      exact ih env' fun e he => hl e (List.mem_cons_of_mem _ he)
  unfold taylorBounds taylorEnv
  simp only [key _ _ _ _ _ _ h]

end

/-! ### the library's own registrations -/

/-- The dict after the import of the module. -/
theorem importedState_eq {R : Type} (rule : String → String → R) :
    importedState rule =
      ⟨["__autobound_swish__", "__autobound_softplus__", "__autobound_sigmoid__"],
        [rule "sigmoid" "__autobound_sigmoid__", rule "softplus" "__autobound_softplus__",
          rule "swish" "__autobound_swish__"],
        displayState (R := R).enclosures ++
          [("__autobound_sigmoid__", PE.elementwiseGen ⟨.sigmoid, 0⟩),
           ("__autobound_softplus__", PE.elementwiseGen ⟨.softplus, 0⟩),
           ("__autobound_swish__", PE.elementwiseGen ⟨.swish, 0⟩)]⟩ := rfl

/-- **C81 (the library's own tables).** After the import of the module, the enclosure functions are those of `realLib`,
the tables that the other properties are about; none of the primitives with a rule of their own is among them. -/
theorem C81_imported {R : Type} (rule : String → String → R) :
    realLib.inState (importedState rule) = realLib ∧ Keys (importedState rule).enclosures ∧
    ∀ n, (List.lookup n (importedState rule).enclosures).isSome → FreeName n := by
  refine ⟨?_, ?_, ?_⟩
  · show (⟨_, _, _, _⟩ : Lib ℝ) = ⟨_, _, _, _⟩
    congr 1
    funext n
    rw [importedState_eq]
    by_cases h : n ∈ ["abs", "cbrt", "exp", "log", "logistic", "rsqrt", "sqrt", "__autobound_sigmoid__",
      "__autobound_softplus__", "__autobound_swish__"]
    · simp only [List.mem_cons, List.not_mem_nil, or_false] at h
      rcases h with rfl | rfl | rfl | rfl | rfl | rfl | rfl | rfl | rfl | rfl <;> rfl
    · have h1 : realGen n = none := by
        simp only [List.mem_cons, List.not_mem_nil, or_false, not_or] at h
        unfold realGen builtinName rootExponent
        split
        · rename_i h2
          split at h2 <;> simp_all
        · split <;> simp_all
      rw [h1, ← Option.not_isSome_iff_eq_none, isSome_lookup]
      exact h
  · rw [importedState_eq]
    show (["abs", "cbrt", "exp", "log", "logistic", "rsqrt", "sqrt", "__autobound_sigmoid__",
      "__autobound_softplus__", "__autobound_swish__"] : List String).Nodup
    decide
  · intro n
    rw [isSome_lookup, importedState_eq]
    intro h
    replace h : n ∈ ["abs", "cbrt", "exp", "log", "logistic", "rsqrt", "sqrt", "__autobound_sigmoid__",
      "__autobound_softplus__", "__autobound_swish__"] := h
    simp only [List.mem_cons, List.not_mem_nil, or_false] at h
    rcases h with rfl | rfl | rfl | rfl | rfl | rfl | rfl | rfl | rfl | rfl <;>
      exact ⟨by decide, by decide⟩

end JB
end AB
