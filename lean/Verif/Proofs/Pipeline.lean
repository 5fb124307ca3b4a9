/-
Evaluating a Jaxpr and evaluating the program the interpreter sees are the same.
-/
import Verif.Spec.Pipeline
import Verif.Proofs.Lax
import Verif.Proofs.JaxBound

set_option linter.unusedSectionVars false

namespace AB
namespace JB
open JE (Meaning VEnv atomVars)
variable {C P K : Type} [Field K]

theorem mapM_toOption {α β γ : Type} {f : α → Option γ} {g : α → Py β} {c : β → γ} : ∀ {l : List α},
    (∀ a ∈ l, f a = (g a).toOption.map c) → l.mapM f = (l.mapM g).toOption.map (List.map c)
  | [], _ => rfl
  | a :: l, h => by
    rw [List.mapM_cons, List.mapM_cons, h a List.mem_cons_self, mapM_toOption fun b hb => h b (List.mem_cons_of_mem _ hb)]
    cases g a with
    | error e => rfl
    | ok b =>
      cases l.mapM g with
      | error e => rfl
      | ok bs => rfl

/-- The environments agree on the variables of `S`. -/
def EnvRel (S : List JE.Var) (e : VEnv (ND K)) (env : Vals K) : Prop :=
  ∀ v ∈ S, v.count ≠ -1 → e v = (env.lookup v.count).map ND.canon

variable {D : Decode C P K} {sem : Sem K} {S : List JE.Var}

theorem read_rel {e : VEnv (ND K)} {env : Vals K} (h : EnvRel S e env) {a : JE.Atom C}
    (ha : ∀ v, a = .var v → v ∈ S ∧ v.count ≠ -1) :
    (D.meaning sem).read e a = (getVal env (D.atom a)).toOption.map ND.canon := by
  cases a with
  | lit l => rfl
  | var v =>
    obtain ⟨h1, h2⟩ := ha v rfl
    show e v = _
    rw [h v h1 h2]
    unfold Decode.atom getVal
    simp only
    cases env.lookup v.count <;> rfl

theorem mem_atomVars' {l : List (JE.Atom C)} {v : JE.Var} : v ∈ atomVars l ↔ JE.Atom.var v ∈ l := by
  unfold atomVars
  rw [List.mem_filterMap]
  constructor
  · rintro ⟨a, h1, h2⟩
    cases a with
    | var w => cases h2; exact h1
    | lit l => cases h2
  · intro h; exact ⟨_, h, rfl⟩

theorem reads_rel {e : VEnv (ND K)} {env : Vals K} (h : EnvRel S e env) {l : List (JE.Atom C)}
    (hl : ∀ v ∈ atomVars l, v ∈ S ∧ v.count ≠ -1) :
    l.mapM ((D.meaning sem).read e) = ((l.map D.atom).mapM (getVal env)).toOption.map (List.map ND.canon) := by
  rw [List.mapM_map]
  refine mapM_toOption fun a ha => read_rel h fun v hv => hl v ?_
  subst hv
  exact mem_atomVars'.2 ha

theorem bind_canon (p : Prim K) (xs : List (ND K)) : p.bind sem (xs.map ND.canon) = p.bind sem xs := by
  unfold Prim.bind
  rw [List.map_map]
  congr 1
  exact List.map_congr_left fun a _ => ND.canon_canon a

theorem assign_rel (hS : ∀ u ∈ S, ∀ v ∈ S, u.count = v.count → u = v) : ∀ {vs : List JE.Var} {xs : List (ND K)}
    {e : VEnv (ND K)} {env : Vals K}, EnvRel S e env → (∀ v ∈ vs, v ∈ S) → xs.length = vs.length →
    ∃ e', GE.assign e vs (xs.map ND.canon) = some e' ∧ EnvRel S e' (((vs.map JE.Var.count).zip xs).foldl storeVal env)
  | [], [], e, env, h, _, _ => ⟨e, rfl, h⟩
  | [], x :: xs, _, _, _, _, hl => by cases hl
  | v :: vs, [], _, _, _, _, hl => by cases hl
  | v :: vs, x :: xs, e, env, h, hv, hl => by
    have : EnvRel S (fun w => if w = v then some x.canon else e w) (storeVal env (v.count, x)) := by
      intro w hw hc
      unfold storeVal
      by_cases e1 : w = v
      · subst e1
        simp only [if_true]
        rw [if_neg hc]
        simp
      · simp only [if_neg e1]
        have hne : w.count ≠ v.count := fun h' => e1 (hS w hw v (hv v List.mem_cons_self) h')
        rw [h w hw hc]
        by_cases e2 : v.count = -1
        · rw [if_pos e2]
        · rw [if_neg e2, List.lookup_cons]
          have : (w.count == v.count) = false := by simpa using hne
          rw [this]
    exact assign_rel hS (vs := vs) (xs := xs) this (fun u hu => hv u (List.mem_cons_of_mem _ hu)) (by simpa using hl)

theorem assign_none {V α : Type} [DecidableEq V] : ∀ {vs : List V} {xs : List α} {e e' : V → Option α},
    GE.assign e vs xs = some e' → xs.length = vs.length
  | [], [], _, _, _ => rfl
  | [], _ :: _, _, _, h => by cases h
  | _ :: _, [], _, _, h => by cases h
  | _ :: vs, _ :: xs, _, _, h => by
    have := assign_none (vs := vs) (xs := xs) h
    simp [this]

/-- one equation -/
theorem step_rel (hS : ∀ u ∈ S, ∀ v ∈ S, u.count = v.count → u = v) {e : VEnv (ND K)} {env : Vals K}
    (h : EnvRel S e env) {q : JE.Eqn C P} (hr : ∀ v ∈ atomVars q.invars, v ∈ S ∧ v.count ≠ -1)
    (ho : ∀ v ∈ q.outvars, v ∈ S) :
    (∀ e', (D.meaning sem).step e q = some e' → ∃ env', evalEqn sem env (D.eqn q) = .ok env' ∧ EnvRel S e' env') ∧
    ∀ env', evalEqn sem env (D.eqn q) = .ok env' → ∃ e', (D.meaning sem).step e q = some e' ∧ EnvRel S e' env' := by
  have hreads := reads_rel (D := D) (sem := sem) h hr
  constructor
  · intro e' he
    unfold Meaning.step at he
    obtain ⟨xs, h1, he⟩ := Option.bind_eq_some_iff.1 he
    obtain ⟨ys, h2, he⟩ := Option.bind_eq_some_iff.1 he
    rw [hreads] at h1
    cases ha : (q.invars.map D.atom).mapM (getVal env) with
    | error er => rw [ha] at h1; cases h1
    | ok args =>
      rw [ha] at h1
      cases h1
      replace h2 : (((D.prim q.primitive q.params).bind sem (args.map ND.canon)).toOption).map (List.map ND.canon) =
        some ys := h2
      rw [bind_canon] at h2
      cases hb : (D.prim q.primitive q.params).bind sem args with
      | error er => rw [hb] at h2; cases h2
      | ok outs =>
        rw [hb] at h2
        cases h2
        have hlen : outs.length = q.outvars.length := by simpa using assign_none he
        obtain ⟨e'', k1, k2⟩ := assign_rel hS h ho hlen
        rw [k1] at he
        cases he
        refine ⟨_, ?_, k2⟩
        unfold evalEqn
        refine py_bind_ok.2 ⟨_, ha, py_bind_ok.2 ⟨_, hb, ?_⟩⟩
        rw [if_neg (by simp [Decode.eqn, hlen])]
        rfl
  · intro env' he
    unfold evalEqn at he
    obtain ⟨args, ha, he⟩ := py_bind_ok.1 he
    obtain ⟨outs, hb, he⟩ := py_bind_ok.1 he
    by_cases hl : outs.length ≠ (D.eqn q).outvars.length
    · rw [if_pos hl] at he; cases he
    rw [if_neg hl] at he
    cases he
    have hlen : outs.length = q.outvars.length := by simpa [Decode.eqn] using hl
    obtain ⟨e'', k1, k2⟩ := assign_rel hS h ho hlen
    refine ⟨e'', ?_, k2⟩
    unfold Meaning.step
    refine Option.bind_eq_some_iff.2 ⟨args.map ND.canon, ?_, Option.bind_eq_some_iff.2 ⟨_, ?_, k1⟩⟩
    · rw [hreads]
      replace ha : (q.invars.map D.atom).mapM (getVal env) = .ok args := ha
      rw [ha]; rfl
    · show (((D.prim q.primitive q.params).bind sem (args.map ND.canon)).toOption).map (List.map ND.canon) = _
      rw [bind_canon]
      replace hb : (D.prim q.primitive q.params).bind sem args = .ok outs := hb
      rw [hb]; rfl

/-- a sequence of equations -/
theorem run_rel (hS : ∀ u ∈ S, ∀ v ∈ S, u.count = v.count → u = v) : ∀ {es : List (JE.Eqn C P)} {e : VEnv (ND K)}
    {env : Vals K}, EnvRel S e env → (∀ q ∈ es, ∀ v ∈ atomVars q.invars, v ∈ S ∧ v.count ≠ -1) →
    (∀ q ∈ es, ∀ v ∈ q.outvars, v ∈ S) →
    (∀ e', es.foldlM (D.meaning sem).step e = some e' →
      ∃ env', (es.map D.eqn).foldlM (evalEqn sem) env = .ok env' ∧ EnvRel S e' env') ∧
    ∀ env', (es.map D.eqn).foldlM (evalEqn sem) env = .ok env' →
      ∃ e', es.foldlM (D.meaning sem).step e = some e' ∧ EnvRel S e' env'
  | [], e, env, h, _, _ => ⟨fun e' he => by cases he; exact ⟨env, rfl, h⟩, fun env' he => by cases he; exact ⟨e, rfl, h⟩⟩
  | q :: es, e, env, h, hr, ho => by
    obtain ⟨s1, s2⟩ := step_rel (D := D) (sem := sem) hS h (hr q List.mem_cons_self) (ho q List.mem_cons_self)
    constructor
    · intro e' he
      rw [List.foldlM_cons] at he
      obtain ⟨e1, h1, he⟩ := Option.bind_eq_some_iff.1 he
      obtain ⟨env1, k1, k2⟩ := s1 e1 h1
      obtain ⟨env', k3, k4⟩ := (run_rel hS (es := es) k2 (fun q hq => hr q (List.mem_cons_of_mem _ hq))
        fun q hq => ho q (List.mem_cons_of_mem _ hq)).1 e' he
      refine ⟨env', ?_, k4⟩
      rw [List.map_cons, List.foldlM_cons]
      exact py_bind_ok.2 ⟨_, k1, k3⟩
    · intro env' he
      rw [List.map_cons, List.foldlM_cons] at he
      obtain ⟨env1, h1, he⟩ := py_bind_ok.1 he
      obtain ⟨e1, k1, k2⟩ := s2 env1 h1
      obtain ⟨e', k3, k4⟩ := (run_rel hS (es := es) k2 (fun q hq => hr q (List.mem_cons_of_mem _ hq))
        fun q hq => ho q (List.mem_cons_of_mem _ hq)).2 env' he
      refine ⟨e', ?_, k4⟩
      rw [List.foldlM_cons]
      exact Option.bind_eq_some_iff.2 ⟨_, k1, k3⟩

/-- the constants -/
theorem consts_rel (hS : ∀ u ∈ S, ∀ v ∈ S, u.count = v.count → u = v) : ∀ {vs : List JE.Var} {xs : List (ND K)}
    {e : VEnv (ND K)}, vs.Nodup → (∀ v ∈ vs, v ∈ S) → xs.length = vs.length →
    ∃ e', GE.assign e vs (xs.map ND.canon) = some e' ∧
      ∀ v ∈ S, e' v = ((((vs.map JE.Var.count).zip xs).lookup v.count).map ND.canon).orElse fun _ => e v
  | [], [], e, _, _, _ => ⟨e, rfl, fun _ _ => rfl⟩
  | [], x :: xs, _, _, _, hl => by cases hl
  | v :: vs, [], _, _, _, hl => by cases hl
  | v :: vs, x :: xs, e, hn, hv, hl => by
    obtain ⟨e', k1, k2⟩ := consts_rel hS (vs := vs) (xs := xs) (e := fun w => if w = v then some x.canon else e w)
      (List.nodup_cons.1 hn).2 (fun u hu => hv u (List.mem_cons_of_mem _ hu)) (by simpa using hl)
    refine ⟨e', k1, fun w hw => ?_⟩
    rw [k2 w hw]
    simp only [List.map_cons, List.zip_cons_cons, List.lookup_cons]
    by_cases e1 : w = v
    · subst e1
      have : ((vs.map JE.Var.count).zip xs).lookup w.count = none := by
        rw [List.lookup_eq_none_iff]
        rintro ⟨c, y⟩ hc
        have := (List.of_mem_zip hc).1
        obtain ⟨u, hu, e2⟩ := List.mem_map.1 this
        rw [bne_iff_ne]
        intro e3
        have := hS w hw u (hv u (List.mem_cons_of_mem _ hu)) (by rw [e2]; simpa using e3)
        subst this
        exact (List.nodup_cons.1 hn).1 hu
      rw [this]
      simp
    · have : (w.count == v.count) = false := by
        simpa using fun h' => e1 (hS w hw v (hv v List.mem_cons_self) h')
      rw [this]
      simp [e1]

/-- **The program the interpreter sees computes what the Jaxpr computes.** -/
theorem decode_eval {j : JE.Jaxpr C P} (hc : j.CountsIdentify) (hd : j.DropsUnused) (hn : j.constvars.Nodup)
    {consts : List (ND K)} (hlen : consts.length = j.constvars.length) {vx : JE.Var} (hi : j.invars = [vx])
    {a : JE.Atom C} (ho : j.outvars = [a]) (x : ND K) :
    (∀ y, (D.meaning sem).eval j (consts.map ND.canon) [x.canon] = some [y] →
      ∃ y', evalJaxpr sem (D.jaxpr j) consts x = .ok y' ∧ y'.canon = y) ∧
    ∀ y', evalJaxpr sem (D.jaxpr j) consts x = .ok y' →
      (D.meaning sem).eval j (consts.map ND.canon) [x.canon] = some [y'.canon] := by
  have hin : ∀ {v}, v ∈ j.constvars ∨ v ∈ j.invars ∨ v ∈ atomVars j.outvars ∨ v ∈ JE.eqnsVars j.eqns → v ∈ j.vars := by
    intro v h
    unfold JE.Jaxpr.vars
    simp only [List.mem_append]
    tauto
  obtain ⟨e1, k1, k2⟩ := consts_rel (S := j.vars) hc (e := fun _ => none) hn (fun v hv => hin (Or.inl hv)) hlen
  have hx : vx ∈ j.vars := hin (Or.inr (Or.inl (by rw [hi]; exact List.mem_singleton_self _)))
  have h0 : EnvRel j.vars (fun w => if w = vx then some x.canon else e1 w) (evalInit (D.jaxpr j) consts x) := by
    intro w hw _
    unfold evalInit Decode.jaxpr
    simp only [hi, List.map_cons, List.map_nil, List.singleton_append, List.lookup_cons]
    by_cases e2 : w = vx
    · subst e2; simp
    · have : (w.count == vx.count) = false := by simpa using fun h' => e2 (hc w hw vx hx h')
      rw [this, if_neg e2, k2 w hw]
      cases List.lookup w.count ((j.constvars.map JE.Var.count).zip consts) <;> rfl
  obtain ⟨r1, r2⟩ := run_rel (D := D) (sem := sem) (S := j.vars) hc (es := j.eqns) h0
    (fun q hq v hv => ⟨hin (Or.inr (Or.inr (Or.inr (List.mem_flatMap.2 ⟨q, hq, List.mem_append_left _ hv⟩)))), hd.2 q hq v hv⟩)
    (fun q hq v hv => hin (Or.inr (Or.inr (Or.inr (List.mem_flatMap.2 ⟨q, hq, List.mem_append_right _ hv⟩)))))
  have hout : ∀ v, a = .var v → v ∈ j.vars ∧ v.count ≠ -1 := by
    rintro v rfl
    have hv : v ∈ atomVars j.outvars := mem_atomVars'.2 (by rw [ho]; exact List.mem_singleton_self _)
    exact ⟨hin (Or.inr (Or.inr (Or.inl hv))), hd.1 v (List.mem_append_right _ hv)⟩
  have heval : ∀ ys, (D.meaning sem).eval j (consts.map ND.canon) [x.canon] = some ys ↔ ∃ e,
      j.eqns.foldlM (D.meaning sem).step (fun w => if w = vx then some x.canon else e1 w) = some e ∧
      ∃ y, (D.meaning sem).read e a = some y ∧ ys = [y] := by
    intro ys
    unfold Meaning.eval
    rw [k1, hi, ho]
    show (Option.bind _ fun e => [a].mapM ((D.meaning sem).read e)) = some ys ↔ _
    rw [Option.bind_eq_some_iff]
    refine exists_congr fun e => and_congr_right fun _ => ?_
    rw [List.mapM_cons]
    cases (D.meaning sem).read e a with
    | none => simp
    | some y => simp [eq_comm]
  have hev : ∀ y', evalJaxpr sem (D.jaxpr j) consts x = .ok y' ↔ ∃ env,
      (j.eqns.map D.eqn).foldlM (evalEqn sem) (evalInit (D.jaxpr j) consts x) = .ok env ∧ getVal env (D.atom a) = .ok y' := by
    intro y'
    unfold evalJaxpr
    rw [py_bind_ok]
    refine exists_congr fun e => and_congr_right fun _ => ?_
    have : (D.jaxpr j).outvars = [D.atom a] := by unfold Decode.jaxpr; simp [ho]
    rw [this]
  constructor
  · intro y h
    obtain ⟨e, h1, y1, h2, h3⟩ := (heval _).1 h
    cases h3
    obtain ⟨env, h4, h5⟩ := r1 e h1
    rw [read_rel h5 hout] at h2
    cases hg : getVal env (D.atom a) with
    | error er => rw [hg] at h2; cases h2
    | ok y' =>
      rw [hg] at h2
      cases h2
      exact ⟨y', (hev _).2 ⟨env, h4, hg⟩, rfl⟩
  · intro y' h
    obtain ⟨env, h1, h2⟩ := (hev _).1 h
    obtain ⟨e, h4, h5⟩ := r2 env h1
    refine (heval _).2 ⟨e, h4, _, ?_, rfl⟩
    rw [read_rel h5 hout, h2]
    rfl

end JB
end AB
