/-
C114: explicit dependences.
-/
import Verif.Model.ExplicitDeps

namespace Probayes

variable {V : Type}

/-- The outputs of a dependence that are taken: a dictionary, alone, in a tuple, or in a pair with something that is not a
dictionary. -/
inductive Spec.DepTaken : DepOut V → Prop
  | dict (d : Dict Str V) : Spec.DepTaken (.dict d)
  | single (d : Dict Str V) : Spec.DepTaken (.tuple [.dict d])
  | array (d : Dict Str V) : Spec.DepTaken (.tuple [.dict d, .array])
  | other (d : Dict Str V) : Spec.DepTaken (.tuple [.dict d, .other])

theorem depTaken_iff (out : DepOut V) : depCheck out = none ↔ Spec.DepTaken out := by
  constructor
  · intro h
    match out, h with
    | .dict d, _ => exact .dict d
    | .tuple [.dict d], _ => exact .single d
    | .tuple [.dict d, .array], _ => exact .array d
    | .tuple [.dict d, .other], _ => exact .other d
    | .tuple [.dict d, .dict e], h => exact absurd (show some Err.assertion = none from h) (by simp)
    | .tuple (.dict d :: a :: b :: ps), h => simp [depCheck, DepPart.isDict] at h
    | .tuple (.array :: ps), h => simp [depCheck, DepPart.isDict] at h
    | .tuple (.other :: ps), h => simp [depCheck, DepPart.isDict] at h
    | .tuple [], h => simp [depCheck] at h
    | .other, h => simp [depCheck] at h
  · rintro (_ | _ | _ | _) <;> rfl

/-- C114, in full: explicit dependences of outputs on inputs can be added, with an edge from each input
to each output, and the values they give are among those evaluated. -/
def C114_claim : Prop :=
  (∀ (s : ExplState) (o i : Str), s.prob = false →
    (s.addDeps (.full (.rv o) (.rv i) none)).2 = none ∧ (i, o) ∈ (s.addDeps (.full (.rv o) (.rv i) none)).1.edges) ∧
  (∀ (V : Type) (vals out : Dict Str V) (k key : Str) (v : V), out.get? key = some v →
    ∃ r, evalDeps (fun _ _ => .ok (.dict out)) vals (some [k]) = .ok (some r) ∧ r.get? key = some v)

/-- Neither of the two. -/
theorem C114_claim_fails : ¬ C114_claim ∧
    (ExplState.addDeps ⟨false, [], none, false⟩ (.full (.rv ['y']) (.rv ['x']) none)).2 = some (.py .attribute) ∧
    (ExplState.addDeps ⟨false, [], none, false⟩ (.full (.rv ['y']) (.rv ['x']) none)).1.edges = [] ∧
    ∃ r, evalDeps (fun _ _ => .ok (.dict [(['y'], 4)])) [(['x'], 2)] (some [['y', '|', 'x']]) = .ok (some r) ∧
      r = [(['x'], 2)] := by
  refine ⟨fun h => ?_, by decide, by decide, _, rfl, rfl⟩
  have := (h.1 ⟨true, [], none, false⟩ ['y'] ['x'] rfl).1
  revert this
  decide

theorem include_raises (s : ExplState) (a : DepArgs) : (s.include a).2 ≠ none := by
  unfold ExplState.include
  split
  · simp
  · cases a with
    | dict d => simp
    | alone o => simp
    | full o i fn =>
      simp only
      split <;> simp

/-- C114: `add_deps` raises, whatever it is called with. -/
theorem C114_raises (s : ExplState) (a : DepArgs) : (s.addDeps a).2 ≠ none := by
  unfold ExplState.addDeps
  split
  · simp
  · exact include_raises _ _

/-- C114: with an architecture that has edges, it raises RuntimeError and does nothing but to remove one edge. -/
theorem C114_edges (s : ExplState) (a : DepArgs) (e : Str × Str) (es : List (Str × Str)) (ha : s.arch = true)
    (he : s.edges = e :: es) : s.addDeps a = ({ s with edges := es }, some .runtime) := by
  simp [ExplState.addDeps, ha, he]

theorem addDeps_eq (s : ExplState) (a : DepArgs) (h : s.arch = false ∨ s.edges = []) :
    s.addDeps a = s.cleared.include a := by
  unfold ExplState.addDeps
  split
  · rename_i h1 h2
    rcases h with h | h
    · rw [h] at h1; cases h1
    · rw [h] at h2; cases h2
  · rfl

theorem giveEntries (d : Dict Str (List (Str × Str))) (s : ExplState) (h : s.deps ≠ none) :
    (d.foldl ExplState.giveEntry s).arch = s.arch ∧ (d.foldl ExplState.giveEntry s).deps ≠ none ∧
      (d.foldl ExplState.giveEntry s).prob = s.prob := by
  induction d generalizing s with
  | nil => exact ⟨rfl, h, rfl⟩
  | cons kv d ih => exact ih (s.giveEntry kv) (by simp [ExplState.giveEntry])

/-- C114: once there are no such edges, the architecture is dropped each time, and there are explicit
dependences from then on, so that no probability can be set (sd.py:80). -/
theorem C114_dropped (s : ExplState) (a : DepArgs) (h : s.arch = false ∨ s.edges = []) :
    (s.addDeps a).1.arch = false ∧ (s.addDeps a).1.deps ≠ none ∧ (s.addDeps a).1.prob = s.prob ∧
    ((∀ d, a ≠ .dict d) → (s.addDeps a).1.edges = s.edges) := by
  rw [addDeps_eq s a h]
  have hc : s.cleared.deps ≠ none := by simp [ExplState.cleared]
  unfold ExplState.include
  split
  · exact ⟨rfl, hc, rfl, fun _ => rfl⟩
  · cases a with
    | dict d =>
      obtain ⟨h1, h2, h3⟩ := giveEntries d s.cleared hc
      exact ⟨h1, h2, h3, fun h => absurd rfl (h d)⟩
    | alone o => exact ⟨rfl, hc, rfl, fun _ => rfl⟩
    | full o i fn =>
      simp only
      split
      · exact ⟨rfl, hc, rfl, fun _ => rfl⟩
      · exact ⟨rfl, by simp, rfl, fun _ => rfl⟩

/-- C114, for what holds: the dependence of a variable on another is kept under the names of both, besides the
earlier ones, although the call raises AttributeError. -/
theorem C114_kept_partial (s : ExplState) (hs : s.prob = false) (h : s.arch = false ∨ s.edges = []) (o i : Str) :
    (s.addDeps (.full (.rv o) (.rv i) none)).2 = some (.py .attribute) ∧
    ∃ d, (s.addDeps (.full (.rv o) (.rv i) none)).1.deps = some d ∧
      d.get? (o ++ ['|'] ++ i) =
        some (.cf ⟨some [o], .field [i], some (o ++ ['|'] ++ i), false, none⟩) ∧
      ∀ k, k ≠ o ++ ['|'] ++ i → d.get? k = (s.deps.getD []).get? k := by
  have hc : newCF (.rv o) (.rv i) none = .ok ⟨some [o], .field [i], some (o ++ ['|'] ++ i), false, none⟩ := by
    simp [newCF, CFState.setOut, toRf, CFState.setInp, CFState.setField, commaJoin, List.intercalate]
  have hp : s.cleared.prob = false := hs
  rw [addDeps_eq s _ h]
  refine ⟨?_, (s.deps.getD []).set (o ++ ['|'] ++ i) (.cf ⟨some [o], .field [i], some (o ++ ['|'] ++ i), false, none⟩), ?_, ?_, ?_⟩
  · simp [ExplState.include, hp, hc]
  · simp [ExplState.include, hs, hc, ExplState.cleared]
  · rw [Dict.get?_set, if_pos rfl]
  · intro k hk
    rw [Dict.get?_set, if_neg (Ne.symm hk)]

/-- C114: beside a probability, every call is refused, but not before there are explicit dependences; so are, without a
probability, calls with nothing but variables, fields or tuples, and those whose function is refused. -/
theorem C114_refused (s : ExplState) (h : s.arch = false ∨ s.edges = []) :
    (s.prob = true → ∀ a, s.addDeps a =
      ({ s with arch := false, deps := some (s.deps.getD []) }, some (.py .assertion))) ∧
    (s.prob = false → ∀ o, s.addDeps (.alone o) =
      ({ s with arch := false, deps := some (s.deps.getD []) }, some (.py .attribute))) ∧
    (s.prob = false → ∀ o i e, s.addDeps (.full (.rv o) (.rv i) (some e)) =
      ({ s with arch := false, deps := some (s.deps.getD []) }, some (.py e))) := by
  refine ⟨fun hp a => ?_, fun hp o => ?_, fun hp o i e => ?_⟩
  · have : s.cleared.prob = true := hp
    rw [addDeps_eq s a h]
    unfold ExplState.include
    rw [if_pos this]
    rfl
  · have : ¬ s.cleared.prob = true := by simp [ExplState.cleared, hp]
    rw [addDeps_eq s _ h]
    unfold ExplState.include
    rw [if_neg this]
    rfl
  · have : ¬ s.cleared.prob = true := by simp [ExplState.cleared, hp]
    rw [addDeps_eq s _ h]
    unfold ExplState.include
    rw [if_neg this]
    rfl

theorem addEdges_mem (new es : List (Str × Str)) (e : Str × Str) :
    e ∈ new.foldl (fun es e => if e ∈ es then es else es ++ [e]) es ↔ e ∈ es ∨ e ∈ new := by
  induction new generalizing es with
  | nil => simp
  | cons x new ih =>
    rw [List.foldl_cons, ih]
    by_cases hx : x ∈ es
    · simp only [hx, if_true, List.mem_cons]
      constructor
      · rintro (h | h)
        · exact .inl h
        · exact .inr (.inr h)
      · rintro (h | rfl | h)
        · exact .inl h
        · exact .inl hx
        · exact .inr h
    · simp [hx, or_assoc]

theorem giveEntries_edges (d : Dict Str (List (Str × Str))) (s : ExplState) (e : Str × Str) :
    e ∈ (d.foldl ExplState.giveEntry s).edges ↔ e ∈ s.edges ∨ ∃ kv ∈ d, e ∈ kv.2 := by
  induction d generalizing s with
  | nil => simp
  | cons kv d ih =>
    rw [List.foldl_cons, ih]
    simp only [ExplState.giveEntry, addEdges_mem, List.mem_cons, exists_eq_or_imp, or_assoc]

/-- C114: dictionaries of edges: the edges are added, and the entries kept, before UnboundLocalError is
raised. -/
theorem C114_dict (s : ExplState) (hs : s.prob = false) (h : s.arch = false ∨ s.edges = [])
    (d : Dict Str (List (Str × Str))) :
    (s.addDeps (.dict d)).2 = some .unbound ∧
    (∀ e, e ∈ (s.addDeps (.dict d)).1.edges ↔ e ∈ s.edges ∨ ∃ kv ∈ d, e ∈ kv.2) ∧
    ∃ ds, (s.addDeps (.dict d)).1.deps = some ds ∧
      ∀ k es, d.keys.Nodup → d.get? k = some es → ds.get? k = some (.given es) := by
  have hp : s.cleared.prob = false := hs
  rw [addDeps_eq s _ h]
  have he : (s.cleared.include (.dict d)).1 = d.foldl ExplState.giveEntry s.cleared := by simp [ExplState.include, hp]
  refine ⟨by simp [ExplState.include, hp], fun e => by rw [he, giveEntries_edges]; rfl, ?_⟩
  rw [he]
  have key : ∀ (d : Dict Str (List (Str × Str))) (s : ExplState), s.deps ≠ none →
      ∃ ds, (d.foldl ExplState.giveEntry s).deps = some ds ∧
        (∀ k es, d.keys.Nodup → d.get? k = some es → ds.get? k = some (.given es)) ∧
        ∀ k, k ∉ d.keys → ds.get? k = (s.deps.getD []).get? k := by
    intro d
    induction d with
    | nil =>
      intro s hs
      obtain ⟨x, hx⟩ := Option.ne_none_iff_exists'.1 hs
      exact ⟨x, hx, fun k es _ h => by simp [Dict.get?] at h, fun k _ => by simp [hx]⟩
    | cons kv d ih =>
      intro s hs
      obtain ⟨k', es'⟩ := kv
      obtain ⟨ds, h1, h2, h3⟩ := ih (s.giveEntry (k', es')) (by simp [ExplState.giveEntry])
      refine ⟨ds, h1, fun k es hn hk => ?_, fun k hk => ?_⟩
      · rw [Dict.keys_cons, List.nodup_cons] at hn
        by_cases hkk : k' = k
        · subst hkk
          simp only [Dict.get?, if_true, Option.some.injEq] at hk
          subst hk
          rw [h3 _ hn.1]
          simp [ExplState.giveEntry, Dict.get?_set]
        · exact h2 k es hn.2 (by simpa [Dict.get?, hkk] using hk)
      · rw [Dict.keys_cons, List.mem_cons, not_or] at hk
        rw [h3 k hk.2]
        simp [ExplState.giveEntry, Dict.get?_set, Ne.symm hk.1]
  obtain ⟨ds, h1, h2, _⟩ := key d s.cleared (by simp [ExplState.cleared])
  exact ⟨ds, h1, h2⟩

/-- C114: `eval_deps` gives None if there are no explicit dependences, and otherwise, if it gives anything, the values it
was called with: nothing that the dependences give is among them. -/
theorem C114_values (call : Str → Dict Str V → Py (DepOut V)) (vals : Dict Str V) (ks : Option (List Str))
    (r : Option (Dict Str V)) (h : evalDeps call vals ks = .ok r) : r = ks.map fun _ => vals := by
  cases ks with
  | none =>
    simp only [evalDeps, Except.ok.injEq] at h
    exact h.symm
  | some ks =>
    simp only [evalDeps] at h
    split at h
    · cases h
    · simp only [Except.ok.injEq] at h
      exact h.symm

/-- C114: it gives them exactly if every dependence gives something that is accepted. -/
theorem C114_evaluated (call : Str → Dict Str V → Py (DepOut V)) (vals : Dict Str V) (ks : List Str) :
    evalDeps call vals (some ks) = .ok (some vals) ↔ ∀ k ∈ ks, ∃ out, call k vals = .ok out ∧ Spec.DepTaken out := by
  simp only [← depTaken_iff]
  have key : depLoop call vals ks = .ok () ↔ ∀ k ∈ ks, ∃ out, call k vals = .ok out ∧ depCheck out = none := by
    induction ks with
    | nil => simp [depLoop]
    | cons k ks ih =>
      rw [depLoop]
      cases hc : call k vals with
      | error e => simp [hc]
      | ok out =>
        simp only
        cases hd : depCheck out with
        | some e => simp [hc, hd]
        | none => simp [hc, hd, ih]
  rw [← key, evalDeps]
  cases depLoop call vals ks <;> simp

/-- C114: values and dimensions, each a dictionary, are refused in a pair, although that is the form
provided for; a dictionary alone is accepted, as is one beside an array. -/
theorem C114_outputs (d e : Dict Str V) :
    depCheck (.dict d) = none ∧ depCheck (.tuple [.dict d, .dict e]) = some .assertion ∧
    depCheck (.tuple [.dict d, .array]) = (none : Option Err) ∧ depCheck (.tuple [.dict d]) = none ∧
    depCheck (.other : DepOut V) = some .type ∧
    depCheck (.tuple [] : DepOut V) = some .index ∧
    (∀ ps : List (DepPart V), depCheck (.tuple (.array :: ps)) = some .assertion ∧
      depCheck (.tuple (.other :: ps)) = some .assertion) ∧
    (∀ ps : List (DepPart V), 3 ≤ ps.length → depCheck (.tuple ps) = some .assertion) := by
  refine ⟨rfl, rfl, rfl, rfl, rfl, rfl, fun ps => ⟨rfl, rfl⟩, fun ps h => ?_⟩
  cases ps with
  | nil => simp at h
  | cons p ps =>
    simp only [depCheck, if_pos h, ite_self]

/-- Two dependences: the edges of the architecture of the first are removed one at a time. -/
example : (ExplState.addDeps ⟨true, [(['r'], ['l']), (['r'], ['m'])], none, false⟩ (.alone .none)).1.edges = [(['r'], ['m'])] ∧
    (⟨false, [], none, false⟩ : ExplState).prob = false := by decide

end Probayes
