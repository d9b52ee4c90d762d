/-
Property C44: fields accumulate variables without loss.
-/
import Verif.Model.Field
import Mathlib.Data.List.Dedup

namespace Probayes

/-- Specification: the field holds exactly the variables `vs`, in that order, and
reports them under their names. -/
def Spec.Holds (info : ℕ → VarInfo) (s : FieldState) (vs : List ℕ) : Prop :=
  s.nodes = vs ∧ s.nvars = vs.length ∧ s.vars = vs.map fun v => ((info v).name, v)

/-- C44 full claim: construction from distinct variables with distinct names holds
exactly these; adding distinct new variables (one or several) to a field keeps
the old ones and appends the new ones; adding a present variable is refused, by
`add_var` as well as by `&`. -/
def C44_claim : Prop :=
  ∀ (info : ℕ → VarInfo) (st : Bool), (∀ v, (info v).stoch = true → st = true) →
    (∀ vs : List ℕ, vs ≠ [] → vs.Nodup → (vs.map fun v => (info v).name).Nodup →
      ∃ s, mkField info st vs = (s, none) ∧ Spec.Holds info s vs) ∧
    (∀ (s : FieldState) (vs ws : List ℕ), vs ≠ [] → ws ≠ [] → Spec.Holds info s vs →
      (vs ++ ws).Nodup → ((vs ++ ws).map fun v => (info v).name).Nodup →
      ∃ s', addVar info st s (.many ws) = (s', none) ∧ Spec.Holds info s' (vs ++ ws)) ∧
    (∀ (a b : List ℕ) (v : ℕ), v ∈ a → v ∈ b → (andOp info st a b).2 ≠ none)

theorem addLoop_zero (vs nodes : List ℕ) :
    addLoop 0 vs nodes = (vs.foldl addNode nodes, true) := by
  induction vs generalizing nodes with
  | nil => rfl
  | cons v vs ih => simp [addLoop, ih]

theorem foldl_addNode_nodup (vs nodes : List ℕ) (h : (nodes ++ vs).Nodup) :
    vs.foldl addNode nodes = nodes ++ vs := by
  induction vs generalizing nodes with
  | nil => simp
  | cons v vs ih =>
      have hv : v ∉ nodes := by
        intro hv
        rw [List.nodup_append] at h
        exact h.2.2 v hv v (by simp) rfl
      simp only [List.foldl_cons, addNode, if_neg hv]
      rw [ih _ (by simpa using h)]; simp

theorem foldl_addNode_mem (vs nodes : List ℕ) (v : ℕ) :
    v ∈ vs.foldl addNode nodes ↔ v ∈ nodes ∨ v ∈ vs := by
  induction vs generalizing nodes with
  | nil => simp
  | cons w vs ih =>
      simp only [List.foldl_cons, ih, List.mem_cons]
      unfold addNode
      split
      · rename_i hw
        constructor
        · rintro (h | h) <;> simp [h]
        · rintro (h | rfl | h)
          · exact Or.inl h
          · exact Or.inl hw
          · exact Or.inr h
      · simp [or_assoc]

theorem refresh_nodup (info : ℕ → VarInfo) (st : Bool) (vs : List ℕ)
    (hst : ∀ v ∈ vs, (info v).stoch = true → st = true)
    (hn : (vs.map fun v => (info v).name).Nodup) :
    ∃ s, refresh info st vs = (s, true) ∧ Spec.Holds info s vs := by
  have hv : Dict.ofUpdates (vs.map fun v => ((info v).name, v)) =
      vs.map fun v => ((info v).name, v) := by
    apply Dict.ofUpdates_of_nodup
    simpa [List.map_map, Function.comp_def] using hn
  refine ⟨⟨vs, vs.length, vs.map fun v => ((info v).name, v)⟩, ?_, rfl, rfl, rfl⟩
  simp only [refresh, Prod.mk.injEq, true_and, hv]
  cases st
  · simp only [Bool.false_or, Bool.not_eq_true', List.any_eq_false, Dict.vals, List.mem_map]
    rintro v ⟨_, ⟨w, hw, rfl⟩, rfl⟩ h
    exact absurd (hst w hw h) (by simp)
  · rfl

/-- C44: constructing a field (any number of distinct variables with distinct
names) yields exactly these variables in order, and the reported number is the
number of keys. -/
theorem C44_build_partial (info : ℕ → VarInfo) (st : Bool) (vs : List ℕ) (hne : vs ≠ [])
    (hst : ∀ v ∈ vs, (info v).stoch = true → st = true) (hnd : vs.Nodup)
    (hn : (vs.map fun v => (info v).name).Nodup) :
    ∃ s, mkField info st vs = (s, none) ∧ Spec.Holds info s vs ∧
      s.nvars = s.vars.keys.length := by
  obtain ⟨s, hs, hh⟩ := refresh_nodup info st vs hst hn
  have hlen : s.nvars = s.vars.keys.length := by
    rw [hh.2.1, hh.2.2]; simp [Dict.keys]
  refine ⟨s, ?_, hh, hlen⟩
  match vs, hne with
  | [v], _ =>
      simp [mkField, addVar, addLoop, FieldState.empty, addNode, hs]
  | v :: w :: us, _ =>
      simp only [mkField, addVar, FieldState.empty, addLoop_zero]
      rw [foldl_addNode_nodup _ [] (by simpa using hnd)]
      obtain ⟨x, hx⟩ : ∃ x, (v :: w :: us).getLast? = some x :=
        ⟨_, List.getLast?_eq_some_getLast (by simp)⟩
      have hxm : x ∈ v :: w :: us := List.mem_of_getLast? hx
      have hadd : addNode (v :: w :: us) x = v :: w :: us := if_pos hxm
      simp only [List.nil_append, hx, hadd, hs]
      simp

/-- C44: adding one new variable to a field keeps the old ones, in order, and
appends the new one. -/
theorem C44_add_one_partial (info : ℕ → VarInfo) (st : Bool) (s : FieldState) (vs : List ℕ)
    (w : ℕ) (hh : Spec.Holds info s vs)
    (hst : ∀ v ∈ vs ++ [w], (info v).stoch = true → st = true) (hw : w ∉ vs)
    (hn : ((vs ++ [w]).map fun v => (info v).name).Nodup) :
    ∃ s', addVar info st s (.single w) = (s', none) ∧ Spec.Holds info s' (vs ++ [w]) := by
  obtain ⟨s', hs, hh'⟩ := refresh_nodup info st (vs ++ [w]) hst hn
  refine ⟨s', ?_, hh'⟩
  simp [addVar, addLoop, hh.1, addNode, hw, hs]

/-- C44: adding a variable that is present is refused and leaves the field as it
was. -/
theorem C44_duplicate_refused (info : ℕ → VarInfo) (st : Bool) (s : FieldState) (vs : List ℕ)
    (w : ℕ) (hh : Spec.Holds info s vs) (hw : w ∈ vs) :
    addVar info st s (.single w) = (s, some .assertion) := by
  have hne : s.nvars ≠ 0 := by rw [hh.2.1]; intro h0; simp at h0; simp [h0] at hw
  have hw' : w ∈ s.nodes := by rw [hh.1]; exact hw
  simp [addVar, addLoop, hne, hw']

/-- C44: any sequence of single additions of pairwise distinct variables with
distinct names to a field holds all of them in order. -/
theorem C44_add_sequence_partial (info : ℕ → VarInfo) (st : Bool) (ws : List ℕ) :
    ∀ (s : FieldState) (vs : List ℕ), Spec.Holds info s vs →
    (∀ v ∈ vs ++ ws, (info v).stoch = true → st = true) → (vs ++ ws).Nodup →
    ((vs ++ ws).map fun v => (info v).name).Nodup →
    Spec.Holds info (ws.foldl (fun s w => (addVar info st s (.single w)).1) s) (vs ++ ws) := by
  induction ws with
  | nil => intro s vs hh _ _ _; simpa using hh
  | cons w ws ih =>
      intro s vs hh hst hnd hn
      have e : vs ++ w :: ws = (vs ++ [w]) ++ ws := by simp
      rw [e] at hst hnd hn ⊢
      have hw : w ∉ vs := by
        intro hw
        have := (List.nodup_append.mp hnd).1
        rw [List.nodup_append] at this
        exact this.2.2 w hw w (by simp) rfl
      obtain ⟨s', hs', hh'⟩ := C44_add_one_partial info st s vs w hh
        (fun v hv => hst v (by simp only [List.mem_append] at hv ⊢; exact Or.inl hv)) hw
        (by rw [List.map_append] at hn; exact (List.nodup_append.mp hn).1)
      rw [List.foldl_cons, hs']
      exact ih s' _ hh' hst hnd hn

theorem addLoop_new (n : ℕ) (vs nodes : List ℕ) (h : (nodes ++ vs).Nodup) :
    addLoop n vs nodes = (nodes ++ vs, true) := by
  induction vs generalizing nodes with
  | nil => simp [addLoop]
  | cons v vs ih =>
      have hv : v ∉ nodes := by
        intro hv
        rw [List.nodup_append] at h
        exact h.2.2 v hv v (by simp) rfl
      simp only [addLoop, hv, and_false, if_false, addNode]
      rw [ih _ (by simpa using h)]; simp

/-- C44 fails for collections: `add_var` of any non-empty collection of new
variables to a non-empty field raises (the loop's `else` block re-checks the
variable just added), and leaves them in the graph while the reported variables
are unchanged. -/
theorem C44_add_collection_fails (info : ℕ → VarInfo) (st : Bool) (s : FieldState) (ws : List ℕ)
    (hs : s.nvars ≠ 0) (hw : ws ≠ []) (hnd : (s.nodes ++ ws).Nodup) :
    addVar info st s (.many ws) = ({ s with nodes := s.nodes ++ ws }, some .assertion) := by
  obtain ⟨x, hx⟩ : ∃ x, ws.getLast? = some x := ⟨_, List.getLast?_eq_some_getLast hw⟩
  have hxm : x ∈ ws := List.mem_of_getLast? hx
  simp [addVar, addLoop_new _ _ _ hnd, hx, hs, hxm]

/-- C44: an empty collection (hence also `Field()` without variables) raises. -/
theorem C44_empty_raises (info : ℕ → VarInfo) (st : Bool) (s : FieldState) :
    addVar info st s (.many []) = (s, some .assertion) := rfl

/-- C44: `a & b` holds the variables of `a` then of `b`; a shared variable is not
refused but silently merged. -/
theorem C44_and_partial (info : ℕ → VarInfo) (st : Bool) (a b : List ℕ)
    (hst : ∀ v ∈ a ++ b, (info v).stoch = true → st = true)
    (ha : a.Nodup) (hb : b.Nodup) (hane : a ≠ []) (hbne : b ≠ [])
    (hn : ((a ++ b.filter (· ∉ a)).map fun v => (info v).name).Nodup) :
    ∃ s, andOp info st a b = (s, none) ∧ Spec.Holds info s (a ++ b.filter (· ∉ a)) := by
  have hfold : ∀ (b nodes : List ℕ), b.Nodup →
      b.foldl addNode nodes = nodes ++ b.filter (· ∉ nodes) := by
    intro b
    induction b with
    | nil => intro nodes _; simp
    | cons v b ih =>
        intro nodes hb
        rw [List.nodup_cons] at hb
        simp only [List.foldl_cons, addNode]
        by_cases hv : v ∈ nodes
        · rw [if_pos hv, ih nodes hb.2]
          simp [hv]
        · rw [if_neg hv, ih _ hb.2]
          rw [List.filter_cons_of_pos (by simpa using hv), List.append_assoc]
          congr 2
          simp only [List.singleton_append, List.cons.injEq, true_and]
          apply List.filter_congr
          intro x hx
          have : x ≠ v := by rintro rfl; exact hb.1 hx
          simp [this]
  have hall : (a ++ b).foldl addNode [] = a ++ b.filter (· ∉ a) := by
    rw [List.foldl_append, foldl_addNode_nodup a [] (by simpa using ha), List.nil_append,
      hfold b a hb]
  obtain ⟨s, hs, hh⟩ := refresh_nodup info st (a ++ b.filter (· ∉ a))
    (fun v hv => hst v (by
      simp only [List.mem_append, List.mem_filter] at hv ⊢
      rcases hv with h | h
      · exact Or.inl h
      · exact Or.inr h.1)) hn
  refine ⟨s, ?_, hh⟩
  have hmk : mkField info st (a ++ b) = addVar info st FieldState.empty (.many (a ++ b)) := by
    match a, b, hane, hbne with
    | [x], y :: ys, _, _ => rfl
    | x :: x' :: xs, y :: ys, _, _ => rfl
  obtain ⟨x, hx⟩ : ∃ x, (a ++ b).getLast? = some x :=
    ⟨_, List.getLast?_eq_some_getLast (by simp [hane])⟩
  have hxm : x ∈ a ++ b.filter (· ∉ a) := by
    rw [← hall, foldl_addNode_mem]; exact Or.inr (List.mem_of_getLast? hx)
  rw [andOp, hmk, addVar]
  simp only [FieldState.empty, addLoop_zero, hall, hx]
  have hadd : addNode (a ++ b.filter (· ∉ a)) x = a ++ b.filter (· ∉ a) := if_pos hxm
  simp only [hadd, hs]
  simp

/-- C44: two different variables with the same name are counted twice but
reported once. -/
theorem C44_same_name_fails :
    ∃ (info : ℕ → VarInfo) (s : FieldState), mkField info false [0, 1] = (s, none) ∧
      s.nvars = 2 ∧ s.vars.keys.length = 1 :=
  ⟨fun _ => ⟨['x'], false⟩, _, rfl, rfl, rfl⟩

/-- C44 fails: adding a collection to a field raises, and `x & x` is accepted. -/
theorem C44_claim_fails : ¬ C44_claim := by
  intro h
  have := (h (fun v => ⟨List.replicate v 'x', false⟩) false (by simp)).2.2 [0] [0] 0
    (by simp) (by simp)
  exact this rfl

/-- Non-vacuity: a three-variable field, then a fourth variable. -/
example : (addVar (fun v => ⟨List.replicate v 'x', false⟩) false
    (mkField (fun v => ⟨List.replicate v 'x', false⟩) false [2, 1, 3]).1 (.single 4)).1.vars =
    [(['x','x'], 2), (['x'], 1), (['x','x','x'], 3), (['x','x','x','x'], 4)] := by decide

end Probayes
