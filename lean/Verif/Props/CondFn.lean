/-
C113: the outputs, inputs and names of conditional functions.
-/
import Verif.Model.CondFn

namespace Probayes

/-! ### Specification -/

/-- The parts of a text between commas. -/
def Spec.parts (t : Str) : List Str := t.splitOn ','

/-- A dictionary covers the variables: its keys name all of them and nothing else, its texts name only
variables, and no text names a variable of its own key, unless there is one entry only. -/
structure Spec.Covers (o : List Str) (d : Dict Str Str) : Prop where
  all : ∀ k, k ∈ o ↔ ∃ kv ∈ d, k ∈ Spec.parts kv.1
  named : ∀ kv ∈ d, ∀ v ∈ Spec.parts kv.2, v ∈ o
  apart : 1 < d.length → ∀ kv ∈ d, ∀ v ∈ Spec.parts kv.2, v ∉ Spec.parts kv.1

/-- Names with commas between. -/
def Spec.listed : List Str → Str
  | [] => []
  | [k] => k
  | k :: ks => k ++ [','] ++ Spec.listed ks

theorem listed_eq (ks : List Str) : commaJoin ks = Spec.listed ks := by
  induction ks with
  | nil => rfl
  | cons k ks ih =>
    cases ks with
    | nil => simp [commaJoin, Spec.listed, List.intercalate]
    | cons k' ks =>
      simp only [commaJoin, List.intercalate] at ih
      simp [commaJoin, Spec.listed, List.intercalate, ← ih]

theorem covers_iff (o : List Str) (d : Dict Str Str) : cfCheck o d = true ↔ Spec.Covers o d := by
  have hk : ∀ k, k ∈ d.keys.flatMap (List.splitOn ',') ↔ ∃ kv ∈ d, k ∈ Spec.parts kv.1 := by
    intro k
    simp only [List.mem_flatMap, Dict.keys, List.mem_map, Spec.parts]
    constructor
    · rintro ⟨a, ⟨kv, h, rfl⟩, h'⟩
      exact ⟨kv, h, h'⟩
    · rintro ⟨kv, h, h'⟩
      exact ⟨_, ⟨kv, h, rfl⟩, h'⟩
  simp only [cfCheck, Bool.and_eq_true, List.all_eq_true, Bool.or_eq_true, decide_eq_true_eq, hk]
  constructor
  · rintro ⟨⟨h1, h2⟩, h3⟩
    exact ⟨fun k => ⟨h2 k, h3 k⟩, fun kv h v hv => (h1 kv h v hv).2, fun hl kv h v hv =>
      ((h1 kv h v hv).1).resolve_left (by omega)⟩
  · intro h
    refine ⟨⟨fun kv hkv v hv => ⟨?_, h.named kv hkv v hv⟩, fun k => (h.all k).1⟩, fun k => (h.all k).2⟩
    by_cases hl : d.length ≤ 1
    · exact .inl hl
    · exact .inr (h.apart (by omega) kv hkv v hv)

/-! ### The claim and what holds -/

/-- C113, in full: outputs and inputs may be a variable, a field without roots and stems, or a tuple or
list of such, and stand for all of their variables. -/
def C113_claim : Prop :=
  (∀ (s : CFState) (xs : List CFItem), xs ≠ [] →
    s.setOut (.seq xs) = ({ s with out := some (xs.flatMap fun | .rv k => [k] | .rf ks => ks) }, none)) ∧
  (∀ (s : CFState) (o : List Str) (xs : List CFItem), s.out = some o → xs ≠ [] →
    (s.setInp (.seq xs)).2 = none ∧
    (s.setInp (.seq xs)).1.inp = .field (xs.flatMap fun | .rv k => [k] | .rf ks => ks))

/-- A tuple of a variable and a field as outputs, and a tuple of two variables as inputs. -/
theorem C113_claim_fails : ¬ C113_claim ∧
    (CFState.setOut ⟨none, .unset, none, false, none⟩ (.seq [.rv ['x'], .rf [['y'], ['z']]])).2 = some .attribute ∧
    (CFState.setInp ⟨some [['x'], ['y']], .unset, none, false, none⟩ (.seq [.rv ['z'], .rv ['w']])).2 = some .type := by
  refine ⟨fun h => ?_, rfl, rfl⟩
  have := (h.2 ⟨some [['x'], ['y']], .unset, none, false, none⟩ _ [.rv ['z']] rfl (by simp)).1
  exact absurd this (by decide)

/-- C113: tuples and lists are refused as inputs, whatever they hold; so are dictionaries that are
not ordered.  As outputs, they are accepted if they hold variables only. -/
theorem C113_tuples (s : CFState) (xs : List CFItem) (d : Dict Str Str) :
    (s.setInp (.seq xs)).2 = some .type ∧ (s.setInp (.dict false d)).2 = some .type ∧
    (∀ ks : List Str, s.setOut (.seq (ks.map .rv)) = ({ s with out := some ks }, none)) ∧
    ((∃ ks, .rf ks ∈ xs) → s.setOut (.seq xs) = (s, some .attribute)) := by
  refine ⟨rfl, rfl, fun ks => ?_, fun h => ?_⟩
  · have : (ks.map CFItem.rv).mapM CFItem.key = .ok ks := by
      induction ks with
      | nil => rfl
      | cons k ks ih =>
        rw [List.map_cons, List.mapM_cons, ih]
        rfl
    simp only [CFState.setOut, toRf, this]
    rfl
  · have : xs.mapM CFItem.key = .error .attribute := by
      induction xs with
      | nil => simp at h
      | cons x xs ih =>
        rw [List.mapM_cons]
        cases x with
        | rf ks => rfl
        | rv k =>
          obtain ⟨ks, hks⟩ := h
          rw [ih ⟨ks, by simpa using hks⟩]
          rfl
    simp only [CFState.setOut, toRf, this]
    rfl

/-- C113: variables and fields without roots and stems are accepted as inputs once there are outputs,
and the name lists the outputs and the inputs. -/
theorem C113_field_partial (s : CFState) :
    (∀ o k, s.out = some o → s.setInp (.rv k) =
      (⟨some o, .field [k], some (Spec.listed o ++ ['|'] ++ k), false, none⟩, none)) ∧
    (∀ o ks, s.out = some o → s.setInp (.rf ks true) =
      (⟨some o, .field ks, some (Spec.listed o ++ ['|'] ++ Spec.listed ks), false, none⟩, none)) ∧
    (∀ ks, (s.setInp (.rf ks false)).2 = some .assertion) ∧
    (s.out = none → ∀ k ks b, (s.setInp (.rv k)).2 = some .assertion ∧ (s.setInp (.rf ks b)).2 = some .assertion) := by
  refine ⟨fun o k h => ?_, fun o ks h => ?_, fun ks => ?_, fun h k ks b => ?_⟩
  · simp [CFState.setInp, CFState.setField, h, toRf, listed_eq, Spec.listed]
  · simp [CFState.setInp, CFState.setField, h, toRf, listed_eq]
  · cases h : s.out <;> simp [CFState.setInp, CFState.setField, h, toRf]
  · simp [CFState.setInp, CFState.setField, h]

/-- C113: an OrderedDict is accepted exactly if there are two outputs or more and it covers them, or is
empty; the name then lists the outputs with primes and without. -/
theorem C113_dict (s : CFState) (o : List Str) (ho : s.out = some o) (d : Dict Str Str) :
    ((s.setInp (.dict true d)).2 = none ↔ 1 < o.length ∧ (d = [] ∨ Spec.Covers o d)) ∧
    ((s.setInp (.dict true d)).2 ≠ none → (s.setInp (.dict true d)).2 = some .assertion) ∧
    ((s.setInp (.dict true d)).2 = none →
      (s.setInp (.dict true d)).1.inp = (if d = [] then s.inp else .texts d) ∧
      (s.setInp (.dict true d)).1.name =
        some (Spec.listed (o.map fun k => k ++ ['\'']) ++ ['|'] ++ Spec.listed o)) := by
  simp only [CFState.setInp, CFState.setTexts, ho]
  by_cases hl : o.length ≤ 1
  · simp [hl]
    omega
  · simp only [hl, if_false]
    by_cases hd : d = []
    · subst hd
      simp [cfPrimed, listed_eq]
      omega
    · have hd' : d.isEmpty = false := by simpa using hd
      simp only [hd', Bool.false_eq_true, if_false, hd]
      by_cases hc : cfCheck o d = true
      · simp [hc, cfPrimed, listed_eq, (covers_iff o d).1 hc]
        omega
      · have : ¬ Spec.Covers o d := fun h => hc ((covers_iff o d).2 h)
        simp [hc, this]

/-- C113: without inputs, the variables are those of the outputs, of which there must be two. -/
theorem C113_none (s : CFState) :
    (s.out = none → (s.setInp .none).2 = some .attribute) ∧
    (∀ k, s.out = some [k] → (s.setInp .none).2 = some .assertion) ∧
    (∀ o, s.out = some o → 1 < o.length → s.setInp .none =
      (⟨some o, s.inp, some (Spec.listed (o.map fun k => k ++ ['\'']) ++ ['|'] ++ Spec.listed o), false, none⟩, none)) := by
  refine ⟨fun h => ?_, fun k h => ?_, fun o h hl => ?_⟩
  · simp [CFState.setInp, CFState.setTexts, h]
  · simp [CFState.setInp, CFState.setTexts, h]
  · simp [CFState.setInp, CFState.setTexts, h, Nat.not_le.2 hl, cfPrimed, listed_eq]

/-- C113: what is refused changes neither the inputs nor the name, but drops a pending unknown; inputs by
names are expected from then on exactly if a tuple, list or dictionary was passed. -/
theorem C113_refused (s : CFState) (i : CFInp) :
    ((s.setInp i).2 ≠ none → (s.setInp i).1.inp = s.inp ∧ (s.setInp i).1.name = s.name) ∧
    (s.setInp i).1.out = s.out ∧ (s.setInp i).1.unknown = none ∧
    ((s.setInp i).1.inpdict = true ↔ (∃ xs, i = .seq xs) ∨ ∃ b d, i = .dict b d) := by
  have ht : ∀ (s : CFState) d, ((s.setTexts d).2 ≠ none → (s.setTexts d).1.inp = s.inp ∧ (s.setTexts d).1.name = s.name) ∧
      (s.setTexts d).1.out = s.out ∧ (s.setTexts d).1.unknown = s.unknown ∧ (s.setTexts d).1.inpdict = s.inpdict := by
    intro s d
    unfold CFState.setTexts
    split
    · simp
    split
    · simp
    split
    · simp
    split <;> simp
  have hf : ∀ (s : CFState) j, ((s.setField j).2 ≠ none → (s.setField j).1.inp = s.inp ∧ (s.setField j).1.name = s.name) ∧
      (s.setField j).1.out = s.out ∧ (s.setField j).1.unknown = s.unknown ∧ (s.setField j).1.inpdict = s.inpdict := by
    intro s j
    unfold CFState.setField
    split
    · simp
    split <;> simp
  cases i with
  | none => obtain ⟨h1, h2, h3, h4⟩ := ht { s with inpdict := false, unknown := none } []; exact ⟨h1, h2, h3, by simp [CFState.setInp, h4]⟩
  | rv k => obtain ⟨h1, h2, h3, h4⟩ := hf { s with inpdict := false, unknown := none } (.rv k); exact ⟨h1, h2, h3, by simp [CFState.setInp, h4]⟩
  | rf ks b => obtain ⟨h1, h2, h3, h4⟩ := hf { s with inpdict := false, unknown := none } (.rf ks b); exact ⟨h1, h2, h3, by simp [CFState.setInp, h4]⟩
  | seq xs => simp [CFState.setInp]
  | dict b d =>
    cases b with
    | false => simp [CFState.setInp]
    | true => obtain ⟨h1, h2, h3, h4⟩ := ht { s with inpdict := true, unknown := none } d; exact ⟨h1, h2, h3, by simp [CFState.setInp, h4]⟩

/-- C113: new outputs leave the name and the inputs as they were. -/
theorem C113_outputs (s : CFState) (o : CFOut) :
    (s.setOut o).1.name = s.name ∧ (s.setOut o).1.inp = s.inp ∧
    (∀ k, o = .rv k → (s.setOut o) = ({ s with out := some [k] }, none)) ∧
    (∀ ks, o = .rf ks true → (s.setOut o) = ({ s with out := some ks }, none)) ∧
    (∀ ks, o = .rf ks false → (s.setOut o) = (s, some .assertion)) ∧
    (o = .none → (s.setOut o) = ({ s with out := none }, none)) := by
  refine ⟨?_, ?_, ?_, ?_, ?_, ?_⟩
  · unfold CFState.setOut; split <;> rfl
  · unfold CFState.setOut; split <;> rfl
  · rintro k rfl; rfl
  · rintro k rfl; rfl
  · rintro k rfl; rfl
  · rintro rfl; rfl

/-- The dictionary of the documentation (cf.py:93). -/
example : Spec.Covers ["x_0".toList, "x_1".toList, "x_2".toList, "x_3".toList, "x_4".toList]
    [("x_0,x_1".toList, "x_2,x_3,x_4".toList), ("x_2".toList, "x_0".toList), ("x_3,x_4".toList, "x_0,x_1,x_2".toList)] :=
  (covers_iff _ _).1 (by decide)

/-- A text that names a variable of its own key is refused if there are two entries. -/
example : ¬ Spec.Covers ["x".toList, "y".toList] [("x".toList, "x".toList), ("y".toList, "x".toList)] :=
  fun h => absurd ((covers_iff _ _).2 h) (by decide)

end Probayes
